{
 "claims": [
  {
   "property": "C01",
   "status": "proved",
   "theorems": [
    "Cdec.HG.C01_construction_indices",
    "Cdec.HG.C01_calls_effect"
   ],
   "note": "All histories of AddNode/AddEdge/ConnectEdgeToHeadNode whose arguments are in range."
  },
  {
   "property": "C02",
   "status": "proved",
   "theorems": [
    "Cdec.HG.C02_inside_is_sum_over_derivations",
    "Cdec.HG.C02_derivations_listed",
    "Cdec.HG.C02_inside_return"
   ],
   "note": "Any commutative semiring; at a node without incoming edges the value is zero (the empty sum)."
  },
  {
   "property": "C03",
   "status": "proved",
   "theorems": [
    "Cdec.HG.C03_expectation",
    "Cdec.HG.C03_edge_posterior",
    "Cdec.HG.C03_node_posterior",
    "Cdec.HG.C03_repeated_tail_fails"
   ],
   "note": "For hypergraphs in which no edge uses the same node twice as a tail (the statement's restriction); C03_repeated_tail_fails proves on a concrete graph that the code's test on node ids makes the posterior wrong otherwise."
  },
  {
   "property": "C04",
   "status": "proved",
   "theorems": [
    "Cdec.HG.C04_viterbi_best_derivation",
    "Cdec.HG.C04_no_in_edges_fails",
    "Cdec.HG.C04_path_length",
    "Cdec.HG.C04_path_edges"
   ],
   "note": "Any linearly ordered commutative semiring in which multiplication is monotone; C04_no_in_edges_fails records the behaviour on nodes without incoming edges."
  },
  {
   "property": "C05",
   "status": "proved",
   "theorems": [
    "Cdec.Dec.KBest.C05_kbest",
    "Cdec.Dec.KBest.C05_unique"
   ],
   "note": "pop_heap/nth_element are parameters with their library contracts; popMax/keepMax show that the contracts can be met. Without a filter only k < k_prime may be asked for (the code drops candidates beyond k_prime). Nodes without incoming edges are excluded (the code's assertion fails)."
  },
  {
   "property": "C06",
   "status": "proved",
   "theorems": [
    "Cdec.HG.C06_topological_sort",
    "Cdec.HG.C06_cycles_are_rejected",
    "Cdec.HG.C06_tables_stay_consistent"
   ],
   "note": "Termination, order, bijection of derivations and reachability, for every acyclic graph and every prune mask; cycles reachable from the goal are rejected (iff), and the node/edge tables of the result are consistent."
  },
  {
   "property": "C07",
   "status": "proved",
   "theorems": [
    "Cdec.HG.C07_prune_edges",
    "Cdec.HG.C07_inside_check_leaves_no_dead_nodes",
    "Cdec.HG.C07_tables_stay_consistent"
   ],
   "note": "Both settings of run_inside_algorithm; every mask."
  },
  {
   "property": "C08",
   "status": "partial",
   "theorems": [
    "Cdec.HG.C08_margin_pruning_partial",
    "Cdec.HG.C08_best_derivation_survives_partial",
    "Cdec.HG.C08_more_than_a_million_edges_fails",
    "Cdec.HG.C08_exact_cutoff_fails"
   ],
   "note": "Partial: beam/density thresholds keep every derivation above the effective cutoff, and the best derivation survives when there are at most 10^6 edges and no repeated tail; C08_more_than_a_million_edges_fails and C08_exact_cutoff_fails are machine-checked counterexamples to the unrestricted claim."
  },
  {
   "property": "C09",
   "status": "proved",
   "theorems": [
    "Cdec.HG.C09_union",
    "Cdec.HG.C09_tables_stay_consistent",
    "Cdec.HG.C09_union_with_empty_receiver"
   ],
   "note": "Union with a non-empty argument; empty receiver separately; the tables of the result are consistent. With an empty argument the code has undefined behaviour."
  },
  {
   "property": "C10",
   "status": "proved",
   "theorems": [
    "Cdec.HG.C10_reweight",
    "Cdec.HG.C10_viterbi_features"
   ],
   "note": "Exact arithmetic (any commutative semiring of weights)."
  },
  {
   "property": "C11",
   "status": "partial",
   "theorems": [
    "Cdec.HG.C11_node_edge_subset_partial",
    "Cdec.HG.C11_edge_subset_partial",
    "Cdec.HG.C11_node_ids_fails"
   ],
   "note": "Node/edge subset: edges, tails and derivations are as claimed up to renumbering; C11_node_ids_fails proves the copied nodes carry a wrong id."
  },
  {
   "property": "C12",
   "status": "partial",
   "theorems": [
    "Cdec.HG.C12_push_to_goal",
    "Cdec.HG.C12_push_to_source_partial",
    "Cdec.HG.C12_push_to_source_fails"
   ],
   "note": "Pushing to the goal is proved in full (each derivation is divided by the total). Pushing to the source is proved for lattices (at most one tail per edge, one source); C12_push_to_source_fails is a counterexample for general forests."
  },
  {
   "property": "C13",
   "status": "proved",
   "theorems": [
    "Cdec.Dec.C13_exact"
   ],
   "note": "NoPruningRescorer::Apply over arbitrary feature functions; AddFeaturesToEdge/AddFinalFeatures abstracted to functions of the edge and the antecedent states (C57 covers the state layout)."
  },
  {
   "property": "C14",
   "status": "proved",
   "theorems": [
    "Cdec.Dec.Cube.C14_fast",
    "Cdec.Dec.Cube.C14_normal",
    "Cdec.Dec.Cube.C14_fast2",
    "Cdec.Dec.Cube.C14_pops",
    "Cdec.Dec.Cube.C14_limit"
   ],
   "note": "KBest, KBestFast and KBestFast2 with the order of pops as an arbitrary schedule (heap order abstracted to: any element may be popped)."
  },
  {
   "property": "C15",
   "status": "proved",
   "theorems": [
    "Cdec.Dec.C15_cube"
   ],
   "note": "CubePruningRescorer::Apply including PruneUnreachable; scores abstracted to an arbitrary pop order, arbitrary state replacement and arbitrary order of D[v]."
  },
  {
   "property": "C16",
   "status": "partial",
   "theorems": [
    "Cdec.Dec.Parser.C16_unaries",
    "Cdec.Dec.Parser.C16_parses",
    "Cdec.Dec.Parser.C16_once",
    "Cdec.Dec.Parser.C16_language_partial",
    "Cdec.Dec.Parser.C16_goal_unary_fails",
    "Cdec.Dec.Parser.C16_unary_cycle_fails"
   ],
   "note": "C16_parses and C16_once: for every lattice and every set of grammars, exact parses and no duplicates, relative to the unary rules kept by TopoSortUnaries (C16_unaries characterises them). C16_language_partial: text grammars, the language is the context-free language under the span limits, if unary rules are acyclic and none rewrites the goal category; the two _fails theorems show that the claim is false of the code otherwise."
  },
  {
   "property": "C17",
   "status": "proved",
   "theorems": [
    "Cdec.Dec.C17_extend",
    "Cdec.Dec.C17_bins",
    "Cdec.Dec.C17_unaries",
    "Cdec.Dec.C17_fine"
   ],
   "note": "All histories of AddRule, including coarse-to-fine levels."
  },
  {
   "property": "C18",
   "status": "proved",
   "theorems": [
    "Cdec.Dec.C18_distance",
    "Cdec.Dec.C18_unreachable",
    "Cdec.Dec.C18_reused_lattice_fails"
   ],
   "note": "In-place Floyd-Warshall and the fill from the right, for lattices with forward arcs and fewer than 99999999 positions. C18_reused_lattice_fails: Array2D::resize keeps old contents, so a lattice object filled twice gets wrong distances."
  },
  {
   "property": "C19",
   "status": "proved",
   "theorems": [
    "Cdec.Dec.C19_target",
    "Cdec.Dec.C19_source",
    "Cdec.Dec.C19_target_length",
    "Cdec.Dec.C19_source_length"
   ],
   "note": "All sides and values; the length equation for sides whose variables are linear."
  },
  {
   "property": "C20",
   "status": "proved",
   "theorems": [
    "Cdec.Dec.C20_round_trip",
    "Cdec.Dec.C20_same_process",
    "Cdec.Dec.C20_too_long",
    "Cdec.Dec.C20_no_lhs_fails"
   ],
   "note": "C20_no_lhs_fails: a rule without a left-hand side (CreateLexicalRule) comes back with a category named <bad0>."
  },
  {
   "property": "C21",
   "status": "proved",
   "theorems": [
    "Cdec.Dec.C21_round_trip",
    "Cdec.Dec.C21_accepted_goes_forward",
    "Cdec.Dec.C21_empty_label_fails",
    "Cdec.Dec.C21_costs_fails"
   ],
   "note": "Printing and reading of floating point numbers is abstract (NumOK). C21_empty_label_fails and C21_costs_fails record what is not restored: an empty label breaks the reader, and the cost is read under another feature name than it is written from."
  },
  {
   "property": "C22",
   "status": "partial",
   "theorems": [
    "Cdec.Dec.C22_intersect",
    "Cdec.Dec.C22_written_partial",
    "Cdec.Dec.C22_written_binary_partial",
    "Cdec.Dec.C22_written_fails"
   ],
   "note": "Intersect: all linear rules of any arity. WriteAsCFG: right when the variable order is an involution (always up to two variables), C22_written_fails for a rotation of three."
  },
  {
   "property": "C23",
   "status": "proved",
   "theorems": [
    "Cdec.C23_small_vector",
    "Cdec.C23_equality",
    "Cdec.C23_push_own_element_fails"
   ],
   "note": "Any inline capacity, any number of vectors, any garbage; values passed to push_back are not elements of the same vector (C23_push_own_element_fails proves that case undefined)."
  },
  {
   "property": "C24",
   "status": "proved",
   "theorems": [
    "Cdec.Sparse.C24_value",
    "Cdec.Sparse.C24_dot_dense",
    "Cdec.Sparse.C24_dot_sparse",
    "Cdec.Sparse.C24_local_max_irrelevant"
   ],
   "note": "Refinement to the finite map for every program of API calls; erase is C25."
  },
  {
   "property": "C25",
   "status": "partial",
   "theorems": [
    "Cdec.Sparse.C25_erase_partial",
    "Cdec.Sparse.C25_erase_absent_fails",
    "Cdec.Sparse.C25_erase_absent_fails_witness",
    "Cdec.Sparse.C25_erase_empty_fails"
   ],
   "note": "erase(key) behaves only for keys that are present in a non-empty vector; counterexamples proved."
  },
  {
   "property": "C26",
   "status": "partial",
   "theorems": [
    "Cdec.Sparse.C26_eq_partial",
    "Cdec.Sparse.C26_eq_unsound_fails",
    "Cdec.Sparse.C26_eq_incomplete_fails"
   ],
   "note": "operator== is neither sound nor complete in general (counterexamples proved); it is right under the stated conditions."
  },
  {
   "property": "C27",
   "status": "proved",
   "theorems": [
    "Cdec.C27_dictionary"
   ],
   "note": "All histories of Convert, including frozen lookups."
  },
  {
   "property": "C28",
   "status": "partial",
   "theorems": [
    "Cdec.C28_decode_encode_partial",
    "Cdec.C28_plus_fails",
    "Cdec.C28_escape_injective_and_safe"
   ],
   "note": "Round trip for names without '+'; C28_plus_fails is the counterexample."
  },
  {
   "property": "C29",
   "status": "partial",
   "theorems": [
    "Cdec.C29_round_trip_partial",
    "Cdec.C29_two_byte_block_fails"
   ],
   "note": "Round trip for inputs whose length is not 2 mod 3, and for the bytes that survive otherwise; C29_two_byte_block_fails is the counterexample."
  },
  {
   "property": "C30",
   "status": "proved",
   "theorems": [
    "Cdec.C30_reads_links",
    "Cdec.C30_round_trip"
   ],
   "note": "ReadPharaohAlignmentGrid and SerializePharaohFormat: every list of links and every grid; numbers are unbounded naturals (the code uses int)."
  },
  {
   "property": "C31",
   "status": "proved",
   "theorems": [
    "Cdec.C31_grow_diag",
    "Cdec.C31_grow_diag_final",
    "Cdec.C31_grow_diag_final_and",
    "Cdec.C31_elementary"
   ],
   "note": "All symmetrisation operations of atools on every pair of grids."
  },
  {
   "property": "C32",
   "status": "proved",
   "theorems": [
    "Cdec.C32_compaction"
   ],
   "note": "All masks and vectors; do_moves, do_moves_swap and copy_to."
  },
  {
   "property": "C33",
   "status": "partial",
   "theorems": [
    "Cdec.LogVal.C33_arithmetic_partial",
    "Cdec.LogVal.C33_comparisons_partial",
    "Cdec.LogVal.C33_comparisons_mixed_partial",
    "Cdec.LogVal.C33_negative_comparison_fails",
    "Cdec.LogVal.C33_negative_zero_fails",
    "Cdec.LogVal.C33_star_of_zero_fails",
    "Cdec.LogVal.C33_star_partial"
   ],
   "note": "Over the exact reals: sums, products, quotients agree with the real numbers; comparisons are right for non-negative values. C33_negative_comparison_fails, C33_negative_zero_fails and C33_star_of_zero_fails are counterexamples to the unrestricted claim."
  },
  {
   "property": "C34",
   "status": "proved",
   "theorems": [
    "Cdec.Mert.C34_sort",
    "Cdec.Mert.C34_add",
    "Cdec.Mert.C34_mul",
    "Cdec.Mert.C34_constants",
    "Cdec.Mert.C34_in_place",
    "Cdec.Mert.C34_shared_points_fails"
   ],
   "note": "Over an ordered field. Value level: sort, += and *= compute exactly the pointwise maximum and sum, and sorted hulls are segmented envelopes. C34_in_place: the in-place sort through pointers agrees when the pointers are distinct; C34_shared_points_fails shows that it loses a line when they are shared (A += A)."
  },
  {
   "property": "C35",
   "status": "proved",
   "theorems": [
    "Cdec.Mert.C35_best",
    "Cdec.Mert.C35_close_breakpoints_fails"
   ],
   "note": "Over an ordered field, for any additive statistics, any metric and any sort. C35_close_breakpoints_fails: with breakpoints closer than epsilon the score returned is not the best."
  },
  {
   "property": "C36",
   "status": "proved",
   "theorems": [
    "Cdec.Bleu.C36_clipped_counts",
    "Cdec.Bleu.C36_closest_length",
    "Cdec.Bleu.C36_shortest_length",
    "Cdec.Bleu.C36_average_length"
   ],
   "note": "Exact counts over unbounded naturals; the n-gram map is modelled as a total function with default 0, and the float statistics are exact below 2^24."
  },
  {
   "property": "C37",
   "status": "proved",
   "theorems": [
    "Cdec.Edit.C37_levenshtein",
    "Cdec.Edit.C37_ter",
    "Cdec.Edit.C37_path",
    "Cdec.Edit.C37_distance_unique"
   ],
   "note": "Both the Levenshtein distance of the character/word error rates and the TER edit distance with its backtrace are covered."
  },
  {
   "property": "C38",
   "status": "proved",
   "theorems": [
    "Cdec.Ter.C38_perform_shift",
    "Cdec.Ter.C38_search",
    "Cdec.Ter.C38_long_sentences_fails"
   ],
   "note": "Hypotheses of at most 1024 words and references of at most 1025 words: longer ones are truncated by the packed shift keys, shown by C38_long_sentences_fails."
  },
  {
   "property": "C39",
   "status": "proved",
   "theorems": [
    "Cdec.Extract.C39_lookup",
    "Cdec.Extract.C39_null_phrase_fails"
   ],
   "note": "The word __NULL__ has number 0, which the sort treats as a sentinel; C39_null_phrase_fails shows a lookup of it failing."
  },
  {
   "property": "C40",
   "status": "proved",
   "theorems": [
    "Cdec.Extract.C40_suffix_array",
    "Cdec.Extract.C40_pivots_irrelevant",
    "Cdec.Extract.C40_null_word_fails"
   ],
   "note": "std::sort-free construction with arbitrary pivots; C40_null_word_fails shows a corpus containing the reserved word on which the result is not sorted."
  },
  {
   "property": "C41",
   "status": "proved",
   "theorems": [
    "Cdec.Extract.C41_lcp"
   ],
   "note": "Stated for the suffix array that the constructor builds."
  },
  {
   "property": "C42",
   "status": "proved",
   "theorems": [
    "Cdec.Extract.C42_intersect",
    "Cdec.Extract.C42_contiguous",
    "Cdec.Extract.C42_located"
   ],
   "note": "Phrases of any number of chunks; precomputed collocations are a parameter assumed exact where present (C45 shows when they are not). The link from suffix-array ranges to locations is C42_contiguous; C42_located closes the induction over how a phrase is assembled."
  },
  {
   "property": "C43",
   "status": "proved",
   "theorems": [
    "Cdec.Extract.C43_consistent",
    "Cdec.Extract.C43_terminates",
    "Cdec.Extract.C43_least",
    "Cdec.Extract.C43_succeeds",
    "Cdec.Extract.C43_gaps"
   ],
   "note": "FindFixPoint started without a target span, as every caller does; also termination, minimality, success without limits, and GetGaps."
  },
  {
   "property": "C44",
   "status": "partial",
   "theorems": [
    "Cdec.Extract.C44_monotone_partial",
    "Cdec.Extract.C44_two_gaps_partial",
    "Cdec.Extract.C44_three_gaps_fails"
   ],
   "note": "Any number of gaps in monotone order and any two gaps; C44_three_gaps_fails is the counterexample for three."
  },
  {
   "property": "C45",
   "status": "partial",
   "theorems": [
    "Cdec.Extract.C45_collocations_partial",
    "Cdec.Extract.C45_two_parts",
    "Cdec.Extract.C45_three_parts",
    "Cdec.Extract.C45_ternary_fails"
   ],
   "note": "C45_two_parts and C45_three_parts say exactly which collocations are stored (three parts: when frequent patterns have one word). C45_ternary_fails is the counterexample otherwise."
  },
  {
   "property": "C46",
   "status": "proved",
   "theorems": [
    "Cdec.Extract.C46_sound",
    "Cdec.Extract.C46_complete",
    "Cdec.Extract.C46_reads_in_range"
   ],
   "note": "Exact arithmetic for the loop variables."
  },
  {
   "property": "C47",
   "status": "proved",
   "theorems": [
    "Cdec.Extract.C47_normalised",
    "Cdec.Extract.C47_defined",
    "Cdec.Extract.C47_counts"
   ],
   "note": "Every corpus with links in range; also what each count is (C47_counts)."
  },
  {
   "property": "C48",
   "status": "proved",
   "theorems": [
    "Cdec.Klm.C48_read_back",
    "Cdec.Klm.C48_frame",
    "Cdec.Klm.C48_required_bits"
   ],
   "note": "Little-endian target, the buffer a function from byte addresses to bytes; reads and writes at every bit offset, with the documented restriction that a field fits in the 64-bit word that starts at its byte (length \u2264 57, or 25/31/32 for the narrower forms)."
  },
  {
   "property": "C49",
   "status": "proved",
   "theorems": [
    "Cdec.Klm.C49_history",
    "Cdec.Klm.C49_invalid_key_fails"
   ],
   "note": "Every history of insertions and lookups, every hash function, every size that leaves an empty bucket; growth by doubling included. C49_invalid_key_fails: looking up the reserved key finds it although it was never inserted."
  },
  {
   "property": "C50",
   "status": "partial",
   "theorems": [
    "Cdec.Klm.C50_find_or_insert_partial",
    "Cdec.Klm.C50_few_inserts_partial",
    "Cdec.Klm.C50_insert_fails"
   ],
   "note": "Partial: FindOrInsert behaves as a map for every history; Insert does so only while fewer keys than buckets are inserted. C50_insert_fails proves that Insert never counts its entries, so the table fills up and a later lookup does not end."
  },
  {
   "property": "C51",
   "status": "proved",
   "theorems": [
    "Cdec.Klm.C51_binary_find",
    "Cdec.Klm.C51_bounded_find",
    "Cdec.Klm.C51_sorted_uniform_find",
    "Cdec.Klm.C51_pivots_in_range"
   ],
   "note": "Unsigned keys, any pivot rule that stays in range; both interpolation rules used by the code are shown to stay in range."
  },
  {
   "property": "C52",
   "status": "proved",
   "theorems": [
    "Cdec.Klm.C52_first_intersection",
    "Cdec.Klm.C52_all_intersection"
   ],
   "note": "Any number of sorted sequences, whatever order the sort by size leaves them in."
  },
  {
   "property": "C53",
   "status": "proved",
   "theorems": [
    "Cdec.Klm.PCQ.C53_fifo",
    "Cdec.Klm.PCQ.C53_calls",
    "Cdec.Klm.PCQ.C53_no_overwrite",
    "Cdec.Klm.PCQ.C53_reads_oldest",
    "Cdec.Klm.PCQ.C53_no_deadlock"
   ],
   "note": "Every schedule of any number of threads, any size, with assignments that may throw at any time. The semaphores and mutexes are those of the language library."
  },
  {
   "property": "C54",
   "status": "proved",
   "theorems": [
    "Cdec.Klm.C54_single",
    "Cdec.Klm.C54_any",
    "Cdec.Klm.C54_bool",
    "Cdec.Klm.C54_multi",
    "Cdec.Klm.C54_split_unique",
    "Cdec.Klm.C54_null",
    "Cdec.Klm.C54_empty_delimiter_fails",
    "Cdec.Klm.C54_any_character_last_fails"
   ],
   "note": "SingleCharacter, AnyCharacter, BoolCharacter and MultiCharacter (non-empty string), with and without skipping empty tokens. C54_any_character_last_fails and C54_empty_delimiter_fails show the two forms that do not behave (not used in the code base)."
  },
  {
   "property": "C55",
   "status": "proved",
   "theorems": [
    "Cdec.C55_mixture_is_p",
    "Cdec.C55_draw_is_an_outcome"
   ],
   "note": "Exact arithmetic in any ordered field; termination is part of the definition (well-founded recursion)."
  },
  {
   "property": "C56",
   "status": "proved",
   "theorems": [
    "Cdec.C56_semiring_laws",
    "Cdec.C56_inside_computes_expectations",
    "Cdec.C56_star"
   ],
   "note": "Exact arithmetic, any commutative ring of probabilities and module of features."
  },
  {
   "property": "C57",
   "status": "proved",
   "theorems": [
    "Cdec.HG.C57_regions",
    "Cdec.HG.C57_erase"
   ],
   "note": "All lists of models whose ignored part is at most their state size."
  },
  {
   "property": "C58",
   "status": "partial",
   "theorems": [
    "Cdec.Align.C58_counts_partial",
    "Cdec.Align.C58_increment_partial",
    "Cdec.Align.C58_normalize",
    "Cdec.Align.C58_plus",
    "Cdec.Align.C58_increment_loses_counts_fails",
    "Cdec.Align.C58_increment_after_normalize_fails"
   ],
   "note": "Increment(e,f,x), Normalize and += for every history; the unit-count overload Increment(e,f) loses counts or writes out of bounds (counterexamples proved)."
  },
  {
   "property": "C59",
   "status": "partial",
   "theorems": [
    "Cdec.Align.C59_computeZ_partial",
    "Cdec.Align.C59_dlogz_partial",
    "Cdec.Align.C59_dlogz_swapped_partial",
    "Cdec.Align.C59_dlogz_fails",
    "Cdec.Align.C59_zero_tension_fails"
   ],
   "note": "Exact reals. ComputeZ is proved for all alpha != 0; ComputeDLogZ only for equal lengths, because the code exchanges the lengths in its call to ComputeZ (C59_dlogz_fails)."
  },
  {
   "property": "C60",
   "status": "partial",
   "theorems": [
    "Cdec.Sparse.C60_total_penalty_within_budget_partial",
    "Cdec.Sparse.C60_penalty_shrinks_partial",
    "Cdec.Sparse.C60_map_mode_partial",
    "Cdec.Sparse.C60_absent_key_fails",
    "Cdec.Sparse.C60_first_update_fails",
    "Cdec.Sparse.C60_reset_fails"
   ],
   "note": "Histories without ResetEpoch in which no absent key is erased from a small sparse vector (bug C25); counterexamples proved for the rest."
  },
  {
   "property": "C61",
   "status": "partial",
   "theorems": [
    "Cdec.ErrorRates.C61_wer",
    "Cdec.ErrorRates.C61_cer_partial",
    "Cdec.ErrorRates.C61_cer_fails"
   ],
   "note": "WER proved; CER holds when some reference is closer than the hypothesis length, otherwise the code reports zero errors over zero characters (C61_cer_fails)."
  },
  {
   "property": "C62",
   "status": "proved",
   "theorems": [
    "Cdec.Extract.C62_words",
    "Cdec.Extract.C62_word_ids",
    "Cdec.Extract.C62_sentences"
   ],
   "note": "Splitting of lines into words and file reading are not modelled."
  },
  {
   "property": "C63",
   "status": "partial",
   "theorems": [
    "Cdec.Mert.C63_surface_partial",
    "Cdec.Mert.C63_empty_translation_fails",
    "Cdec.Mert.C63_search_partial",
    "Cdec.Mert.C63_active_is_maximal"
   ],
   "note": "Proved for hulls that do not start with an empty translation (or whose empty translation has zero statistics); C63_empty_translation_fails shows that its statistics are lost otherwise. C63_search_partial composes it with the line search; C63_active_is_maximal ties the active segment to the hull of C34."
  },
  {
   "property": "C64",
   "status": "partial",
   "theorems": [
    "Cdec.Mert.IO.C64_round_trip_partial",
    "Cdec.Mert.IO.C64_long_statistics_fails"
   ],
   "note": "Round trip for encoded statistics shorter than 256 bytes; C64_long_statistics_fails: the length is stored in an unsigned char, so anything from 256 to 1023 bytes (admitted by the assertion) comes back cut."
  },
  {
   "property": "C65",
   "status": "proved",
   "theorems": [
    "Cdec.Mert.C65_segments",
    "Cdec.Mert.C65_value"
   ],
   "note": "Insides over the hull semiring computed as in Inside(); values are elements of an ordered field instead of doubles; dot products with the direction and the origin are arbitrary functions of the edge."
  },
  {
   "property": "C66",
   "status": "proved",
   "theorems": [
    "Cdec.Sparse.C66_round_trip",
    "Cdec.Sparse.C66_reserved_fails"
   ],
   "note": "C66_reserved_fails shows what happens to id 0 when it is not first. Perfect hashing is not modelled."
  },
  {
   "property": "C67",
   "status": "proved",
   "theorems": [
    "Cdec.Klm.LM.C67_full_score_sentence",
    "Cdec.Klm.LM.C67_full_score_null",
    "Cdec.Klm.LM.C67_sentence",
    "Cdec.Klm.LM.C67_forgot_state",
    "Cdec.Klm.LM.C67_get_state",
    "Cdec.Klm.LM.C67_state_short"
   ],
   "note": "Hash collisions, quantisation and the trie search are not modelled. The missing-<unk> substitution is not modelled."
  },
  {
   "property": "C68",
   "status": "proved",
   "theorems": [
    "Cdec.Klm.LM.C68_derivation_score",
    "Cdec.Klm.LM.C68_derivation_score_explicit",
    "Cdec.Klm.LM.C68_same_string"
   ],
   "note": "Word classes and unknown-word counting are not modelled."
  },
  {
   "property": "C69",
   "status": "proved",
   "theorems": [
    "Cdec.Klm.LM.C69_accepts",
    "Cdec.Klm.LM.C69_context",
    "Cdec.Klm.LM.C69_listed",
    "Cdec.Klm.LM.C69_blank",
    "Cdec.Klm.LM.C69_marks"
   ],
   "note": "NoRestBuild only. Log probabilities are taken to be at most 0 where the sign bit carries the mark."
  },
  {
   "property": "C70",
   "status": "proved",
   "theorems": [
    "Cdec.HG.C70_always_a_derivation",
    "Cdec.HG.C70_edges_identify",
    "Cdec.HG.C70_probability",
    "Cdec.HG.C70_report",
    "Cdec.HG.C70_shared_node_string_fails"
   ],
   "note": "C70_shared_node_string_fails: when a derivation visits a node twice with different edges the reported string is not that of the derivation."
  },
  {
   "property": "C71",
   "status": "proved",
   "theorems": [
    "Cdec.Dec.PB.C71_table",
    "Cdec.Dec.PB.C71_translations",
    "Cdec.Dec.PB.C71_once",
    "Cdec.Dec.PB.C71_pass_through_always",
    "Cdec.Dec.PB.C71_lattice_alternatives_fails"
   ],
   "note": "For lattices with alternative arcs from the empty coverage the claim fails: C71_lattice_alternatives_fails. Features and weights of rules are not modelled (C10)."
  },
  {
   "property": "C72",
   "status": "proved",
   "theorems": [
    "Cdec.Dec.PB.C72_restored_iff",
    "Cdec.Dec.PB.C72_phrase_lost_fails"
   ],
   "note": "The condition is exact; C72_phrase_lost_fails shows a table and two sentences where it is not met and a translation is lost."
  },
  {
   "property": "C73",
   "status": "proved",
   "theorems": [
    "Cdec.Extract.C73_target_phrases",
    "Cdec.Extract.C73_any_gaps",
    "Cdec.Extract.C73_tight"
   ],
   "note": "Proved for spans with up to two gaps as an equality of lists of choices, for more gaps as soundness."
  },
  {
   "property": "C74",
   "status": "proved",
   "theorems": [
    "Cdec.Extract.C74_sound",
    "Cdec.Extract.C74_outside",
    "Cdec.Extract.C74_complete",
    "Cdec.Extract.C74_three_gaps_fails"
   ],
   "note": "Complete for at most two nonterminals (the default); C74_three_gaps_fails shows that with three a valid rule is dropped."
  },
  {
   "property": "C75",
   "status": "proved",
   "theorems": [
    "Cdec.Extract.C75_rules",
    "Cdec.Extract.C75_source_count",
    "Cdec.Extract.C75_loose_fails"
   ],
   "note": "C75_loose_fails: without tight phrases a rule can be counted more often than there are occurrences, and its EgivenFCoherent is negative."
  },
  {
   "property": "C76",
   "status": "proved",
   "theorems": [
    "Cdec.Dec.C76_taggings",
    "Cdec.Dec.C76_once",
    "Cdec.Dec.C76_distinct",
    "Cdec.Dec.C76_empty_fails"
   ],
   "note": "Proved for every input of at least one word; an empty input reads a node that does not exist (C76_empty_fails)."
  },
  {
   "property": "C77",
   "status": "proved",
   "theorems": [
    "Cdec.Dec.C77_translations",
    "Cdec.Dec.C77_gives_up",
    "Cdec.Dec.C77_once",
    "Cdec.Dec.C77_distinct",
    "Cdec.Dec.C77_empty_fails"
   ],
   "note": "Proved for every reference of at least one word; for an empty one an assertion fails (C77_empty_fails)."
  },
  {
   "property": "C78",
   "status": "proved",
   "theorems": [
    "Cdec.Dec.C78_swaps",
    "Cdec.Dec.C78_gives_up",
    "Cdec.Dec.C78_orders",
    "Cdec.Dec.C78_empty_fails"
   ],
   "note": "Proved for every reference of at least one word; for an empty one an assertion fails (C78_empty_fails). C78_orders gives the reorderings as permutations that move no word by more than one place."
  },
  {
   "property": "C79",
   "status": "proved",
   "theorems": [
    "Cdec.Dec.C79_splits",
    "Cdec.Dec.C79_once",
    "Cdec.Dec.C79_empty_fails",
    "Cdec.Dec.C79_whole",
    "Cdec.Dec.C79_full_word",
    "Cdec.Dec.C79_characters",
    "Cdec.Dec.C79_characters_total"
   ],
   "note": "Proved for every non-empty word, with the decomposition into UTF-8 characters; for the empty word an assertion fails (C79_empty_fails)."
  },
  {
   "property": "C80",
   "status": "proved",
   "theorems": [
    "Cdec.Extract.C80_calls",
    "Cdec.Extract.C80_grammar"
   ],
   "note": "Sampling and extraction from a location are a parameter of the model here (they are C46, C43, C74, C75)."
  },
  {
   "property": "C81",
   "status": "proved",
   "theorems": [
    "Cdec.Train.C81_risk",
    "Cdec.Train.C81_entropy",
    "Cdec.Train.C81_objective"
   ],
   "note": "Over real numbers, for every list of k-best lists; the gradient is given by the derivatives along all directions."
  },
  {
   "property": "C82",
   "status": "partial",
   "theorems": [
    "Cdec.Train.C82_loss",
    "Cdec.Train.C82_gradient_partial",
    "Cdec.Train.C82_testing_fails"
   ],
   "note": "The gradient of the held-out pairs is added to that of the training pairs (C82_testing_fails); proved for an empty held-out set, and what the gradient is in general (C82_loss)."
  },
  {
   "property": "C83",
   "status": "partial",
   "theorems": [
    "Cdec.Train.C83_likelihood",
    "Cdec.Train.C83_total",
    "Cdec.Train.C83_prior_partial",
    "Cdec.Train.C83_means_fails"
   ],
   "note": "The likelihood and its gradient are proved in full, for forests without repeated tails (see C03). The prior ignores weights that are zero, which is wrong for means other than zero (C83_means_fails)."
  },
  {
   "property": "C84",
   "status": "proved",
   "theorems": [
    "Cdec.Align.C84_train",
    "Cdec.Align.C84_iteration",
    "Cdec.Align.C84_test",
    "Cdec.Align.C84_empty"
   ],
   "note": "Over real numbers, without variational Bayes and with a fixed tension, for corpora of non-empty sentence pairs; an empty side stops training (C84_empty)."
  },
  {
   "property": "C85",
   "status": "proved",
   "theorems": [
    "Cdec.Klm.Builder.C85_count",
    "Cdec.Klm.Builder.C85_independent",
    "Cdec.Klm.Builder.C85_sort",
    "Cdec.Klm.Builder.C85_exists"
   ],
   "note": "For every corpus, order, block size and merge plan."
  },
  {
   "property": "C86",
   "status": "proved",
   "theorems": [
    "Cdec.Klm.Builder.C86_lower",
    "Cdec.Klm.Builder.C86_highest",
    "Cdec.Klm.Builder.C86_collapse",
    "Cdec.Klm.Builder.C86_second"
   ],
   "note": "On the streams of C85, for every order."
  },
  {
   "property": "C87",
   "status": "partial",
   "theorems": [
    "Cdec.Klm.Builder.C87_prune_partial",
    "Cdec.Klm.Builder.C87_unpruned",
    "Cdec.Klm.Builder.C87_prune_fails"
   ],
   "note": "The records of the suffixes of the last n-gram are pruned by their adjusted counts (C87_prune_fails); for all other n-grams the claim is proved."
  },
  {
   "property": "C88",
   "status": "partial",
   "theorems": [
    "Cdec.Klm.Builder.C88_discounts",
    "Cdec.Klm.Builder.C88_kneser_ney",
    "Cdec.Klm.Builder.C88_parse",
    "Cdec.Klm.Builder.C88_pruned_partial",
    "Cdec.Klm.Builder.C88_sums",
    "Cdec.Klm.Builder.C88_range",
    "Cdec.Klm.Builder.C88_ngrams",
    "Cdec.Klm.Builder.C88_formula",
    "Cdec.Klm.Builder.C88_exists",
    "Cdec.Klm.Builder.C88_fallback",
    "Cdec.Klm.Builder.C88_pruned_fails"
   ],
   "note": "Proved without thresholds and, as _partial, with thresholds where the marks of C87 are right; with wrong marks lmplz fails (C88_pruned_fails). The closed form of the discounts and the parsing of fall-back discounts are C88_kneser_ney and C88_parse. Exact arithmetic."
  },
  {
   "property": "C89",
   "status": "proved",
   "theorems": [
    "Cdec.Dec.Scfg.C89_translates",
    "Cdec.Dec.Scfg.C89_identity",
    "Cdec.Dec.Scfg.C89_empty_fails"
   ],
   "note": "Parser and grammars as in C16 and C17, with the pass-through and glue grammars of the translator. The rules made from texts are taken as what their texts say (C20, C33)."
  },
  {
   "property": "C90",
   "status": "partial",
   "theorems": [
    "Cdec.Dec.Scfg.C90_grammars_partial",
    "Cdec.Dec.Scfg.C90_drop",
    "Cdec.Dec.Scfg.C90_restored",
    "Cdec.Dec.Scfg.C90_string_fails",
    "Cdec.Dec.Scfg.C90_shared_fails"
   ],
   "note": "Partial: the text of a grammar drops what was supplied before it for the same sentence (C90_string_fails; C90_drop says exactly what happens), and an object of the configuration that is supplied again is lost (C90_shared_fails)."
  },
  {
   "property": "C91",
   "status": "proved",
   "theorems": [
    "Cdec.Dec.Refine.C91_refine",
    "Cdec.Dec.Refine.C91_mixed",
    "Cdec.Dec.Refine.C91_goals_fails"
   ],
   "note": "One call of RefineForest; the pruning between the levels is C04, the features of refined edges other than LatticeCost are those of their rules and not modelled."
  },
  {
   "property": "C92",
   "status": "partial",
   "theorems": [
    "Cdec.SentServer.C92_order_partial",
    "Cdec.SentServer.C92_exit_partial",
    "Cdec.SentServer.C92_panic_partial",
    "Cdec.SentServer.C92_ends_partial",
    "Cdec.SentServer.C92_progress_partial",
    "Cdec.SentServer.C92_served_partial",
    "Cdec.SentServer.C92_synch_fails",
    "Cdec.SentServer.C92_hang_fails",
    "Cdec.SentServer.C92_panic_fails",
    "Cdec.SentServer.C92_read",
    "Cdec.SentServer.C92_read_dead",
    "Cdec.SentServer.C92_cut_fails"
   ],
   "note": "Partial: a node for a synchronisation line has an uninitialised status and can be taken by another thread (C92_synch_fails), a client that dies while another is being dismissed leaves the server hanging (C92_hang_fails), a panic loses finished answers (C92_panic_fails), and an answer cut off by the death of the client is accepted (C92_cut_fails). Order, exit codes, termination and progress are proved for all runs without the first."
  },
  {
   "property": "C93",
   "status": "partial",
   "theorems": [
    "Cdec.Dec.T2S.C93_translation",
    "Cdec.Dec.T2S.C93_flat_partial",
    "Cdec.Dec.T2S.C93_ranked_partial",
    "Cdec.Dec.T2S.C93_pass_through",
    "Cdec.Dec.T2S.C93_brackets_fails",
    "Cdec.Dec.T2S.C93_empty_label_fails"
   ],
   "note": "The forest is exact for what the translator takes rules to mean (C93_translation). That is what the rules say if source sides are one level deep or labels fix the number of children (C93_flat_partial, C93_ranked_partial); in general it is not (C93_brackets_fails). Labels must not be empty for pass-through rules (C93_empty_label_fails)."
  },
  {
   "property": "C94",
   "status": "partial",
   "theorems": [
    "Cdec.Dec.T2S.C94_read",
    "Cdec.Dec.T2S.C94_unambiguous",
    "Cdec.Dec.T2S.C94_iterate",
    "Cdec.Dec.T2S.C94_sites_refused",
    "Cdec.Dec.T2S.C94_nothing_after_partial",
    "Cdec.Dec.T2S.C94_unclosed_fails"
   ],
   "note": "An unclosed tree passes the check of the brackets and is read past its end (C94_unclosed_fails)."
  },
  {
   "property": "C95",
   "status": "proved",
   "theorems": [
    "Cdec.Klm.Filter.C95_single",
    "Cdec.Klm.Filter.C95_union",
    "Cdec.Klm.Filter.C95_multiple",
    "Cdec.Klm.Filter.C95_raw",
    "Cdec.Klm.Filter.C95_scores",
    "Cdec.Klm.Filter.C95_query",
    "Cdec.Klm.Filter.C95_line_number_fails"
   ],
   "note": "Proved for lines with an n-gram field and, in context mode, n-grams that are not empty and do not end in a space. Disagreement recorded: blank lines of the vocabulary are not counted in the numbers of the output files (C95_line_number_fails). The phrase modes are not part of this property."
  },
  {
   "property": "C96",
   "status": "partial",
   "theorems": [
    "Cdec.Klm.FilterThread.C96_safe",
    "Cdec.Klm.FilterThread.C96_frame",
    "Cdec.Klm.FilterThread.C96_race",
    "Cdec.Klm.FilterThread.C96_terminates",
    "Cdec.Klm.FilterThread.C96_progress",
    "Cdec.Klm.FilterThread.C96_complete",
    "Cdec.Klm.FilterThread.C96_arpa_partial",
    "Cdec.Klm.FilterThread.C96_raw",
    "Cdec.Klm.FilterThread.C96_raw_fails",
    "Cdec.Klm.FilterThread.C96_hang_fails",
    "Cdec.Klm.FilterBuffer.C96_buffer",
    "Cdec.Klm.FilterBuffer.C96_buffer_new",
    "Cdec.Klm.FilterBuffer.C96_buffer_fails"
   ],
   "note": "C96_arpa_partial: missing are files with a section whose length is a multiple of the batch size (such as an empty one) before a section with n-grams; there the program hangs (C96_hang_fails). Safety, order and absence of races hold for every command sequence and schedule. Other negations: files of counts lose the last partial batch (C96_raw, C96_raw_fails), MultipleOutputBuffer keeps last_ over Flush (C96_buffer_fails). The queue is an atomic FIFO (C53); memory exhaustion and exceptions in threads are not modelled."
  },
  {
   "property": "C97",
   "status": "proved",
   "theorems": [
    "Cdec.Klm.Phrase.C97_multiple",
    "Cdec.Klm.Phrase.C97_union",
    "Cdec.Klm.Phrase.C97_raw",
    "Cdec.Klm.Phrase.C97_room",
    "Cdec.Klm.Phrase.C97_query",
    "Cdec.Klm.Phrase.C97_unk_fails"
   ],
   "note": "For every hash function nothing is lost; exactness under Distinct (no two word lists with one hash). Negation: n-grams with <unk> after the first word are dropped although the full model uses them for unknown words (C97_unk_fails). Sentence numbers do not overflow; &*begin() of an empty vector is taken as harmless."
  },
  {
   "property": "C98",
   "status": "partial",
   "theorems": [
    "Cdec.NgramFeat.C98_cache",
    "Cdec.NgramFeat.C98_bigrams",
    "Cdec.NgramFeat.C98_bigrams_explicit",
    "Cdec.NgramFeat.C98_counts_partial",
    "Cdec.NgramFeat.C98_counts_explicit_partial",
    "Cdec.NgramFeat.C98_same_string",
    "Cdec.NgramFeat.C98_begin_fails"
   ],
   "note": "Proved in full for bigrams (C98_bigrams, C98_bigrams_explicit). For other orders C98_counts_partial and C98_counts_explicit_partial give the n-grams of w1 ... wm </s>; missing are those that begin with <s>: BeginSentenceState puts <s> at the far end of the context, so with order 3 or more (3 is the default) no n-gram with <s> is ever counted (C98_begin_fails). Strings with markers in the middle (feature Malformed), reading the cluster file and estimated features are outside the theorems."
  },
  {
   "property": "C99",
   "status": "proved",
   "theorems": [
    "Cdec.Klm.Chain.C99_in_order",
    "Cdec.Klm.Chain.C99_complete",
    "Cdec.Klm.Chain.C99_one_holder",
    "Cdec.Klm.Chain.C99_recycled",
    "Cdec.Klm.Chain.C99_no_deadlock",
    "Cdec.Klm.Chain.C99_no_abort",
    "Cdec.Klm.Chain.C99_terminates",
    "Cdec.Klm.Chain.C99_run",
    "Cdec.Klm.Chain.C99_stream_writes",
    "Cdec.Klm.Chain.C99_stream_reads",
    "Cdec.Klm.Chain.C99_read_file",
    "Cdec.Klm.Chain.C99_records"
   ],
   "note": "Exceptions (which abort the program), MultiProgress and file errors are not modelled. A queue is a FIFO with atomic operations, as shown in C53. The memory of a block outside its valid part is not followed."
  },
  {
   "property": "C100",
   "status": "proved",
   "theorems": [
    "Cdec.Dec.Decode.C100_best",
    "Cdec.Dec.Decode.C100_score",
    "Cdec.Dec.Decode.C100_always",
    "Cdec.Dec.Decode.C100_identity"
   ],
   "note": "Composes C16, C13, C04 and C19. Cube pruning, beam pruning between passes, summary features, coarse-to-fine parsing and the other outputs are not part of this model of Decode (C15, C08, C05 are about them). Unary rules that form a cycle are partly dropped by the parser, as in C16. A feature function sees the rule, the span and the features of an edge."
  },
  {
   "property": "C101",
   "status": "proved",
   "theorems": [
    "Cdec.Mteval.Ssk.C101_kernel",
    "Cdec.Mteval.Ssk.C101_similarity",
    "Cdec.Mteval.Ssk.C101_closest",
    "Cdec.Mteval.Ssk.C101_corpus"
   ],
   "note": "Floats are idealised as real numbers: no overflow, underflow or rounding. An empty corpus (0/0) is excluded."
  },
  {
   "property": "C102",
   "status": "proved",
   "theorems": [
    "Cdec.Klm.LM.C102_full_score_sentence",
    "Cdec.Klm.LM.C102_full_score_null",
    "Cdec.Klm.LM.C102_sentence",
    "Cdec.Klm.LM.C102_forgot_state",
    "Cdec.Klm.LM.C102_get_state",
    "Cdec.Klm.LM.C102_state_short",
    "Cdec.Klm.LM.C102_same_as_probing",
    "Cdec.Klm.LM.C102_accepts"
   ],
   "note": "Log probabilities are elements of an abelian group: no rounding. Without quantisation; next pointers are stored directly (both ways of storing them return the same numbers). The hypothesis Sizes excludes overflow in the interpolation search (C51)."
  },
  {
   "property": "C103",
   "status": "partial",
   "theorems": [
    "Cdec.Klm.LM.C103_sorted_files",
    "Cdec.Klm.LM.C103_buffer_independent",
    "Cdec.Klm.LM.C103_from_arpa",
    "Cdec.Klm.LM.C103_duplicate_partial",
    "Cdec.Klm.LM.C103_duplicate_fails"
   ],
   "note": "Partial because the program does not reject every file that lists an n-gram twice: two lines in the same batch are not noticed (C103_duplicate_fails). The rest is proved in full."
  },
  {
   "property": "C104",
   "status": "proved",
   "theorems": [
    "Cdec.Dec.Parser.Rs.C104_parses",
    "Cdec.Dec.Parser.Rs.C104_once",
    "Cdec.Dec.Parser.Rs.C104_agree",
    "Cdec.Dec.Parser.Rs.C104_finds_more",
    "Cdec.Dec.Parser.Rs.C104_limits_fails"
   ],
   "note": "The parser never asks a grammar whether it has rules for a span, so grammars with a limit give more parses than with the other parser (C104_limits_fails). Features are elements of any type with addition: sums are taken in the order of the code."
  },
  {
   "property": "C105",
   "status": "proved",
   "theorems": [
    "Cdec.Dec.Intersect.C105_intersect",
    "Cdec.Dec.Intersect.C105_features",
    "Cdec.Dec.Intersect.C105_empty_target_fails",
    "Cdec.Dec.Intersect.C105_lattice_fails"
   ],
   "note": "For forests that are not linear chains, and references that are sentences. Rules with an empty target side lose derivations (C105_empty_target_fails); lattices with one arc from each position but arcs that pass over positions are taken for sentences (C105_lattice_fails)."
  },
  {
   "property": "C106",
   "status": "proved",
   "theorems": [
    "Cdec.Dec.Fast.C106_fast_intersect",
    "Cdec.Dec.Fast.C106_unshared",
    "Cdec.Dec.Fast.C106_lexical",
    "Cdec.Dec.Fast.C106_tagger",
    "Cdec.Dec.Fast.C106_short_reference_fails",
    "Cdec.Dec.Fast.C106_shared_rule_fails",
    "Cdec.Dec.Fast.C106_pruned_forest_fails"
   ],
   "note": "Rule objects shared by several words are only inverted once (C106_shared_rule_fails), so the exchange of sides is proved for unshared rules (C106_unshared, C106_tagger). A reference shorter than the tagger's input is read past its end (C106_short_reference_fails). On forests that were pruned before, true may be returned with an empty forest (C106_pruned_forest_fails)."
  },
  {
   "property": "C107",
   "status": "proved",
   "theorems": [
    "Cdec.Klm.Packed.C107_entries",
    "Cdec.Klm.Packed.C107_find",
    "Cdec.Klm.Packed.C107_frame",
    "Cdec.Klm.Packed.C107_header",
    "Cdec.Klm.Packed.C107_compression",
    "Cdec.Klm.Packed.C107_trie",
    "Cdec.Klm.Packed.C107_smallest"
   ],
   "note": "Proved for up to 2^57 entries (the limit the program checks) and vocabularies below 2^32 - 1."
  },
  {
   "property": "C108",
   "status": "partial",
   "theorems": [
    "Cdec.Klm.Quantize.C108_nearest",
    "Cdec.Klm.Quantize.C108_lossless",
    "Cdec.Klm.Quantize.C108_error",
    "Cdec.Klm.Quantize.C108_order",
    "Cdec.Klm.Quantize.C108_middle_partial",
    "Cdec.Klm.Quantize.C108_longest",
    "Cdec.Klm.Quantize.C108_one_bit_fails",
    "Cdec.Klm.Quantize.C108_layout",
    "Cdec.Klm.Quantize.C108_header"
   ],
   "note": "Fails for one backoff bit, which SetupMemory accepts (C108_one_bit_fails); proved for all other accepted numbers of bits. Rounding is not modelled."
  },
  {
   "property": "C109",
   "status": "partial",
   "theorems": [
    "Cdec.Train.Mira.C109_run_partial",
    "Cdec.Train.Mira.C109_step",
    "Cdec.Train.Mira.C109_stay",
    "Cdec.Train.Mira.C109_final_fails",
    "Cdec.Train.Mira.C109_passes_fails"
   ],
   "note": "Fails at the end of passes: the averaged weights replace those of the decoder, so the next sentence is decoded and its loss computed with them; there is one sentence more than the passes have, so weights.mira-final.gz always holds an average (C109_final_fails, C109_passes_fails). C109_run_partial gives the complete behaviour. --sample_forest is not modelled."
  },
  {
   "property": "C110",
   "status": "partial",
   "theorems": [
    "Cdec.C110_lines",
    "Cdec.C110_no_newline",
    "Cdec.C110_round_trip_partial",
    "Cdec.C110_equals_fails",
    "Cdec.C110_short_file_fails",
    "Cdec.C110_newline_fails"
   ],
   "note": "Fails for names with '=' or tab, which are written after a space and cut when read (C110_equals_fails); for files of less than five bytes, as when all weights are zero and hidden (C110_short_file_fails); and a last line without a newline is processed twice, which changes another feature if its name has an '=' (C110_newline_fails). C110_round_trip_partial is for plain names. Printing and reading of numbers is a parameter; the binary format is not modelled."
  },
  {
   "property": "C111",
   "status": "partial",
   "theorems": [
    "Cdec.Train.Dtrain.C111_all",
    "Cdec.Train.Dtrain.C111_limit",
    "Cdec.Train.Dtrain.C111_xyx_partial",
    "Cdec.Train.Dtrain.C111_pro_partial",
    "Cdec.Train.Dtrain.C111_pass",
    "Cdec.Train.Dtrain.C111_train",
    "Cdec.Train.Dtrain.C111_all_samples",
    "Cdec.Train.Dtrain.C111_xyx_fails",
    "Cdec.Train.Dtrain.C111_xyx_bounds_fails",
    "Cdec.Train.Dtrain.C111_xyx_limit_fails",
    "Cdec.Train.Dtrain.C111_pro_fails"
   ],
   "note": "'all', the updates, batch updates and the selection of weights are proved. XYX never pairs the middle with the worst (C111_xyx_fails), reads outside the list for few samples (C111_xyx_bounds_fails) and ignores the limit (C111_xyx_limit_fails); C111_xyx_partial is what holds. PRO treats right pairs as errors with the default options (C111_pro_fails), and ranks only the first 5000 pairs (C111_pro_partial). Not modelled: gamma is zero in the theorems on updates; repeat, pclr, l1_reg, rescale, scale_bleu_diff."
  },
  {
   "property": "C112",
   "status": "proved",
   "theorems": [
    "Cdec.Klm.Vocab.C112_sorted",
    "Cdec.Klm.Vocab.C112_probing",
    "Cdec.Klm.Vocab.C112_read_words",
    "Cdec.Klm.Vocab.C112_sorted_binary",
    "Cdec.Klm.Vocab.C112_probing_binary",
    "Cdec.Klm.Vocab.C112_duplicate_fails",
    "Cdec.Klm.Vocab.C112_zero_hash_fails"
   ],
   "note": "Proved for both vocabularies under the absence of hash collisions. A word listed twice gets two indices unnoticed (C112_duplicate_fails); in the hashed vocabulary a word whose hash is 0 is lost (C112_zero_hash_fails), so the theorem excludes it. Word indices are unbounded numbers. GrowableVocab, SetSpecial and the checks for missing special words are not modelled."
  },
  {
   "property": "C113",
   "status": "partial",
   "theorems": [
    "Cdec.Train.Candidates.C113_history",
    "Cdec.Train.Candidates.C113_file_partial",
    "Cdec.Train.Candidates.C113_empty_features_fails",
    "Cdec.Train.Candidates.C113_order_fails",
    "Cdec.Train.Candidates.C113_bit_fails",
    "Cdec.Train.Candidates.C113_hash_fails"
   ],
   "note": "The history and the round trip of candidates with features are proved. A candidate without features makes the reader exit (C113_empty_features_fails); the same features in another order are not recognised (C113_order_fails); rounding keeps one low bit by mistake (C113_bit_fails); the hash is of truncated, the comparison of rounded values (C113_hash_fails). Statistics without a name come back with the name NULL. NaN is excluded."
  },
  {
   "property": "C114",
   "status": "partial",
   "theorems": [
    "Cdec.Scores.C114_corpus",
    "Cdec.Scores.C114_order",
    "Cdec.Scores.C114_statistics",
    "Cdec.Scores.C114_difference",
    "Cdec.Scores.C114_identity_partial",
    "Cdec.Scores.C114_identity_fails",
    "Cdec.Scores.C114_transport_partial",
    "Cdec.Scores.C114_million_fails",
    "Cdec.Scores.C114_length_fails",
    "Cdec.Scores.C114_ser_fails",
    "Cdec.Scores.C114_scaled_partial",
    "Cdec.Scores.C114_ter_scaled_fails",
    "Cdec.Scores.C114_half_fails"
   ],
   "note": "Sums, order and differences are proved for SER, BLEU, TER, WER, AER and both combinations. Transport is proved for integer BLEU counts below a million and everything else except SER (C114_ser_fails); larger BLEU counts lose digits (C114_million_fails) and can overflow the length byte of the combinations (C114_length_fails). Adding with a factor throws for TER for every factor (C114_ter_scaled_fails) and loses fractions for integer counts (C114_half_fails). A reference length of at most 1/10 counts as zero (C114_identity_fails). METEOR is not modelled."
  },
  {
   "property": "C115",
   "status": "partial",
   "theorems": [
    "Cdec.Scores.C115_aer_counts",
    "Cdec.Scores.C115_aer_partial",
    "Cdec.Scores.C115_aer_zero_partial",
    "Cdec.Scores.C115_empty_fails",
    "Cdec.Scores.C115_ser_counts",
    "Cdec.Scores.C115_ser_fails",
    "Cdec.Scores.C115_wer_partial",
    "Cdec.Scores.C115_wer_fails",
    "Cdec.Scores.C115_ter"
   ],
   "note": "AER is proved from the text to the value except when both alignments are empty, for which the code gives 1 (C115_empty_fails). SER counts are proved; the value is the rate of correct sentences, not of errors (C115_ser_fails). WER is proved for references that are not empty; an empty one wins with rate 0 (C115_wer_fails). TER is proved for sentences of up to 1024 words, on top of C38."
  },
  {
   "property": "C116",
   "status": "partial",
   "theorems": [
    "Cdec.BleuValue.C116_value_partial",
    "Cdec.BleuValue.C116_range",
    "Cdec.BleuValue.C116_monotone",
    "Cdec.BleuValue.C116_orders",
    "Cdec.BleuValue.C116_short_fails",
    "Cdec.BleuValue.C116_empty_fails",
    "Cdec.BleuValue.C116_qcri_fails",
    "Cdec.BleuValue.C116_sentence"
   ],
   "note": "Over real numbers. The value is proved for counts with n-grams of every order (C116_value_partial), with range and monotonicity; for shorter hypotheses the value of each implementation is given by C116_orders and they differ (C116_short_fails, C116_empty_fails). The QCRI variant does not distinguish no match from one match (C116_qcri_fails). C116_sentence connects it with the statistics of C36."
  },
  {
   "property": "C117",
   "status": "proved",
   "theorems": [
    "Cdec.Comb.C117_create",
    "Cdec.Comb.C117_single",
    "Cdec.Comb.C117_statistics",
    "Cdec.Comb.C117_total",
    "Cdec.Comb.C117_score",
    "Cdec.Comb.C117_announced_fails",
    "Cdec.Comb.C117_error_fails"
   ],
   "note": "Proved for every combination whose components give the number of fields they announce; external metrics announce 50 (C117_announced_fails). A combination of error metrics does not say it is one (C117_error_fails)."
  },
  {
   "property": "C118",
   "status": "partial",
   "theorems": [
    "Cdec.Dec.Basic.C118_word_penalty",
    "Cdec.Dec.Basic.C118_arity",
    "Cdec.Dec.Basic.C118_word_set",
    "Cdec.Dec.Basic.C118_oov_partial",
    "Cdec.Dec.Basic.C118_oov_fails",
    "Cdec.Dec.Basic.C118_non_latin_partial",
    "Cdec.Dec.Basic.C118_non_latin_words",
    "Cdec.Dec.Basic.C118_non_latin_fails",
    "Cdec.Dec.Basic.C118_side",
    "Cdec.Dec.Basic.C118_shape_name"
   ],
   "note": "Penalties, arities, word sets and shapes are proved for all derivations of rules with each variable once on the target side. With --oov the feature also counts every rule but the first (C118_oov_partial, C118_oov_fails). The non-Latin count is proved for words in which every character starts with a possible first byte; otherwise the loop does not end (C118_non_latin_fails)."
  },
  {
   "property": "C119",
   "status": "partial",
   "theorems": [
    "Cdec.Train.RProp.C119_runs",
    "Cdec.Train.RProp.C119_rule_partial",
    "Cdec.Train.RProp.C119_bounds",
    "Cdec.Train.RProp.C119_returns",
    "Cdec.Train.RProp.C119_zero_fails",
    "Cdec.Train.RProp.C119_converged",
    "Cdec.Train.RProp.C119_converged_fails",
    "Cdec.Train.RProp.C119_resume",
    "Cdec.Train.RProp.C119_truncated",
    "Cdec.Train.RProp.C119_size"
   ],
   "note": "The rule, the limits, the returns and the files are proved. A weight whose derivative is zero moves by its step, so weights of features that never occur drift (C119_zero_fails); HasConverged speaks about the gradient before the last move (C119_converged_fails). Arithmetic is exact; LBFGSOptimizer is not modelled."
  },
  {
   "property": "C120",
   "status": "partial",
   "theorems": [
    "Cdec.Mbr.C120_choice",
    "Cdec.Mbr.C120_mbr_partial",
    "Cdec.Mbr.C120_ter_partial",
    "Cdec.Mbr.C120_list",
    "Cdec.Mbr.C120_roles_fails",
    "Cdec.Mbr.C120_error_metric_fails",
    "Cdec.Mbr.C120_lists_partial",
    "Cdec.Mbr.C120_ids_partial",
    "Cdec.Mbr.C120_empty_fails",
    "Cdec.Mbr.C120_id_fails",
    "Cdec.Mbr.C120_missing_fails"
   ],
   "note": "The choice is proved for all lists, with the candidate in the role of the reference (C120_choice), so it is the one of minimum Bayes risk only for symmetric metrics (C120_mbr_partial, C120_ter_partial, C120_roles_fails). Error metrics other than TER are maximised (C120_error_metric_fails). Lists are read correctly from one file unless a list but the first begins with an empty translation (C120_lists_partial, C120_empty_fails); ids need two translations in each list (C120_ids_partial, C120_id_fails); two files need the same sentences (C120_missing_fails)."
  },
  {
   "property": "C121",
   "status": "partial",
   "theorems": [
    "Cdec.HashUnion.C121_checks",
    "Cdec.HashUnion.C121_empty",
    "Cdec.HashUnion.C121_nodes",
    "Cdec.HashUnion.C121_keeps",
    "Cdec.HashUnion.C121_contains_partial",
    "Cdec.HashUnion.C121_goal_partial",
    "Cdec.HashUnion.C121_from",
    "Cdec.HashUnion.C121_again",
    "Cdec.HashUnion.C121_exact_fails",
    "Cdec.HashUnion.C121_sorts",
    "Cdec.HashUnion.C121_result_partial",
    "Cdec.HashUnion.C121_cycle_fails"
   ],
   "note": "Stored derivations are kept exactly (C121_keeps); derivations of the new forest are there up to 1e-6 in each feature of each rule (C121_contains_partial, C121_goal_partial, C121_exact_fails). Nothing is made up (C121_from) and a second union with the same forest adds nothing before the sorting (C121_again). With the sorting at the end the same holds at the goal of the result if some order of the node names suits both forests (C121_sorts, C121_result_partial); otherwise it can abort on a cycle that neither forest has (C121_cycle_fails). C121_checks covers the checks before the union only."
  },
  {
   "property": "C122",
   "status": "proved",
   "theorems": [
    "Cdec.Corpus.C122_pairs",
    "Cdec.Corpus.C122_source",
    "Cdec.Corpus.C122_partition",
    "Cdec.Corpus.C122_refuses",
    "Cdec.Corpus.C122_line",
    "Cdec.Corpus.C122_agree_fails"
   ],
   "note": "Proved for all corpora, ranks and sizes. ReadLine accepts lines that ReadFromFile refuses (C122_agree_fails). Lines are lists of words: the conversion of strings is not modelled, nor are the streams, nor a line counter that overflows."
  },
  {
   "property": "C123",
   "status": "partial",
   "theorems": [
    "Cdec.Utoa.C123_utos",
    "Cdec.Utoa.C123_itos",
    "Cdec.Utoa.C123_injective",
    "Cdec.Utoa.C123_buffer",
    "Cdec.Utoa.C123_pad",
    "Cdec.Utoa.C123_trailing",
    "Cdec.Utoa.C123_append",
    "Cdec.Utoa.C123_append_fails",
    "Cdec.Utoa.C123_signed_pad_partial",
    "Cdec.Utoa.C123_pad_fails"
   ],
   "note": "utos, itos, append_utoa, the bound on the buffer, padding of unsigned numbers and dropping of zeros are proved for all widths. append_itoa calls utoa, so negative numbers come out wrong (C123_append_fails). itoa_left_pad is right for numbers with a sign (C123_signed_pad_partial); without one it leaves the first character of the buffer unwritten (C123_pad_fails)."
  },
  {
   "property": "C124",
   "status": "partial",
   "theorems": [
    "Cdec.Dedup.C124_lines",
    "Cdec.Dedup.C124_all_partial",
    "Cdec.Dedup.C124_first_partial",
    "Cdec.Dedup.C124_again",
    "Cdec.Dedup.C124_collision_fails"
   ],
   "note": "No line is printed twice and the order is kept for every hash function (C124_lines, C124_again). Every line is printed if the hashes of different lines of the file differ (C124_all_partial, C124_first_partial); for every hash function of 64 bits some file loses a line (C124_collision_fails). The hash function itself is a parameter."
  }
 ]
}