# Design of the formal model of redpony/cdec

## Trusted base

* The Lean 4.33.0 kernel, Lean's core library and, for the modules that import it, Mathlib's definitions
  (`Semiring`, `Field`, `LinearOrder`, `ℝ`, `ℚ`, `WithBot`, `Finset`, `List`).
* Axioms: only `propext`, `Classical.choice` and `Quot.sound`. The table at the end lists them for every
  property theorem (output of `#print axioms`). No axiom is declared; there is no `sorry`, `admit`, `native_decide`,
  `bv_decide`, `implemented_by` or `unsafe`.
* The reading of the C++ source. Every definition of the model cites the file and the lines it models, and says what
  it simplifies.
* Arithmetic on `double`/`float` is exact arithmetic (a semiring, an ordered field, `ℚ` or `ℝ`, as each file
  says). No theorem speaks about rounding. Counts kept in floats are natural numbers (exact below 2^24).
* `int` and `size_t` are unbounded unless the width matters to the property (bit packing, 16-bit sizes of
  `SmallVector`, packed TER shifts, `unsigned char` lengths, 32-bit subtraction in `da.h`), where it is modelled.
* `std::vector`, `std::map`, `std::unordered_map`, `std::string`, `std::sort`, `std::pop_heap`, `std::nth_element`,
  semaphores and mutexes behave as the standard says. Where the standard leaves a choice (order of equal elements,
  heap layout, iteration order of a hash map, order in which threads run, `rand()`), the theorems hold for every choice.
* Undefined behaviour, `assert` and `abort` are the result `none`, or an explicit precondition.

## What is modelled

| directory of the code | modelled | model |
|---|---|---|
| decoder/hg.{h,cc}, inside_outside.h, viterbi.h | node and edge tables, Inside, Outside, posteriors, Viterbi, topological sort, edge pruning, margin pruning, union, reweighting, subsets, weight pushing, sampling (hg_sampler.cc) | `HG/*` |
| decoder/kbest.h | lazy k-best extraction with and without unique-yield filter | `Decoder/KBest*` |
| decoder/apply_models.cc | NoPruningRescorer, CubePruningRescorer (three candidate strategies), `ffset.cc` layout | `Decoder/Rescore*`, `Decoder/Cube*`, `HG/FFSet` |
| decoder/hg_intersect.cc | the phrase filter, the forest as a grammar, `Intersect`, `FastLinearIntersect` | `Decoder/Intersect*` |
| decoder/bottom_up_parser.cc, bottom_up_parser-rs.cc, grammar.{h,cc}, trule.{h,cc} | chart parser, text grammar trie, rule substitution and serialisation | `Decoder/Parser*`, `Decoder/Grammar`, `Decoder/Subst`, `Decoder/Rule*` |
| decoder/lattice.*, hg_io.cc (PLF), hg_intersect.cc, forest_writer/cfg | distances, PLF writer and reader, forest as grammar | `Decoder/Lattice`, `Decoder/Plf`, `Decoder/ForestGrammar` |
| decoder/scfg_translator.cc, translator.cc | glue and pass-through grammars, `Translate`, supplemental grammars over histories, `RefineForest` | `Decoder/Scfg*`, `Decoder/Refine*` |
| decoder/phrasebased_translator.cc, phrasetable_fst.cc | coverage, queue, forest, text phrase table, pass-through rules | `Decoder/PhraseBased*` |
| decoder/tree2string_translator.cc, tree_fragment.{h,cc} | reading trees, iterator, grammar trie, `Translate`, pass-through rules | `Decoder/Tree*` |
| decoder/ff_ngrams.cc | the n-gram features over derivations | `Decoder/NgramFeat*` |
| utils | SmallVector, FastSparseVector (and its archive), Dict, feature-name escape, base64, alignment I/O, atools refiners, index compaction, LogVal, alias sampler, expectation semiring | `Util/*`, `Sparse/*` |
| training | MERT geometry, error surfaces, line search, surface serialisation, cumulative L1 optimiser, objectives and gradients of minrisk, PRO and CRF training, the sentence server | `Train/*` |
| decoder/tagger.cc, lextrans.cc, csplit.cc | the forests of the tagger, the lexical translator and the compound splitter | `Decoder/Trellis.lean` |
| mteval | BLEU statistics, Levenshtein, TER, WER, CER, string kernel | `Mteval/*` |
| extractor | data array, suffix array, LCP, lookup, intersector, precomputation, sampler, fix point, gaps, target phrases, rules of an occurrence, rule counts, the rule factory with its trie, translation table | `Extract/*` |
| klm/util | bit packing, probing hash tables, sorted search, multi-way intersection, PCQueue, token iterator | `Klm/*` |
| klm/lm/builder, klm/util/stream/sort.hh | lmplz: counting, external sorting, adjusted counts, pruning marks, discounts, initial probabilities, interpolation | `Klm/Lm*` |
| klm/util/stream | chains of workers, streams of records, reading and writing files | `Klm/Chain*`, `Klm/Stream*` |
| decoder/decoder.cc | `Decode` from the lattice to the printed translation, with exhaustive rescoring passes | `Decoder/Decode*` |
| klm/lm/filter, klm/util/thread_pool.hh | the language model filter: vocabularies, modes single, union and multiple, context, ARPA and count files, the threaded controller; the phrase filter | `Klm/Filter*`, `Klm/Phrase*` |
| klm/lm, decoder/ff_klm.cc | ARPA loading into the probing model, queries, states, left-to-right and chart scoring, the language model feature | `Klm/NGram*`, `Klm/Chart*`, `Klm/HashedBuild*` |
| klm/lm/trie_sort, search_trie, trie | sorting an ARPA file on disk, building the trie, looking n-grams up in it | `Klm/Trie*` |
| klm/lm/trie, bhiksha | the packed tables in memory, with full and with compressed pointers | `Klm/Packed*` |
| klm/lm/quantize | bins, codes, packed pointers, layout and header | `Klm/Quantize*` |
| utils/weights | text weight files | `Util/Weights*` |
| training/dtrain | pair sampling, updates, main loop | `Train/Dtrain*` |
| klm/lm/vocab | `SortedVocabulary`, `ProbingVocabulary`, `WriteWordsWrapper`, `ReadWords`; not `GrowableVocab` and the special-word checks | `Klm/Vocab*` |
| training/utils/candidate_set | `Dedup`, additions, writing and reading files | `Train/Candidates*` |
| mteval score classes | adding, subtracting, scaling, identity test, text form of SER, BLEU, TER, WER, AER and combination scores | `Mteval/Scores*` |
| mteval/aer_scorer, wer, ter, SER of scorer.cc | `ScoreCandidate`, `ComputeScore` | `Mteval/SentenceScores*` |
| value of BLEU in ns.cc and scorer.cc | `ComputeBreakdown`, `ComputeScore` | `Mteval/BleuValue*` |
| mteval/ns_comb, SufficientStats of ns.h | combinations of metrics, sums of statistics | `Mteval/Comb*` |
| decoder/ff_basic, ff_wordset, ff_charset, ff_ruleshape (RuleShapeFeatures) | values for a rule | `Decoder/BasicFeatures*` |
| training/utils/optimize (RPropOptimizer, Save, Load) | updates, convergence test, files | `Train/RProp*` |
| mteval/mbr_kbest | reading k-best lists, choice of least expected error | `Mteval/Mbr*` |
| decoder/hg_union | union of forests by node names | `HG/HashUnion*` |
| utils/corpus_tools | reading a corpus, whole or in shares | `Util/CorpusTools*` |
| utils/utoa.h | integers as strings | `Util/Utoa*` |
| utils/dedup_corpus | main | `Util/Dedup*` |
| training/mira/kbest_mira | oracles, update, main loop | `Train/Mira*` |
| word-aligner | TTable, DiagonalAlignment, the EM loop of fast_align | `Align/*` |

## What is not modelled

Input/output streams and compression, threads other than those of `PCQueue`, of the sentence server, of the language model filter and of chains of workers, MPI, command line handling, concrete
feature functions other than the language model and the n-gram features (they are parameters of the rescoring model), binary language model files other than their tables, the C++
memory model, floating point rounding, hash quality, running time, the Python bindings, and the parts of the
directories above that no definition cites.

## Conventions

* Models follow the code. `Spec` definitions are small and independent of the code. Theorems named `Cxx_…` in
  `Verif/Props/Cxx.lean` are the property theorems listed in `MANIFEST.json`; lemmas live elsewhere.
* `_partial` marks theorems that prove only part of a property; `_fails` marks machine-checked counterexamples: the
  property, or its extension beyond the proved range, is false of the code as modelled.
* Beside each theorem an `example` shows a concrete case that meets its hypotheses.
* `seeded/LOG.jsonl` records the wrong programs that the theorems were tested against.

## Plan and result per property

| id | property | model | proof | status | range and limits |
|---|---|---|---|---|---|
| C01 | Hypergraph construction keeps its indices consistent | HG/Model: node/edge tables as lists, three construction operations | invariant by induction over operation lists | proved | All histories of AddNode/AddEdge/ConnectEdgeToHeadNode whose arguments are in range. |
| C02 | Inside score is the sum over derivations | HG/InsideModel: Inside as a left fold over nodes; derivation trees in HG/Spec | induction over the node order, distributivity | proved | Any commutative semiring; at a node without incoming edges the value is zero (the empty sum). |
| C03 | Outside and posterior expectations | the backward loop with its `!=` test on tail ids | backward induction | proved | For hypergraphs in which no edge uses the same node twice as a tail (the statement's restriction); C03_repeated_tail_fails proves on a concrete graph that the code's test on node ids makes the posterior wrong otherwise. |
| C04 | Viterbi returns a best derivation | Viterbi loop with strict `<` update | induction over the node order | proved | Any linearly ordered commutative semiring in which multiplication is monotone; C04_no_in_edges_fails records the behaviour on nodes without incoming edges. |
| C05 | Lazy k-best returns the k best derivations in order | Decoder/KBest: candidate heap, per-node derivation lists, mutual recursion LazyKthBest/LazyNext with the library functions as parameters | invariant over all calls: listed + candidates cover the frontier | proved | pop_heap/nth_element are parameters with their library contracts; popMax/keepMax show that the contracts can be met. Without a filter only k < k_prime may be asked for (the code drops candidates beyond k_prime). Nodes without incoming edges are excluded (the code's assertion fails). |
| C06 | Topological sort preserves derivations and establishes order | HG/TopoModel: depth-first search, relocation map | invariant of the search, bijection of derivations | proved | Termination, order, bijection of derivations and reachability, for every acyclic graph and every prune mask; cycles reachable from the goal are rejected (iff), and the node/edge tables of the result are consistent. |
| C07 | Edge pruning removes exactly the derivations that use a pruned edge | PruneEdges as mask and re-indexing | derivations of a filtered graph | proved | Both settings of run_inside_algorithm; every mask. |
| C08 | Density / beam pruning never loses the Viterbi derivation | max-marginal pruning | inequality in an ordered semiring from C03/C04 | partial | Partial: beam/density thresholds keep every derivation above the effective cutoff, and the best derivation survives when there are at most 10^6 edges and no repeated tail; C08_more_than_a_million_edges_fails and C08_exact_cutoff_fails are machine-checked counterexamples to the unrestricted claim. |
| C09 | Union of forests | node/edge offset union | derivations split by goal edge | proved | Union with a non-empty argument; empty receiver separately; the tables of the result are consistent. With an empty argument the code has undefined behaviour. |
| C10 | Reweighting scores derivations by the feature dot product | dot products over the edges of a derivation | induction on derivations | proved | Exact arithmetic (any commutative semiring of weights). |
| C11 | Edge/Node subset keeps node identities | copy_reindex as written | witness for the wrong id; the rest proved | partial | Node/edge subset: edges, tails and derivations are as claimed up to renumbering; C11_node_ids_fails proves the copied nodes carry a wrong id. |
| C12 | Weight pushing preserves the derivation distribution | division by posteriors | telescoping over derivations | partial | Pushing to the goal is proved in full (each derivation is divided by the total). Pushing to the source is proved for lattices (at most one tail per edge, one source); C12_push_to_source_fails is a counterexample for general forests. |
| C13 | Exhaustive rescoring is exact | Decoder/Rescore: odometer over antecedent states and node map | bijection of derivations by induction over nodes | proved | NoPruningRescorer::Apply over arbitrary feature functions; AddFeaturesToEdge/AddFinalFeatures abstracted to functions of the edge and the antecedent states (C57 covers the state layout). |
| C14 | Cube pruning visits each combination of antecedents exactly once | Decoder/Cube: the three Push functions on index vectors; pops in any order | unique parent, induction on index sums | proved | KBest, KBestFast and KBestFast2 with the order of pops as an arbitrary schedule (heap order abstracted to: any element may be popped). |
| C15 | Cube pruning keeps a sub-forest with exact scores | Decoder/Rescore with Cube | invariant: every new edge projects to an old one | proved | CubePruningRescorer::Apply including PruneUnreachable; scores abstracted to an arbitrary pop order, arbitrary state replacement and arbitrary order of D[v]. |
| C16 | Bottom-up parser is sound and complete | Decoder/Parser: passive and active chart, unary sort, lattice arcs, several grammars | chart invariants per cell and row; refinement to context-free derivations | partial | C16_parses and C16_once: for every lattice and every set of grammars, exact parses and no duplicates, relative to the unary rules kept by TopoSortUnaries (C16_unaries characterises them). C16_language_partial: text grammars, the language is the context-free language under the span limits, if unary rules are acyclic and none rewrites the goal category; the two _fails theorems show that the claim is false of the code otherwise. |
| C17 | Grammar trie lookup is exact | trie of maps | induction over AddRule | proved | All histories of AddRule, including coarse-to-fine levels. |
| C18 | Lattice distances are shortest paths | Floyd–Warshall loops in place | loop invariant | proved | In-place Floyd-Warshall and the fill from the right, for lattices with forward arcs and fewer than 99999999 positions. C18_reused_lattice_fails: Array2D::resize keeps old contents, so a lattice object filled twice gets wrong distances. |
| C19 | Rule substitution builds the yield compositionally | substitution as a fold | list induction | proved | All sides and values; the length equation for sides whose variables are linear. |
| C20 | Rule serialization round-trips | nt mask and token stream | round trip | proved | C20_no_lhs_fails: a rule without a left-hand side (CreateLexicalRule) comes back with a category named <bad0>. |
| C21 | Lattice PLF round trip | printer and recursive descent reader on characters | round trip | proved | Printing and reading of floating point numbers is abstract (NumOK). C21_empty_label_fails and C21_costs_fails record what is not restored: an empty label breaks the reader, and the cost is read under another feature name than it is written from. |
| C22 | Forest-as-grammar conversions agree | permutation building loops | permutation algebra | partial | Intersect: all linear rules of any arity. WriteAsCFG: right when the variable order is an involution (always up to two variables), C22_written_fails for a rotation of three. |
| C23 | SmallVector behaves like a vector | inline/heap union with 16-bit size and a heap of allocations | refinement to `List` | proved | Any inline capacity, any number of vectors, any garbage; values passed to push_back are not elements of the same vector (C23_push_own_element_fails proves that case undefined). |
| C24 | Sparse vector behaves like a finite map | local array / remote map | refinement to finite maps | proved | Refinement to the finite map for every program of API calls; erase is C25. |
| C25 | Sparse vector erase removes only the given key | erase as written | witness and `_partial` | partial | erase(key) behaves only for keys that are present in a non-empty vector; counterexamples proved. |
| C26 | Sparse vector equality is equality of maps | operator== as written | witness and `_partial` | partial | operator== is neither sound nor complete in general (counterexamples proved); it is right under the stated conditions. |
| C27 | Dictionaries are bijections | id table and word list | invariant over histories | proved | All histories of Convert, including frozen lookups. |
| C28 | Feature name escaping is invertible | character map | round trip | partial | Round trip for names without '+'; C28_plus_fails is the counterexample. |
| C29 | Base64 transport is lossless | encodeblock/decodeblock on bytes | round trip | partial | Round trip for inputs whose length is not 2 mod 3, and for the bytes that survive otherwise; C29_two_byte_block_fails is the counterexample. |
| C30 | Alignment text round trip | grid and text | round trip | proved | ReadPharaohAlignmentGrid and SerializePharaohFormat: every list of links and every grid; numbers are unbounded naturals (the code uses int). |
| C31 | Alignment symmetrization bounds | refiners as loops over grids | invariants and a measure | proved | All symmetrisation operations of atools on every pair of grids. |
| C32 | Index compaction | `new_indices_keep` | list induction | proved | All masks and vectors; do_moves, do_moves_swap and copy_to. |
| C33 | Log-space arithmetic is exact real arithmetic | sign and log over `ℝ` | case analysis with `Real.exp`/`Real.log` | partial | Over the exact reals: sums, products, quotients agree with the real numbers; comparisons are right for non-negative values. C33_negative_comparison_fails, C33_negative_zero_fails and C33_star_of_zero_fails are counterexamples to the unrestricted claim. |
| C34 | MERT hull is the upper envelope | Sort loop (values and heap) and product merge over an ordered field | stack invariant | proved | Over an ordered field. Value level: sort, += and *= compute exactly the pointwise maximum and sum, and sorted hulls are segmented envelopes. C34_in_place: the in-place sort through pointers agrees when the pointers are distinct; C34_shared_points_fails shows that it loses a line when they are shared (A += A). |
| C35 | Line search finds the best interval | sweep over sorted breakpoints | fold invariant | proved | Over an ordered field, for any additive statistics, any metric and any sort. C35_close_breakpoints_fails: with breakpoints closer than epsilon the score returned is not the best. |
| C36 | BLEU n-gram statistics are clipped counts | count map with mutable second component | fold invariant | proved | Exact counts over unbounded naturals; the n-gram map is modelled as a total function with default 0, and the float statistics are exact below 2^24. |
| C37 | Edit distance is Levenshtein distance | DP rows and back trace | induction over prefixes | proved | Both the Levenshtein distance of the character/word error rates and the TER edit distance with its backtrace are covered. |
| C38 | TER shifts permute words, terminate and never exceed the edit distance | PerformShift by list segments, search loop with measure | permutation, decreasing measure | proved | Hypotheses of at most 1024 words and references of at most 1025 words: longer ones are truncated by the packed shift keys, shown by C38_long_sentences_fails. |
| C39 | Suffix-array lookup returns exactly the occurrences | binary search | loop invariant, sortedness | proved | The word __NULL__ has number 0, which the sort treats as a sentinel; C39_null_phrase_fails shows a lookup of it failing. |
| C40 | Suffix array is the sorted list of suffixes | prefix doubling with ternary quicksort and any pivots | invariant "sorted by the first h words" | proved | std::sort-free construction with arbitrary pivots; C40_null_word_fails shows a corpus containing the reserved word on which the result is not sorted. |
| C41 | LCP array is correct | Kasai loop | loop invariant | proved | Stated for the suffix array that the constructor builds. |
| C42 | Discontiguous phrase matching is exact | Extend{Prefix,Suffix}PhraseLocation | list comprehension reasoning | proved | Phrases of any number of chunks; precomputed collocations are a parameter assumed exact where present (C45 shows when they are not). The link from suffix-array ranges to locations is C42_contiguous; C42_located closes the induction over how a phrase is assembled. |
| C43 | Extracted phrase pairs are alignment-consistent | FindFixPoint with fuel, GetGaps | loop invariant; termination by growing spans | proved | FindFixPoint started without a target span, as every caller does; also termination, minimality, success without limits, and GetGaps. |
| C44 | Gap order is the target order of the gaps | GetGapOrder as written | induction for monotone gaps, case analysis for two | partial | Any number of gaps in monotone order and any two gaps; C44_three_gaps_fails is the counterexample for three. |
| C45 | Precomputed collocations are true occurrences | UpdateIndex as written | list induction | partial | C45_two_parts and C45_three_parts say exactly which collocations are stored (three parts: when frequent patterns have one word). C45_ternary_fails is the counterexample otherwise. |
| C46 | Occurrence sampling is sound | sampling loop over `ℚ` | loop invariant | proved | Exact arithmetic for the loop variables. |
| C47 | Lexical translation tables are normalised | count tables | sums over finite maps | proved | Every corpus with links in range; also what each count is (C47_counts). |
| C48 | Bit packing round-trips without interference | memory as a function from addresses to bytes | bit extensionality | proved | Little-endian target, the buffer a function from byte addresses to bytes; reads and writes at every bit offset, with the documented restriction that a field fits in the 64-bit word that starts at its byte (length ≤ 57, or 25/31/32 for the narrower forms). |
| C49 | Linear probing table implements a map | bucket array with linear probing and doubling | probe-path invariant | proved | Every history of insertions and lookups, every hash function, every size that leaves an empty bucket; growth by doubling included. C49_invalid_key_fails: looking up the reserved key finds it although it was never inserted. |
| C50 | Auto-growing table accepts any number of inserts | AutoProbing as written | as C49; witness | partial | Partial: FindOrInsert behaves as a map for every history; Insert does so only while fewer keys than buckets are inserted. C50_insert_fails proves that Insert never counts its entries, so the table fills up and a later lookup does not end. |
| C51 | Sorted search finds a key iff present | search loops | loop invariant | proved | Unsigned keys, any pivot rule that stays in range; both interpolation rules used by the code are shown to stay in range. |
| C52 | Multi-way intersection is exact | pointer-advance loop | loop invariant | proved | Any number of sorted sequences, whatever order the sort by size leaves them in. |
| C53 | Producer/consumer queue is a bounded FIFO | transition system over thread program counters | inductive invariant over schedules | proved | Every schedule of any number of threads, any size, with assignments that may throw at any time. The semaphores and mutexes are those of the language library. |
| C54 | Token iteration splits at delimiters | splitting loop | list induction | proved | SingleCharacter, AnyCharacter, BoolCharacter and MultiCharacter (non-empty string), with and without skipping empty tokens. C54_any_character_last_fails and C54_empty_delimiter_fails show the two forms that do not behave (not used in the code base). |
| C55 | Alias sampler represents the distribution | Init loop over an ordered field | conservation invariant | proved | Exact arithmetic in any ordered field; termination is part of the definition (well-founded recursion). |
| C56 | Expectation semiring laws | pair operations | ring algebra, C02 | proved | Exact arithmetic, any commutative ring of probabilities and module of features. |
| C57 | Feature-state layout | prefix sums | list induction | proved | All lists of models whose ignored part is at most their state size. |
| C58 | Translation-table counts accumulate | count/ttable vectors as written | invariant over histories | partial | Increment(e,f,x), Normalize and += for every history; the unit-count overload Increment(e,f) loses counts or writes out of bounds (counterexamples proved). |
| C59 | Diagonal alignment normalizer | closed forms over `ℝ` | geometric sums | partial | Exact reals. ComputeZ is proved for all alpha != 0; ComputeDLogZ only for equal lengths, because the code exchanges the lengths in its call to ComputeZ (C59_dlogz_fails). |
| C60 | Cumulative L1 penalty only shrinks weights | ApplyPenalty | invariant over histories | partial | Histories without ResetEpoch in which no absent key is erased from a small sparse vector (bug C25); counterexamples proved for the rest. |
| C61 | Word and character error statistics are those of the closest reference | loops over references | fold invariant, C37 | partial | WER proved; CER holds when some reference is closer than the hypothesis length, otherwise the code reports zero errors over zero characters (C61_cer_fails). |
| C62 | A data array represents its text | DataArray construction | fold invariant | proved | Splitting of lines into words and file reading are not modelled. |
| C63 | Error surfaces are exact | ComputeErrorSurface | telescoping sums, C34/C35 | partial | Proved for hulls that do not start with an empty translation (or whose empty translation has zero statistics); C63_empty_translation_fails shows that its statistics are lost otherwise. C63_search_partial composes it with the line search; C63_active_is_maximal ties the active segment to the hull of C34. |
| C64 | Serialised error surfaces are read back unchanged | bytes written and read | round trip | partial | Round trip for encoded statistics shorter than 256 bytes; C64_long_statistics_fails: the length is stored in an unsigned char, so anything from 256 to 1023 bytes (admitted by the assertion) comes back cut. |
| C65 | The MERT envelope of a forest lists its best derivations | Inside over the hull semiring, ConstructTranslation | induction over nodes, C34 | proved | Insides over the hull semiring computed as in Inside(); values are elements of an ordered field instead of doubles; dot products with the direction and the origin are arbitrary functions of the edge. |
| C66 | Feature vectors survive serialisation between processes | archive of name/value pairs | round trip through dictionaries, C24/C27 | proved | C66_reserved_fails shows what happens to id 0 when it is not first. Perfect hashing is not modelled. |
| C67 | Language model queries give the back-off probability | FullScore, FullScoreForgotState, GetState over hash tables | invariant on the tables, induction over the words; the specification is the back-off recursion over the file | proved | Hash collisions, quantisation and the trie search are not modelled. The missing-<unk> substitution is not modelled. |
| C68 | The language model feature of a derivation is the language model score of its string | RuleScore, ExtendLeft and the ff_klm feature | invariant relating a chart state to its string, induction over derivations | proved | Word classes and unknown-word counting are not modelled. |
| C69 | Loading an ARPA file keeps every n-gram and completes the table | search_hashed.cc building, n-gram by n-gram | invariant on the tables after each n-gram | proved | NoRestBuild only. Log probabilities are taken to be at most 0 where the sign bit carries the mark. |
| C70 | Sampling from a forest draws derivations in proportion to their weights | the sampling queue and SelectSample over an ordered field, draws given as a sequence | termination by a weight on queues; induction over level order: the draws that lead to a derivation form a box whose volume is computed | proved | C70_shared_node_string_fails: when a derivation visits a node twice with different edges the reported string is not that of the derivation. |
| C71 | The phrase-based translator's forest holds exactly the translations | Translate with its queue, coverage map and forest; the text phrase table as a trie of word lists | invariant over queue runs (states by coverage and span, breadth-first levels), contents of the nodes as a function of the states taken; C06 for the final order | proved | For lattices with alternative arcs from the empty coverage the claim fails: C71_lattice_alternatives_fails. Features and weights of rules are not modelled (C10). |
| C72 | When the phrase table survives a sentence with pass-through rules | pass-through rules added and cleared | fold invariants, both directions | proved | The condition is exact; C72_phrase_lost_fails shows a table and two sentences where it is not met and a translation is lost. |
| C73 | Target phrases are exactly the choices of edges | `Extract/RuleExtract.lean`: `extractPhrases`, `generate`, `addSubphrase` with the order of gaps of `C44`. Sentence and alignment data are an `XEnv`. | `Extract/RuleSpec.lean` says what a `Choice` of edges is. `generate` is shown to enumerate them by induction over the chunks (`TargetPhraseLemmas`, `TargetPhraseChoice`); `TargetPhraseOrder` handles any number of gaps. | proved | Proved for spans with up to two gaps as an equality of lists of choices, for more gaps as soundness. |
| C74 | Rules extracted from an occurrence are valid hierarchical rules | `extractAlignments` with `checkAlignedTerminals`, `checkTightPhrases`, `getGaps`, `addExtracts`, `addNonterminalExtremities`; the value read outside an array is a parameter `junk`. | `IsRule` in `Extract/RuleSpec.lean` is stated on links, spans and gaps only. Soundness: `RuleSource`, `RuleSound`, `RuleAlign`, `RuleMain`. Completeness and independence of `junk`: `RuleComplete`, from the minimality of the fix point. | proved | Complete for at most two nonterminals (the default); C74_three_gaps_fails shows that with three a valid rule is dropped. |
| C75 | Counts of extracted rules | `Extract/RuleCounts.lean`: the nested maps of `ExtractRules` as sorted lists; `double` counts are rationals. | Invariant of the maps by induction over the extracts (`countInv`); the counts of one occurrence sum to one per source side because the extensions of a phrase differ (`occurrence_counts`). | proved | C75_loose_fails: without tight phrases a rule can be counted more often than there are occurrences, and its EgivenFCoherent is negative. |
| C76 | The tagger's forest is the set of taggings | `Decoder/Trellis.lean`: `tagTrellis`, on the hypergraph operations of `HG/Model`. | `Decoder/ForestShape.lean`: a forest built by the three operations is described by the list of edges of each node (`Shape`), whose derivations show exactly the trees of an inductive language (`Shape.lang`); induction along the chain (`chain_inv`). | proved | Proved for every input of at least one word; an empty input reads a node that does not exist (C76_empty_fails). |
| C77 | The lexical translator's forest is the set of word-by-word translations | `lexTrellis`; a grammar is a function from words to rule lists (`none`: no continuation). | As C76; choices per target position by induction. | proved | Proved for every reference of at least one word; for an empty one an assertion fails (C77_empty_fails). |
| C78 | The search with swaps is the set of reorderings by disjoint swaps of neighbours | `dynaTrellis`: word nodes, their edges, `CreateEdgeHelper` with its map, the loop. | The loop is shown to build the listed edges; strong induction on the node number gives the orders; `C78_orders` characterises them independently as permutations that move nothing by more than one place. | proved | Proved for every reference of at least one word; for an empty one an assertion fails (C78_empty_fails). C78_orders gives the reorderings as permutations that move no word by more than one place. |
| C79 | The compound splitter's forest is the set of splits of a word | `splitTrellis`, `fullWordEdge`, `splitUtf8`. | `Decoder/SplitLemmas.lean`: both loops give the listed edges; strong induction on positions. | proved | Proved for every non-empty word, with the decomposition into UTF-8 characters; for the empty word an assertion fails (C79_empty_fails). |
| C80 | The grammar of a sentence comes from every pattern of the sentence that occurs in the corpus, once, with all its occurrences | `Extract/RuleFactory.lean`: the trie as a heap of nodes with suffix links, children that are absent, null or nodes, the queue, `CannotHaveMatchings` with the insertion done by `operator[]`, `ExtendState`, `AddTrailingNonterminal`. Specification: `Extract/FactorySpec.lean`. | Invariant of the trie (each node stands for a pattern, its location holds exactly the occurrences, a null child means no occurrence) and of the queue (sorted by number of words, patterns that start with a nonterminal after the others), so that the suffix of a pattern has been treated before the pattern. The sum of 3^(words left) bounds the iterations. | proved | Sampling and extraction from a location are a parameter of the model here (they are C46, C43, C74, C75). |
| C81 | Minimum-risk training is given the expected risk of the k-best lists, less the entropy bonus, and its gradient | `Train/Objective.lean`: `logZ`, `candRisk`, `candEntropy`, `riskObjective` over the reals. Specification: `Train/ObjectiveSpec.lean` (`IsGradient`: every directional derivative). | Derivatives of log-linear distributions (`Train/ObjectiveLemmas.lean`), sums exchanged between features and candidates. | proved | Over real numbers, for every list of k-best lists; the gradient is given by the derivatives along all directions. |
| C82 | Pairwise ranking optimisation is given the regularised log loss of its training pairs and its gradient | `trainingInference`, `applyRegularization`, `proLoss`. | Derivative of the logistic loss per instance; the penalty separately; counterexample with one held-out pair. | partial | The gradient of the held-out pairs is added to that of the training pairs (C82_testing_fails); proved for an empty held-out set, and what the gradient is in general (C82_loss). |
| C83 | Conditional-likelihood training is given the negative log-likelihood of the references and its gradient | `Train/CrfObjective.lean`: the observer on pairs of forests, the sum over the corpus, the prior. Inside-outside is the model of C02/C03. | C02 for the masses, C03 for the expectations, then the derivative of the log-partition function. | partial | The likelihood and its gradient are proved in full, for forests without repeated tails (see C03). The prior ignores weights that are zero, which is wrong for means other than zero (C83_means_fails). |
| C84 | Training the word aligner never makes the corpus less likely, and prints the most probable links | `Align/FastAlign.lean`: the training loop with `TTable` (C58) and `DiagonalAlignment` (C59), the choice of links in training and on a test set. `--optimize_tension` and `--variational_bayes` are not modelled. | Counts as a list of additions; expected counts; Jensen's inequality per target word and log x <= x - 1 per pair of words; invariant: probabilities positive on words that occur together and at most one in total. | proved | Over real numbers, without variational Bayes and with a fixed tension, for corpora of non-empty sentence pairs; an empty side stops training (C84_empty). |
| C85 | lmplz counts every n-gram of the corpus exactly once, whatever the memory | `Klm/LmCount.lean`: the writer with its blocks; `Klm/LmSort.lean`: block sort, merge queue, merge passes and combiner as relations that allow every grouping and every tie break. Words are numbers; reading, hashing and threads are not modelled. | Invariant of the writer (totals, distinct keys per block); popped records are a sorted permutation; combining neighbours keeps totals. | proved | For every corpus, order, block size and merge plan. |
| C86 | Adjusted counts count the different words before an n-gram | `Klm/LmAdjust.lean`: the loop of `AdjustCounts` on reversed n-grams, `CollapseStream` on a block. | Invariant of the loop: the records being filled are the suffixes of the last n-gram with their adjusted counts so far; lexicographic order makes equal prefixes contiguous. | proved | On the streams of C85, for every order. |
| C87 | Pruning drops the n-grams that do not occur more often than the threshold | As C86, with `lower_counts`, thresholds and marks. | Same invariant; counterexample by evaluation. | partial | The records of the suffixes of the last n-gram are pruned by their adjusted counts (C87_prune_fails); for all other n-grams the claim is proved. |
| C88 | An estimated language model is a probability distribution after every context | `Klm/LmInterp.lean`: discounts, initial probabilities, back-offs, `JointOrder` with `Callback`, the whole of lmplz as a relation `LmplzTo`. Probabilities are rationals, not floats in logarithms; writing the ARPA file, `--vocab_pad` and renumbering are not modelled. | Mass per context: discounted counts and back-off add up to one; invariant of `JointOrder`: what is written and what is left of each stream and of the back-offs; induction over the length of the context for the sums. Counterexample with thresholds: the run is determined and fails. | partial | Proved without thresholds and, as _partial, with thresholds where the marks of C87 are right; with wrong marks lmplz fails (C88_pruned_fails). The closed form of the discounts and the parsing of fall-back discounts are C88_kneser_ney and C88_parse. Exact arithmetic. |
| C89 | With glue and pass-through rules every sentence has a translation | `Decoder/Scfg.lean`: `translate`, the grammar classes with `HasRuleForSpan`, over the parser of C16 and the tries of C17, distances of C18. | The premises of C16 hold for these grammars; the stop rule survives the sorting of unary rules; an arc and the next position have distance one, so pass-through rules apply; induction over the path builds the parse, induction over the parse gives the path. | proved | Parser and grammars as in C16 and C17, with the pass-through and glue grammars of the translator. The rules made from texts are taken as what their texts say (C20, C33). |
| C90 | Grammars given for a sentence affect that sentence only | `Decoder/Scfg.lean`: the translator's state and `State.run` over histories of operations. | Invariant: the grammars are those of the configuration and the pending ones, and the set of supplied objects contains the latter and none of the former. Counterexamples by evaluation. | partial | Partial: the text of a grammar drops what was supplied before it for the same sentence (C90_string_fails; C90_drop says exactly what happens), and an object of the configuration that is supplied again is lost (C90_shared_fails). |
| C91 | Refining a coarse forest gives exactly the fine derivations | `Decoder/Refine.lean`: `RefineForest` over the hypergraph of C01. | Invariant over the fine rules handled: each pair of a coarse node and a category with a node has exactly the resolvable fine rules as edges; nodes are in the order of coarse nodes. Then induction over trees both ways. | proved | One call of RefineForest; the pruning between the levels is C04, the features of refined edges other than LatticeCost are those of their rules and not modelled. |
| C92 | The sentence server writes one answer per input line, in input order, whatever the clients do | `Train/SentServer.lean`: the queue, the critical sections of `queue_get`, `queue_finish`, `queue_abort`, `queue_panic` and the life of a client thread as atomic steps under the two mutexes; `read_line`. Sockets are the answers or failures of the environment; partial writes and `SIGPIPE` are not modelled. | An invariant of 25 clauses over all interleavings (queue ids are consecutive, each running line is held by exactly one thread, what was printed answers the input); a measure bounds the steps. Counterexamples are concrete runs. | partial | Partial: a node for a synchronisation line has an uninitialised status and can be taken by another thread (C92_synch_fails), a client that dies while another is being dismissed leaves the server hanging (C92_hang_fails), a panic loses finished answers (C92_panic_fails), and an answer cut off by the death of the client is accepted (C92_cut_fails). Order, exit codes, termination and progress are proved for all runs without the first. |
| C93 | Tree-to-string translation builds exactly the derivations of the input tree | `Decoder/Tree2String.lean` (grammar trie named by paths, queue of parser states, `Translate`, pass-through rules, goal node) and `Decoder/TreeText.lean` (tables, text, iterator). Transducer states (always 0) are left out; node numbers are unbounded; features and weights are part of the rules. | `Decoder/Tree2StringSpec.lean` says what trees, matches, derivations and texts are. The queue is shown to hold exactly the partial matches (`Tree2StringLoop`), the forest exactly the uses of rules (`Tree2StringForest`), sorting and pruning keep the derivations (`Tree2StringSem`, with C01-C03), reading is inverse to writing (`Tree2StringText`); the copying derivation is built by induction on the table (`Tree2StringPass`). | partial | The forest is exact for what the translator takes rules to mean (C93_translation). That is what the rules say if source sides are one level deep or labels fix the number of children (C93_flat_partial, C93_ranked_partial); in general it is not (C93_brackets_fails). Labels must not be empty for pass-through rules (C93_empty_label_fails). |
| C94 | Trees are read as written, and only trees are read | `Decoder/TreeText.lean`: the check of brackets, `ParseRec`, `SetupSpansRec` and the iterator. Reading past the end of the text is `none`. | Induction on how a tree is written; blocks of the table are shown to be subtrees; texts with a site are refused because what is read without sites is also read with them. | partial | An unclosed tree passes the check of the brackets and is read past its end (C94_unclosed_fails). |
| C95 | Filtering a language model keeps exactly the n-grams of the vocabulary and leaves scores alone | `Klm/Filter.lean`: reading vocabularies, the three filters and the context wrapper, the ARPA and count outputs with their counters and the header that is written over reserved space; intersections are those of C52, tokens those of C54. Text is a list of characters; files are their contents. | `Klm/FilterSpec.lean` says what words, sentences, n-grams, kept lines and ARPA files are. Invariant of the output over lines and sections; the scores follow because every n-gram the back-off recursion asks for is kept (C67, C69 connect this to the program's tables). | proved | Proved for lines with an n-gram field and, in context mode, n-grams that are not empty and do not end in a space. Disagreement recorded: blank lines of the vocabulary are not counted in the numbers of the output files (C95_line_number_fails). The phrase modes are not part of this property. |
| C96 | The language model filter with several threads writes what it writes with one | `Klm/FilterThread.lean`: the reading thread, filter workers and output worker as atomic steps on shared batches and FIFO queues with a capacity, destructors included; `Klm/FilterThreadArpa.lean`: the calls for ARPA and count files; `Klm/FilterBuffer.lean`: the buffer of mode multiple. The buffer of a batch in the threaded model is the list of calls (`BinaryOutputBuffer`). | `Klm/FilterThreadSpec.lean` says what one thread writes. An invariant of 17 clauses over all interleavings (each batch in exactly one place, sequence numbers of the batches on their way are consecutive and different, what is written is a prefix, poisons and dead workers match), kept by each kind of step (`FilterThreadStep`, `FilterThreadOut`, `FilterThreadMain`); progress by counting batches; termination by a weight that every step decreases. | partial | C96_arpa_partial: missing are files with a section whose length is a multiple of the batch size (such as an empty one) before a section with n-grams; there the program hangs (C96_hang_fails). Safety, order and absence of races hold for every command sequence and schedule. Other negations: files of counts lose the last partial batch (C96_raw, C96_raw_fails), MultipleOutputBuffer keeps last_ over Flush (C96_buffer_fails). The queue is an atomic FIFO (C53); memory exhaustion and exceptions in threads are not modelled. |
| C97 | The phrase filter keeps exactly the n-grams that strings of phrases can produce | `Klm/PhraseFilter.lean`: the reader of phrases, the table of substrings under arbitrary hash functions, the graph of an n-gram, `LowerBound` of arcs and vertices on shared state, the two evaluation loops; priority queues are any vector operations with the laws `PQ.Valid`. Failed assertions and reads of empty ranges are `none`. | `Klm/PhraseFilterSpec.lean` says what phrases and covered n-grams are. `PhraseGraph`: an invariant per vertex (only sentences below the bound or without a path were dropped) gives, by induction over the depth of the recursion and the arcs that are due, that both loops end with exactly the sentences that have a path, for any graph; `PhraseTable`: paths are decompositions into the end of a phrase, phrases and the beginning of one; `PhraseRead`: the reader against `splitOnP`; scores as in C95. | proved | For every hash function nothing is lost; exactness under Distinct (no two word lists with one hash). Negation: n-grams with <unk> after the first word are dropped although the full model uses them for unknown words (C97_unk_fails). Sentence numbers do not overflow; &*begin() of an empty vector is taken as harmless. |
| C98 | The n-gram features of a derivation count the n-grams of its string | `Decoder/NgramFeat.lean`: `LookupWords`, `FireFeatures` with its cache of feature ids, the states of nodes, `FinalTraversal`; a derivation adds up the features of its rules. Dictionaries are arbitrary functions; sparse vectors are functions. | `Decoder/NgramFeatSpec.lean` says what the string of a derivation is and what the count of a feature is. The cache is shown not to matter; an antecedent acts on the variables of the loop like its words (`Sim`), so a derivation acts like its string; along a string the fired features are counted position by position. | partial | Proved in full for bigrams (C98_bigrams, C98_bigrams_explicit). For other orders C98_counts_partial and C98_counts_explicit_partial give the n-grams of w1 ... wm </s>; missing are those that begin with <s>: BeginSentenceState puts <s> at the far end of the context, so with order 3 or more (3 is the default) no n-gram with <s> is ever counted (C98_begin_fails). Strings with markers in the middle (feature Malformed), reading the cluster file and estimated features are outside the theorems. |
| C99 | A chain of workers gives the result of running the workers one after the other | `Klm/Chain.lean`: the source, the workers and `Wait` as atomic steps on numbered blocks with memory, FIFO queues with a capacity, and poisons; `Klm/Stream.lean`: `Stream` for writing and reading, `Read`, `PRead`, `Write`, `WriteAndRecycle` on lists of records. | `Klm/ChainSpec.lean` says what a worker does alone. An invariant of 13 clauses over all interleavings (blocks and poisons are conserved, each block is in one place, what was sent is what was seen followed by what is in the queue, poisons follow the workers that have returned), kept by each kind of step (`ChainStep`); progress by counting, termination by a weight that every step decreases (`ChainEnd`). | proved | Exceptions (which abort the program), MultiProgress and file errors are not modelled. A queue is a FIFO with atomic operations, as shown in C53. The memory of a block outside its valid part is not followed. |
| C100 | The decoder prints the best translation | `Decoder/Decode.lean`: `Decode` as the composition of the models of the translator (`Decoder/Scfg.lean`, `Decoder/Parser.lean`), `ArePreGoalEdgesArity1`, exhaustive rescoring (`Decoder/Rescore.lean`) once per pass, `Reweight` and `Viterbi` with `ESentenceTraversal`. Aborts are `none`. | `Decoder/DecodeSpec.lean` runs passes along one tree of rule applications and defines its score; it does not mention forests. The forest of the parser is shown to meet the hypotheses of rescoring (`parse_ready`), and so is every rescored forest (`rescore_ready`), so C13 can be used once per pass; its list of features per derivation is turned into an equation between trees (`apply_spec`); C04 gives the best derivation and C19 its words. | proved | Composes C16, C13, C04 and C19. Cube pruning, beam pruning between passes, summary features, coarse-to-fine parsing and the other outputs are not part of this model of Decode (C15, C08, C05 are about them). Unary rules that form a cycle are partly dropped by the parser, as in C16. A feature function sees the rule, the span and the features of an edge. |
| C101 | The string kernel score measures common subsequences | `Mteval/Ssk.lean`: the array `kp` as a function, its initialisation and the nested loops, the normalisation, the statistics and score of `SSKMetric`. `float` is a commutative semiring, or the reals where there is a square root. | `Mteval/SskSpec.lean` sums over sublists of the places. The array is shown to hold sums over choices in prefixes of the strings, weighted up to the ends of the prefixes (recurrences by the last place of each choice); the kernel is then a sum of products over words, which gives symmetry and, by Cauchy-Schwarz, the bounds. | proved | Floats are idealised as real numbers: no overflow, underflow or rounding. An empty corpus (0/0) is excluded. |
| C102 | A language model stored as a trie gives the probabilities of its ARPA file | `Klm/Trie.lean`: the calls of `RecursiveInsert` with the blanks of `BlankManager`; the messages of `SRISucks` and their delivery by `BackoffMessages::Apply`; the two passes and the tables they write; the interpolation search in a table (on the model of C51) and the descent from word to word. Files and packed arrays are lists. | `Klm/TrieSpec.lean` says what sorted files of an ARPA file are. The merged sequence of calls is increasing and closed under leaving out old words (`TrieSeq`, `TrieBuild`); the values of blanks are basis plus back-offs (`TrieBlanks`, `TrieValues`), which is the back-off score; the writer puts each call at its place with its number of predecessors as the pointer (`TrieWrite`, `TrieBuilt`); so a range holds exactly the children of a node (`TrieFind`). Queries then agree with the file although a blank that is a context need not be marked (`TrieQuery`). | proved | Log probabilities are elements of an abelian group: no rounding. Without quantisation; next pointers are stored directly (both ways of storing them return the same numbers). The hypothesis Sizes excludes overflow in the interpolation search (C51). |
| C103 | The size of the sort buffer does not change the trie | `Klm/TrieSort.lean`: batches, sorting by parameters, contexts without repetition, merging two files, the queue of files, all orders. | Merging keeps strict order and contents (`TrieSortLemmas`); the queue keeps the multiset of records and the set of contexts; two strictly sorted files with the same records are equal. Composed with C102 for the way from the file to the score. A record in two batches makes some merge throw. | partial | Partial because the program does not reject every file that lists an n-gram twice: two lines in the same batch are not noticed (C103_duplicate_fails). The rest is proved in full. |
| C104 | The recursive bottom-up parser finds exactly the parses that exist without span limits | `Decoder/ParserRs.lean`: `ApplyRules`, `ApplyUnaryRules`, `ConsumeTerminal`, `ConsumeNonTerminal`, `AddToChart` and `Parse` with a bound on the depth of the recursion; a list that changes while it is iterated gives `none`. What is the same code as in C16 shares its model. | Same `ParserSpec.lean` as C16. One call adds, cell by cell, the edges of a list of jobs, and new nodes get their unary rules at once (`ParserRsRun`); the items of a row are the closure of one-step extensions from the root (`ParserRsItems`); rows are done from the right, so a row only reads finished rows and the finished chart satisfies the same condition `FInv` as the chart of C16 (`ParserRsFinal`), from which C16's proof of completeness goes on. The recursion is shown to stay within its bounds. | proved | The parser never asks a grammar whether it has rules for a span, so grammars with a limit give more parses than with the other parser (C104_limits_fails). Features are elements of any type with addition: sums are taken in the order of the code. |
| C105 | Intersecting a forest with a reference keeps exactly the derivations of the reference | `Decoder/Intersect.lean`: the phrase filter with its loops, pruning (the model of C07), the names of the nodes as categories, the new rules (the model of C22), the grammar (C17) and the parse (C16), and what the new edges carry. | `Decoder/IntersectSpec.lean` says what a derivation yields and what its copy is, without grammars or parsing. A target side laid out on the sentence (`lay`) gives for every derivation its image, a parse; parses are images and images are parses (`IntersectMain`), different derivations have different images; a derivation of the reference never uses a filtered rule, because runs of words of a target side are contiguous in the yield (`IntersectEnd`). Features by induction, with the permutation of the parts. | proved | For forests that are not linear chains, and references that are sentences. Rules with an empty target side lose derivations (C105_empty_target_fails); lattices with one arc from each position but arcs that pass over positions are taken for sentences (C105_lattice_fails). |
| C106 | Intersecting a linear chain with a reference keeps exactly the derivations of the reference | `Decoder/IntersectFast.lean`: the loop over the edges with rule objects in a heap, the map of inverted rules and the set of covered positions, and pruning (the model of C07); the forests of the tagger and of the lexical translator (the models of C76 and C77) with their rule objects and spans. | `Spec` in `IntersectFastLemmas.lean`: `Follows`, `First`, `Turned`. An invariant of the loop tells for every edge what became of it and what the map holds for its rule object; covered positions are counted by injectivity. Derivations of the changed table are those of the old one, and C07 does the rest. For the two translators the leaves of what a derivation shows are the edges without tails (`IntersectFastChain`), and C76 and C77 list the derivations. | proved | Rule objects shared by several words are only inverted once (C106_shared_rule_fails), so the exchange of sides is proved for unshared rules (C106_unshared, C106_tagger). A reference shorter than the tagger's input is read past its end (C106_short_reference_fails). On forests that were pruned before, true may be returned with an empty forest (C106_pruned_forest_fails). |
| C107 | The packed tables of the trie return what was put into them, with or without pointer compression | `Klm/Packed.lean`: the layout of a table in memory, `ChopBits`, `Insert`, `WriteNext`, `FinishedLoading`, `ReadNext` with `std::upper_bound`, `Find`, for the three kinds of tables, on the memory and bit packing of C48. | `Written` and `inserted` in `Props/C107.lean` say what the builder does. An invariant says which bits hold which fields, that the rest is zero, and that the k-th element of the array is the first index whose pointer has high bits at least k (`PackedInv`); so comparing elements with an index is comparing numbers with its high bits, which is what both searches need (`PackedRead`). The search is C51's; C107_trie composes tables to the lookups of C102. `C107_smallest`: the loop finds a minimum, and its 64-bit arithmetic does not overflow. | proved | Proved for up to 2^57 entries (the limit the program checks) and vocabularies below 2^32 - 1. |
| C108 | Quantised probabilities and backoffs are nearest bin averages, and keep the extension marks | `Klm/Quantize.lean`: `MakeBins`, `Encode`, `EncodeBackoff`, `Train`, `TrainQuantizer`, the pointers that read and write the codes on the memory and bit packing of C48, the layout of the tables and the header. Numbers are rational; the sign of zero and minus infinity are kept. | `Binning` and `Nearest` of `Klm/QuantizeSpec.lean` are the specification. The centres are averages of consecutive slices of the sorted values, repeated over empty bins, hence increasing; so the position found by `lower_bound` separates the centres below and above (`encode_nearest`). Losslessness, the error bound and monotonicity follow from nearness alone. One backoff bit is a counterexample. | partial | Fails for one backoff bit, which SetupMemory accepts (C108_one_bit_fails); proved for all other accepted numbers of bits. Rounding is not modelled. |
| C109 | Online MIRA training makes the optimal passive-aggressive update for every sentence and averages the weights | `Train/Mira.lean`: `UpdateOracles`, `ApproxEqual`, the update and the main loop of kbest_mira with the end of passes and the files written. The decoder and the metric are a parameter; vectors are finitely supported maps to the rational numbers. | `objective` and `Updates` of `Train/MiraSpec.lean` are the specification. The step is optimal because the hinge is bounded below by the linear function of slope step and the squared distance by completing the square (`step_optimal`). An invariant of the loop gives position, sum, count, best hypotheses so far and files (`Inv`). A run on one sentence gives the counterexamples. | partial | Fails at the end of passes: the averaged weights replace those of the decoder, so the next sentence is decoded and its loss computed with them; there is one sentence more than the passes have, so weights.mira-final.gz always holds an average (C109_final_fails, C109_passes_fails). C109_run_partial gives the complete behaviour. --sample_forest is not modelled. |
| C110 | Weight files: every feature gets the weight of its last line, and written weights are read back | `Util/Weights.lean`: the text format of `InitFromFile` and `WriteToFile` on bytes, with the dictionary of C27, the getline loop including its behaviour at the end of the file, and the five-byte header check. Printing with 17 digits and `strtod` are parameters. | `Line`, `Line.Ok`, `lastValue` and `Plain` of `Util/WeightsSpec.lean` are the specification. Induction on the lines, with the effect of one line on the value of every name (`value_set`, `process_entry`); what is written is such a file (`writeLoop_written`). Three short files give the counterexamples. | partial | Fails for names with '=' or tab, which are written after a space and cut when read (C110_equals_fails); for files of less than five bytes, as when all weights are zero and hidden (C110_short_file_fails); and a last line without a newline is processed twice, which changes another feature if its name has an '=' (C110_newline_fails). C110_round_trip_partial is for plain names. Printing and reading of numbers is a parameter; the binary format is not modelled. |
| C111 | Pairwise ranking training uses the intended pairs and makes subgradient steps on their hinge loss | `Train/Dtrain.lean`: `all_pairs`, `partXYX`, `PROsampling`, the update of a sentence, batch updates and the main loop of dtrain with the selection of weights. `std::sort` is any function that sorts, the decoder is a parameter; numbers are rational. | `Wanted`, `Hi`, `Lo`, `gap`, `hinge`, `Subgradient` and `Pass` of `Train/DtrainSpec.lean` are the specification. The nested loops are one loop over a list of pairs (`allLoop_run`, `cross_run`), which keeps the wanted ones of a prefix (`run_prefix`); multiplicities are counted on the sorted list. The hinge inequality is convexity, pair by pair. Invariants of the loops over sentences and passes. Short lists give the counterexamples. | partial | 'all', the updates, batch updates and the selection of weights are proved. XYX never pairs the middle with the worst (C111_xyx_fails), reads outside the list for few samples (C111_xyx_bounds_fails) and ignores the limit (C111_xyx_limit_fails); C111_xyx_partial is what holds. PRO treats right pairs as errors with the default options (C111_pro_fails), and ranks only the first 5000 pairs (C111_pro_partial). Not modelled: gamma is zero in the theorems on updates; repeat, pclr, l1_reg, rescale, scale_bleu_diff. |
| C112 | The vocabulary of a language model numbers its words | `Klm/Vocab.lean`: `Insert`, `FinishedLoading`, `Index` and `LoadedBinary` of `SortedVocabulary` and `ProbingVocabulary`, on the searches of C51 and the hash table of C49; `WriteWordsWrapper`; `ReadWords` on the bytes of the file with its chunks. The hash function, the joint sort and the interpolation are parameters. | `Numbers`, `Lists`, `Distinguishes` and `terminated` of `Klm/VocabSpec.lean` are the specification. The sorted array is a permutation of the hashes of the known words, so the answer of the search (C51) is the position of the word, and the values have moved along. For the hash table an invariant relates buckets and words (`Good`). `readLoop` succeeds exactly on concatenations of terminated words (`readLoop_iff`), by induction on the bytes left. Small vocabularies give the counterexamples. | proved | Proved for both vocabularies under the absence of hash collisions. A word listed twice gets two indices unnoticed (C112_duplicate_fails); in the hashed vocabulary a word whose hash is 0 is lost (C112_zero_hash_fails), so the theorem excludes it. Word indices are unbounded numbers. GrowableVocab, SetSpecial and the checks for missing special words are not modelled. |
| C113 | Sets of candidates lose nothing, have no duplicates and survive a file | `Train/Candidates.lean`: `Dedup` with its hash and approximate comparison on bit patterns, the additions, `WriteToFile`, `ReadFromFile`, `ParseSparseVector` and the text form of `SufficientStats`. Dictionaries, number formats, `hash_combine` and the iteration order of the hash set are parameters. | `Close`, `Represents`, `Storable` and `stored` of `Train/CandidatesSpec.lean` are the specification. The comparison is transitive, so representatives compose over a history (`same_trans`, `insert_all`); equal rounded patterns are less than 2^32 apart (`feq_close`). The file is split into the lines written (`splitLines_cand`), each of which is parsed back. Single candidates give the counterexamples. | partial | The history and the round trip of candidates with features are proved. A candidate without features makes the reader exit (C113_empty_features_fails); the same features in another order are not recognised (C113_order_fails); rounding keeps one low bit by mistake (C113_bit_fails); the hash is of truncated, the comparison of rounded values (C113_hash_fails). Statistics without a name come back with the name NULL. NaN is excluded. |
| C114 | Scores of sentences add up to the score of the corpus, can be subtracted, and arrive at other processes unchanged | `Mteval/Scores.lean`: the classes derived from `Score` (SER, BLEU, TER, WER, AER, the two combinations): `PlusEquals` with and without a factor, `Subtract`, `GetZero`, `IsAdditiveIdentity`, `Encode` and `CreateScoreFromString`, down to the characters, with `%g` for integers. Floats are rational numbers; a wrong cast, an exception or a failing assertion is `none`. | `stats`, `OfKind` and `Sendable` of `Mteval/ScoresSpec.lean` are the specification. Every operation acts on the vector of statistics element by element, and the vector determines the score (`stats_inj`); sums by induction on the corpus. Numbers followed by a space or the end are read back (`readInt_show`, `readFloat_show`); the text of four-gram BLEU with small counts has fewer than 128 characters. Single scores give the counterexamples. | partial | Sums, order and differences are proved for SER, BLEU, TER, WER, AER and both combinations. Transport is proved for integer BLEU counts below a million and everything else except SER (C114_ser_fails); larger BLEU counts lose digits (C114_million_fails) and can overflow the length byte of the combinations (C114_length_fails). Adding with a factor throws for TER for every factor (C114_ter_scaled_fails) and loses fractions for integer counts (C114_half_fails). A reference length of at most 1/10 counts as zero (C114_identity_fails). METEOR is not modelled. |
| C115 | Alignment, sentence, word and translation error rates of a sentence are those of their definitions | `Mteval/SentenceScores.lean`: `ScoreCandidate` of the AER, SER, WER and TER scorers and `ComputeScore` of their scores, on the alignment reader of C30, the edit distance of C37 and the shift search of C38. Floats are rational numbers; a quotient by zero is `none`. | The statements speak of sets of links, `IsEditDistance` (C37) and first elements with a smallest value. The two loops count the links of the grids (`refLoop_eq`, `hypLoop_eq`), which are those of the texts (C30); cardinalities of finite sets give the value. The loop over references keeps the first best one (`bestLoop_ok`). Short inputs give the counterexamples. | partial | AER is proved from the text to the value except when both alignments are empty, for which the code gives 1 (C115_empty_fails). SER counts are proved; the value is the rate of correct sentences, not of errors (C115_ser_fails). WER is proved for references that are not empty; an empty one wins with rate 0 (C115_wer_fails). TER is proved for sentences of up to 1024 words, on top of C38. |
| C116 | The value of BLEU is the geometric mean of the n-gram precisions times the brevity penalty | `Mteval/BleuValue.lean`: `ComputeBreakdown` of `BleuMetric` (ns.cc) and `ComputeScore` of `BLEUScore` (scorer.cc) with logarithms and exponentials of real numbers; NaN is `none`. | `precision`, `brevity` and `bleu` are the definition of BLEU with products and roots. The sum of logarithms is the logarithm of the product of the precisions (`loop_eq`), so the exponential is the root (`exp_form`). Bounds from those of the factors (`prod_le`, `brevity_le`); a hypothesis among the references has all its n-grams unclipped (C36). Small counts give the counterexamples. | partial | Over real numbers. The value is proved for counts with n-grams of every order (C116_value_partial), with range and monotonicity; for shorter hypotheses the value of each implementation is given by C116_orders and they differ (C116_short_fails, C116_empty_fails). The QCRI variant does not distinguish no match from one match (C116_qcri_fails). C116_sentence connects it with the statistics of C36. |
| C117 | A combination of metrics scores a corpus with the weighted sum of the scores of its components | `Mteval/Comb.lean`: `SufficientStats` with its resizing addition and subtraction, `Tokenize`, the constructor, `Evaluate` and `ComputeScore` of `CombinationMetric`. The component metrics and `atof` are parameters; floats are rational numbers. | `describe`, `combination` and `IsSum` are the specification. The text is split back into its parts (`tokenizeLoop_intercalate`); each component writes its section of the output (`writeLoop_eq`, `evalLoop_eq`); sums of concatenations are concatenations of sums (`foldl_flatten`), and `ComputeScore` cuts out the sections again (`section_eq`, `scoreLoop_eq`). Two components give the counterexamples. | proved | Proved for every combination whose components give the number of fields they announce; external metrics announce 50 (C117_announced_fails). A combination of error metrics does not say it is one (C117_error_fails). |
| C118 | The features of the rules of a derivation add up to counts of its strings | `Decoder/BasicFeatures.lean`: `TraversalFeaturesImpl` of `WordPenalty`, `SourceWordPenalty`, `ArityPenalty`, `WordSet`, `NonLatinCount` (with its cache) and `RuleShapeFeatures`, `EWords`, `FWords` and `ComputeArity`. The dictionary is a parameter; the tree of feature names is the path that spells the name. | `Derives` builds the strings of a derivation with the substitutions of C19. A count over words adds up along a substitution in which each variable occurs once (`eSubst_countP`), so it adds up along derivations (`derives_count`); a derivation has one variable less than rules (`derives_vars`). The cache holds right answers only (`CacheOk`). Shapes by induction on the segments of a side. Small derivations and words give the counterexamples. | partial | Penalties, arities, word sets and shapes are proved for all derivations of rules with each variable once on the target side. With --oov the feature also counts every rule but the first (C118_oov_partial, C118_oov_fails). The non-Latin count is proved for words in which every character starts with a possible first byte; otherwise the loop does not end (C118_non_latin_fails). |
| C119 | The batch optimiser RProp follows its rule through all evaluations, stops and restarts | `Train/RProp.lean`: `Optimize`, `OptimizeImpl`, the convergence test, `Save`, `Load` and their virtual parts for `RPropOptimizer`, on bytes and streams that may end. Numbers are real and a gradient carries its sign bit; how doubles are stored is a parameter; `LBFGSOptimizer` and the MPI program are not modelled. | `Rule` is the algorithm in terms of the sequence of derivatives of one variable; `Runs` names the weights of the program. A run of vectors is one of every variable (`run_trace`), and the stored derivative is zero exactly after a turn (`prev_eq`), which gives the rule. While the sign lasts a variable moves by at least the least step (`falls`, `rises`). A magic number that is right means that all reads have succeeded (`magic_good`, `load_length`). | partial | The rule, the limits, the returns and the files are proved. A weight whose derivative is zero moves by its step, so weights of features that never occur drift (C119_zero_fails); HasConverged speaks about the gradient before the last move (C119_converged_fails). Arithmetic is exact; LBFGSOptimizer is not modelled. |
| C120 | mbr_kbest prints a translation of least expected error for every sentence of its k-best lists | `Mteval/Mbr.lean`: `ReadKBestList` with its static cache, and the loops of `main` that accumulate losses and choose. Lines are records (the search for ` ||| ` is not modelled); the metric is a function; numbers are real; the two calls of `sort` are left out, as the choice is proved for lists in any order. | `posterior`, `expectedError` and `IsMbr` are the decision rule; `fileOf` writes lists one after the other. The inner loop gives the whole sum or stops above the best (`accumulate_false`), so the outer loop keeps a minimum (`mbrLoop_some`). The reader holds the first line of the next list in its cache (`readFile_run`, `readLists_groups`). Short lists give the counterexamples. | partial | The choice is proved for all lists, with the candidate in the role of the reference (C120_choice), so it is the one of minimum Bayes risk only for symmetric metrics (C120_mbr_partial, C120_ter_partial, C120_roles_fails). Error metrics other than TER are maximised (C120_error_metric_fails). Lists are read correctly from one file unless a list but the first begins with an empty translation (C120_lists_partial, C120_empty_fails); ids need two translations in each list (C120_ids_partial, C120_id_fails); two files need the same sentences (C120_missing_fails). |
| C121 | Adding a forest to a stored forest loses no derivation of either and makes up no edge | `HG/HashUnion.lean`: `EdgesMatch`, `AreNodesUniquelyIdentified`, `Union` and the sorting at its end (`sortUnion`, the model of C06 on the tables of the forest). A forest is the list of names of its nodes and a list of edges; spans, categories and probabilities are left out; features are rational; a union of a forest with itself is left out. | `Derives` says which trees of rules belong to a node and `Close` that two trees differ by 1e-6 at most in each feature. The map from names to nodes is exact after each step (`MapOk`), every edge of the input gets a match that later steps keep (`addEdges_has`), and derivations are copied along it by induction; C06 carries them through the sorting (`tables_derives`, `reads_map`). | partial | Stored derivations are kept exactly (C121_keeps); derivations of the new forest are there up to 1e-6 in each feature of each rule (C121_contains_partial, C121_goal_partial, C121_exact_fails). Nothing is made up (C121_from) and a second union with the same forest adds nothing before the sorting (C121_again). With the sorting at the end the same holds at the goal of the result if some order of the node names suits both forests (C121_sorts, C121_result_partial); otherwise it can abort on a cycle that neither forest has (C121_cycle_fails). C121_checks covers the checks before the union only. |
| C122 | The shares of a corpus that parallel readers get are a partition of it, with both sides in step | `Util/CorpusTools.lean`: `ReadLine` and `ReadFromFile` with rank and size. Lines are lists of words; a vocabulary is filled whether or not it is asked for; the counter of lines does not overflow. | The statements give the place `q * size + rank` of every sentence and need no definitions but the model. The loops over words are run on a line with its bar (`words_src`, `words_trg`); the remainder of the counter is exchanged for the distance to the next line of the share (`turn`, `every_getElem?`); refusal is decided by the number of bars (`words_count`). | proved | Proved for all corpora, ranks and sizes. ReadLine accepts lines that ReadFromFile refuses (C122_agree_fails). Lines are lists of words: the conversion of strings is not modelled, nor are the streams, nor a line counter that overflows. |
| C123 | Conversions of integers to strings give the decimal representation and stay inside their buffers | `Util/Utoa.lean`: all conversions of utoa.h. A buffer filled from its end is a list; types are numbers of bits and conversions to unsigned types are remainders; `digits10` is a logarithm. | `IsDecimal` says what a decimal representation is: digits, no leading zero, the right value. Strong induction on the number for the loops (`loop_spec`, `loop_length`, `dropLoop_spec`); negation modulo a power of two gives the absolute value (`magnitude`). | partial | utos, itos, append_utoa, the bound on the buffer, padding of unsigned numbers and dropping of zeros are proved for all widths. append_itoa calls utoa, so negative numbers come out wrong (C123_append_fails). itoa_left_pad is right for numbers with a sign (C123_signed_pad_partial); without one it leaves the first character of the buffer unwritten (C123_pad_fails). |
| C124 | dedup_corpus prints every different line once, at its first occurrence | `Util/Dedup.lean`: the loop of `main`. Lines are lists of bytes and the hash function is a parameter with 2^64 values; the newline added to a last line without one is not modelled. | Sublists and `Nodup` say what is printed. Induction over the lines with the set of hashes seen (`loop_hashes`, `loop_covers`, `loop_append`); the collision is the pigeonhole principle. | partial | No line is printed twice and the order is kept for every hash function (C124_lines, C124_again). Every line is printed if the hashes of different lines of the file differ (C124_all_partial, C124_first_partial); for every hash function of 64 bits some file loses a line (C124_collision_fails). The hash function itself is a parameter. |

## Where the code and the properties disagree

Each item is a machine-checked counterexample (`_fails`) unless it says otherwise.

* C03: an edge that lists the same tail node twice gets a wrong outside score (the loop skips by node id).
* C04: a node without incoming edges has Viterbi weight one, not zero.
* C05 (precondition): a node without incoming edges trips an assertion; without a filter a request for place k ≥ k′ finds nothing although derivations remain.
* C08: the threshold creeps up from the cutoff with the edge number; a derivation exactly at the cutoff is not protected, and edges numbered a million or more are dropped even on the best derivation.
* C11: nodes copied by CreateNodeEdgeSubset carry the id of the original.
* C12: PushWeightsToSource scales derivations by different factors when edges have several tails. (PushViterbiWeightsToGoal indexes an empty vector; read off the code, not modelled.)
* C13/C15 (precondition): a tail node without derivations is read out of range.
* C16: unary rules over the goal category are dropped silently; cyclic unary rules are cut and lose derivations; rules with an empty source side are never used (by reading).
* C18: computing distances again on a lattice object keeps old contents.
* C20: a rule without left-hand side comes back with category `<bad0>`.
* C21: an empty label breaks the reader; costs are written from one feature and read into another.
* C22: WriteAsCFG writes the inverse permutation, which shows from three variables on.
* C23: `v.push_back(v[i])` on a full vector reads freed memory.
* C25/C26: sparse `erase` of an absent key removes another; `==` is neither sound nor complete.
* C28: '+' is not escaped, and decoded as a blank. C29: a final two-byte block loses the low bits of its second byte.
* C33: comparisons of negative numbers are reversed, negative zero differs from zero, star of zero is zero.
* C34: `A += A` shares points and Sort loses a line; the `int` constructor leaves `is_sorted` uninitialised.
* C35: breakpoints closer than epsilon hide an interval.
* C38: the packed shifts lose places beyond 1024 (one of them becomes the index −1).
* C39/C40: the reserved word `__NULL__` in the corpus breaks sorting and lookup.
* C44: three gaps in non-monotone order get a wrong order. The effect on extraction: no wrong rule is produced, but valid rules with three nonterminals are dropped (`C74_sound`, `C74_three_gaps_fails`); the default limit is two. C45: three-part collocations are stored under wrong patterns.
* C49: looking up the reserved key succeeds. C50: AutoProbing::Insert does not count entries, so the table fills and lookups do not end.
* C54: AnyCharacterLast looks for a sequence; an empty delimiter does not advance.
* C58: Increment(e,f) resizes by the wrong vector. C59: ComputeDLogZ exchanges the lengths; tension 0 divides by zero.
* C60: erasing absent keys (C25) and ResetEpoch break the budget. C61: CER reports 0/0 when no reference is near.
* C63: an empty first translation loses its statistics. C64: a length is kept in an `unsigned char`.
* C66: the reserved id 0 is only skipped when it comes first.
* C68 (precondition): with explicit sentence markers, a back-off attached to an n-gram that ends in `</s>` is charged although nothing follows. (By reading, not modelled: a positive back-off can make a filled-in probability positive, whose sign bit is then taken for the left-extension mark.)
* C70: a sampled derivation that uses a node twice with different edges is reported with the string of another derivation.
* C71: on lattices, two arcs over the same span from the empty coverage overwrite each other's node (`c[new_cov] = phrase_head_index + 1`): alternatives are lost (`C71_lattice_alternatives_fails`). (By reading: `Coverage::Cover` tests `*it` before `it != end()`.)
* C72: ClearPassThroughTranslations erases the whole subtree of a word, so a phrase that begins with an untranslated word is lost for later sentences.
* C74: with tight phrases AddNonterminalExtremities reads `source_low[source_back_low - 1]` with index -1 and `source_low[len]` before it checks the bounds. The read is undefined but its value does not matter (`C74_outside`). Nonterminals at the ends reach only to the nearest place allowed, so not all rules of the grammar formalism are extracted.
* C75: without tight phrases one occurrence can give the same pair of sides twice, the estimate `pair_count / num_samples` can be more than one and its feature negative (`C75_loose_fails`).
* C76, C77: on an empty input the tagger takes node -1 as the tail of the goal edge (`C76_empty_fails`); the lexical translator fails its assertion (`C77_empty_fails`, `C78_empty_fails`).
* C78: the search with swaps ignores the null word, the option for alignments only and the grammar of the sentence. Two orders that differ by a swap of equal words give the same derivation shown twice.
* C79: the empty word fails an assertion (`C79_empty_fails`). The minimum size of a part counts characters, but the tests for linking elements count bytes, so what remains of a part can have fewer than three characters if it has long ones.
* C80: `max_rule_span` limits the distance between the first and the last word of a pattern of the sentence, so such a pattern can be one word longer (`C80`'s example); in the corpus, patterns with gaps are limited to `max_rule_span` words and contiguous ones are not limited.
* C81: the vector that `CandidateSetEntropy` returns is the gradient of minus the entropy (`C81_entropy`); the caller adds it with the temperature, which is right for `risk - T * entropy`.
* C82: `ProLoss` evaluates the held-out pairs with the same gradient vector, so with a held-out set the optimiser gets a gradient that is not that of its objective (`C82_testing_fails`).
* C83: the Gaussian prior skips weights that are zero, also if their mean is not (`C83_means_fails`).
* C84 (by reading): with `--optimize_tension` the empirical feature is computed with `Feature(j, ...)` where the model uses `j + 1`, and its expectation with the wrong normaliser (C59), so the likelihood can go down. Without null word and with the diagonal prior, the prior sums to `1 - prob_align_null`. With `--hide_training_alignments --no_add_viterbi --output_parameters` the empty table of Viterbi pairs is indexed.
* C87: the final loop of `AdjustCounts` compares the adjusted count, not the number of occurrences, with the threshold, so suffixes of the last n-gram can be dropped while the n-gram itself is kept (`C87_prune_fails`). `JointOrder` then finds an n-gram without matching suffix.
* C86 (by reading): after the last record of the last block `CollapseStream::operator++` reads the count one record past the end of the block, and sets a bit there if it does not exceed the threshold.
* C88: with thresholds lmplz can end with an exception on an ordinary corpus, because of the marks of C87 (`C88_pruned_fails`). By reading: `<s>` gets a share of the uniform distribution as a unigram, so the sums are over the vocabulary without `<s>`; if a context is missing from the hashed back-offs the rest of the stream is skipped in the search for it; an empty corpus divides by zero.
* C89 (by reading): the empty sentence has no translation, also with glue and pass-through rules (`C89_empty_fails`). The texts of pass-through rules are parsed by the rule lexer, so a word of the input such as `[X]`, `[1]` or `|||` makes the decoder abort or gives a different rule; the theorems take rules as their texts say.
* C90: `AddSupplementalGrammarFromString` erases the grammars supplied before it for the same sentence (`C90_string_fails`); supplying an object of the configuration removes it for later sentences (`C90_shared_fails`).
* C91: if the fine rules at the goal have different left-hand sides only the derivations of the last one are kept (`C91_goals_fails`); the translator avoids this by refining the goal rule to itself.
* C92: `queue_get` inserts the node of a synchronisation line before its status is set and releases the queue lock, so another thread can take it for an aborted line and use it after it is freed (`C92_synch_fails`). A client that dies while another one is being dismissed at the end of the input leaves a line that nobody takes: the server hangs (`C92_hang_fails`). `queue_panic` means to write blank lines for unanswered ones, but its loop ends at the first of them, so finished answers behind it are lost (`C92_panic_fails`). An answer that was cut off by the death of its client is written as if it were complete (`C92_cut_fails`). By reading: `SIGPIPE` is not ignored, so writing to a client that has gone can kill the server.
* C93: the path of a rule in the grammar trie has no closing symbols, so a rule is used for trees of another shape: `(S (A a) b)` translates `(S (A a b))` (`C93_brackets_fails`). A node with an empty label is read, but its pass-through rule `( [S])` is read back as a node with the label `[S]`, so the tree has no translation (`C93_empty_label_fails`). By reading: node numbers are `unsigned short` and positions `short` in the iterator.
* C94: a tree that is not closed passes the check of the brackets and is read past its end (`C94_unclosed_fails`); a space after the last bracket is refused (an instance of `C94_nothing_after_partial`).
* C95: the output file of a sentence in mode multiple is said to have the 0-indexed line number, but blank lines are not counted (`C95_line_number_fails`). By reading: in context mode an empty n-gram makes `ContextFilter` scan from before the string; for an n-gram that ends in a space nothing but the space is dropped.
* C96: `Flush` on an empty batch uses up a sequence number that is never sent, so if the number of n-grams of a section is a multiple of the batch size (also zero) and a later section has n-grams, the output worker waits for ever (`C96_hang_fails`). `CountFormat::RunFilter` never calls `Flush`: with more than one thread the last incomplete batch of a file of counts is lost without a message; with fewer than 25000 lines the output is empty (`C96_raw_fails`). `MultipleOutputBuffer::Flush` does not reset `last_`: a line of the same length in the same slot of the reused batch is appended to the entry before, or reads the back of an empty vector (`C96_buffer_fails`).
* C97: tags are skipped only in the first place of an n-gram, so an n-gram with `<unk>` later on is dropped although the full model uses it for a word it does not know; the filtered model then gives phrases with unknown words another score (`C97_unk_fails`; the vocabulary filter of C95 keeps such n-grams). As in C95 blank lines are not counted in file names. By reading: a form feed or a lone carriage return ends a sentence; `isspace` is given a `char` that may be negative.
* C98: `BeginSentenceState` puts `<s>` into the first place of the context, but `FireFeatures` reads the context from the last place and stops at an empty one, so with order 3 (the default) or more no n-gram with `<s>` is counted; with order 2 it is (`C98_begin_fails`). By reading: an order above 5 overruns `State<5>` and the list of prefixes; a misplaced `<s>` sets `Malformed` to -100 when it is a word of the rule and to 1 when it comes from an antecedent.
* C99 (by reading): `Stream::operator++` only asserts that it is not at the end; the destructor of a `Link` that still has a block prints a message and leaves the chain without a poison, so an early return from a worker would hang `Wait`.
* C100: no disagreement beyond those of C16 (unary cycles) and C89 (the empty sentence).
* C101 (by reading): the kernel sums subsequences of length 1 to N, where the kernel of the literature has length exactly N; an empty corpus has the score 0/0; `&s[0]` on an empty vector is undefined, though nothing is read.
* C102 (by reading): `BackoffMessages::Apply` returns when the file ends and forgets the remaining messages, so a blank that is the context of a blank may stay unmarked; the scores do not change (this is why the proofs do not use that contexts are marked).  For an order 2 model or a model without blanks nothing is sent.
* C103 (`C103_duplicate_fails`): an n-gram listed twice is only noticed when the two lines are in different batches; otherwise both are written, and which one a query finds depends on the interpolation search and on an unstable sort. By reading: a buffer smaller than one record makes the batch size zero, and the loop does not stop.
* C104 (`C104_limits_fails`): `RSChart` never calls `HasRuleForSpan`, so a grammar's span limit is ignored, and a sentence that `ExhaustiveBottomUpParser` cannot parse within the limits is parsed. No caller in the repository uses this class.
* C105 (`C105_empty_target_fails`, `C105_lattice_fails`): the parser applies rules to non-empty spans only, so derivations with a rule whose target side is empty are lost, and `Intersect` may say no for a reference that the forest has. `RuleFilter` takes every lattice with one arc from each position for the sentence of their labels, even when arcs pass over positions.
* C106 (`C106_shared_rule_fails`, `C106_short_reference_fails`, `C106_pruned_forest_fails`): `FastLinearIntersect` swaps the new rule with the rule of the edge, so the map then holds the old rule, and the second kept edge with the same rule object keeps its rule unexchanged although its spans are exchanged; this happens whenever a word pair occurs twice. A reference shorter than the input of the tagger is read after its end. Coverage is counted by edges, not derivations, so on a pruned forest the function may say yes and leave an empty forest.
* C107: no disagreement. By reading: `ArrayBhiksha` is constructed before the check that there are fewer than 2^57 pointers.
* C108 (`C108_one_bit_fails`): `SetupMemory` rejects zero backoff bits because "we need the reserved values", but there are two reserved values, so one bit is too few as well and is accepted: the code 2 of a non-zero backoff does not fit, is read as "no backoff, no extension", and is or-ed into the probability.
* C109 (`C109_final_fails`, `C109_passes_fails`): at the end of a pass kbest_mira stores the averaged weights in the weight vector of the decoder, so the next sentence is decoded, and its loss computed, with the average; as the loop does one sentence more than asked for, the last sentence always starts such a pass, and `weights.mira-final.gz`, which is written from that vector, holds an average and not the last weights. By reading: with `--sample_forest` and an error metric the score of the Viterbi hypothesis is not negated before it is compared with that of the good hypothesis.
* C110 (`C110_equals_fails`, `C110_short_file_fails`, `C110_newline_fails`): `WriteToFile` separates name and weight by a space, but `InitFromFile` first turns the last `=` or tab of the line into a space, so the weight of a feature whose name has one is lost; a file of less than five bytes, such as the empty one that is written when all weights are zero and hidden, fails the assertion of the header check; and a last line without a newline is processed twice, the second time with its separator replaced, so that `a=b=1` also sets the weight of `a`. By reading: the binary format reads eight bytes into a four-byte integer, and `UpdateFromString` writes outside the vector for new features.
* C111 (`C111_xyx_fails`, `C111_xyx_bounds_fails`, `C111_xyx_limit_fails`, `C111_pro_fails`): in `partXYX` the variable `sep_lo` is already the index where the worst part begins, but the last loop uses `sz-sep_lo`, so the middle is not paired with the worst (if there are ties at the end, other pairs are made); with a part of size zero (the default for two to four samples) the elements `s[sz]` or `s[-1]` are read; after the first loop has reached the limit, the second never does. With `gamma` and `loss_margin` zero, which is the default, all sampled pairs are taken for errors because the sampler is supposed to choose only those, but `PROsampling` ignores that argument.
* C112 (`C112_duplicate_fails`, `C112_zero_hash_fails`): neither vocabulary checks that a word is new, so a model that lists a word twice is loaded, with two indices for it. In the hashed vocabulary a word whose hash is 0 does not mark its bucket as used; the next word overwrites it. (`MurmurHash64A` of the empty string is 0, but the reader of models does not produce empty words.)
* C113 (`C113_empty_features_fails`, `C113_order_fails`, `C113_bit_fails`, `C113_hash_fails`): `WriteToFile` writes an empty line for a candidate without features, and `ParseSparseVector` exits with an error on it. `ApproxVectorEquals` and the hash go through the entries in storage order, which depends on the history of the vector. `t.i &= (1ull - MASK)` should be `~MASK`; it keeps bit 1 of the lower half. The hash uses the upper half of the value without rounding, so values that compare equal can have different hash codes.
* C114 (`C114_identity_fails`, `C114_million_fails`, `C114_length_fails`, `C114_ser_fails`, `C114_ter_scaled_fails`, `C114_half_fails`): `TERScore::PlusEquals(delta, scale)` lacks `return` or `else` and throws on every path, also for the factors 1 and -1; kbest_cut_mira calls it with 0.5. Integer counts are truncated at every addition with a factor. `BLEUScore::Encode` prints six digits, so counts of a million or more change. The combinations store the length of the BLEU text in one signed byte. `SERScore::Encode` is an assertion. `BLEUScore::IsAdditiveIdentity` ignores reference lengths of at most 0.1.
* C115 (`C115_empty_fails`, `C115_ser_fails`, `C115_wer_fails`): with no links in hypothesis and reference the F-measure is NaN and `AERScore::ComputeScore` returns 1, the worst value. `SERScore::ComputeScore` returns correct/total. `WERScorer::Calculate` returns 0 for an empty reference, which then beats every other, and its edits are counted with length 0.
* C116 (`C116_short_fails`, `C116_empty_fails`, `C116_qcri_fails`): for a hypothesis without n-grams of some order, ns.cc divides the sum of logarithms by the number of orders present and scorer.cc by N, so the same counts have two BLEU values. An empty hypothesis has BLEU NaN in ns.cc and 0 in scorer.cc. With QCRI smoothing only a count of zero is replaced (by 1), so the first match of an order does not change the value.
* C117 (`C117_announced_fails`, `C117_error_fails`): `ExternalMetric` does not override `SufficientStatisticsVectorSize`, which is 50; in a combination its score is computed from 50 fields instead of its own, and fields it does not write keep the values of the output vector from before. `CombinationMetric` does not override `IsErrorMetric`, so a combination of error metrics is maximised.
* C118 (`C118_oov_fails`, `C118_non_latin_fails`): `WordSet` with `--oov` looks up the variables of a rule in the vocabulary too and counts each as an unknown word. `ContainsNonLatin` does not end on a word with a stray continuation byte, for which `UTF8Len` is 0, and it counts Latin letters outside ASCII. The constructors `TRule(e)` and `TRule(e, f, lhs)` leave `arity_` uninitialised, so the word penalties need a call of `ComputeArity`.
* C119 (`C119_zero_fails`, `C119_converged_fails`): the sign of a derivative that is zero is taken to be 1 (or -1 for a negative zero), so the weight moves by its step: weights of features that do not occur fall without end, and a weight at its minimum leaves it. `Optimize` tests for convergence with the gradient at the old weights but leaves new ones, which are written to `weights.final.gz`.
* C120 (`C120_roles_fails`, `C120_error_metric_fails`, `C120_empty_fails`, `C120_id_fails`, `C120_missing_fails`): the candidate is made the reference and the other translations the hypotheses. Only the name TER is known as an error metric, so `-m WER` and `-m CER` choose the translation with the largest expected error. A line in the cache is forgotten if its translation is empty; `*sent_id` is not set for a list of one line; the cache of a file that has no more lines adds an empty translation of probability zero.
* C121 (`C121_exact_fails`, `C121_cycle_fails`): an edge of the new forest whose features differ by 1e-6 at most from those of a stored edge is dropped, so its own features are lost. Two forests without cycles can have a union with a cycle (X over Y in one, Y over X in the other), and the sorting at the end aborts on it.
* C122 (`C122_agree_fails`): `ReadLine` takes a second `|||` for a word of the target side and accepts a line without one, while `ReadFromFile` aborts on both.
* C123 (`C123_append_fails`, `C123_pad_fails`): `append_itoa` and `append_utoa` have each other's bodies, so `append_itoa` writes -1 as the largest unsigned number. `itoa_left_pad` reserves a place for the sign and does not write it if there is none.
* C124 (`C124_collision_fails`): lines are compared by their hashes only, so a line with the hash of an earlier one is dropped; such lines exist for every hash function of 64 bits.

## Axioms per theorem

* **propext, Classical.choice, Quot.sound**: `HG.C01_construction_indices`, `HG.C01_calls_effect`, `HG.C02_inside_is_sum_over_derivations`, `HG.C02_derivations_listed`, `HG.C02_inside_return`, `HG.C03_expectation`, `HG.C03_edge_posterior`, `HG.C03_node_posterior`, `HG.C03_repeated_tail_fails`, `Dec.KBest.C05_kbest`, `Dec.KBest.C05_unique`, `HG.C06_topological_sort`, `HG.C06_cycles_are_rejected`, `HG.C06_tables_stay_consistent`, `HG.C07_prune_edges`, `HG.C07_inside_check_leaves_no_dead_nodes`, `HG.C07_tables_stay_consistent`, `HG.C08_margin_pruning_partial`, `HG.C08_best_derivation_survives_partial`, `HG.C08_more_than_a_million_edges_fails`, `HG.C08_exact_cutoff_fails`, `HG.C09_union`, `HG.C09_tables_stay_consistent`, `HG.C10_reweight`, `HG.C10_viterbi_features`, `HG.C11_node_edge_subset_partial`, `HG.C11_edge_subset_partial`, `HG.C12_push_to_goal`, `HG.C12_push_to_source_partial`, `HG.C12_push_to_source_fails`, `Dec.C13_exact`, `Dec.Cube.C14_fast`, `Dec.Cube.C14_normal`, `Dec.Cube.C14_fast2`, `Dec.Cube.C14_pops`, `Dec.C15_cube`, `Dec.Parser.C16_unaries`, `Dec.Parser.C16_parses`, `Dec.Parser.C16_once`, `Dec.Parser.C16_language_partial`, `Dec.C18_distance`, `Dec.C18_unreachable`, `Dec.C19_target`, `Dec.C19_source`, `Dec.C19_target_length`, `Dec.C19_source_length`, `Dec.C20_round_trip`, `Dec.C20_same_process`, `Dec.C21_round_trip`, `Dec.C21_accepted_goes_forward`, `Dec.C21_empty_label_fails`, `Dec.C21_costs_fails`, `Dec.C22_intersect`, `Dec.C22_written_partial`, `Dec.C22_written_binary_partial`, `Dec.C22_written_fails`, `Sparse.C24_dot_dense`, `Sparse.C24_dot_sparse`, `Sparse.C25_erase_partial`, `Sparse.C26_eq_partial`, `C29_round_trip_partial`, `C30_reads_links`, `C30_round_trip`, `C31_grow_diag`, `C31_grow_diag_final`, `C31_grow_diag_final_and`, `C31_elementary`, `C32_compaction`, `LogVal.C33_arithmetic_partial`, `LogVal.C33_comparisons_partial`, `LogVal.C33_comparisons_mixed_partial`, `LogVal.C33_negative_comparison_fails`, `LogVal.C33_negative_zero_fails`, `LogVal.C33_star_of_zero_fails`, `LogVal.C33_star_partial`, `Mert.C34_sort`, `Mert.C34_add`, `Mert.C34_mul`, `Mert.C34_shared_points_fails`, `Mert.C35_best`, `Mert.C35_close_breakpoints_fails`, `Bleu.C36_clipped_counts`, `Bleu.C36_closest_length`, `Bleu.C36_shortest_length`, `Bleu.C36_average_length`, `Edit.C37_levenshtein`, `Edit.C37_ter`, `Edit.C37_path`, `Ter.C38_perform_shift`, `Ter.C38_search`, `Extract.C39_lookup`, `Extract.C40_suffix_array`, `Extract.C40_pivots_irrelevant`, `Extract.C41_lcp`, `Extract.C42_intersect`, `Extract.C42_contiguous`, `Extract.C42_located`, `Extract.C43_consistent`, `Extract.C43_terminates`, `Extract.C43_least`, `Extract.C43_succeeds`, `Extract.C43_gaps`, `Extract.C44_two_gaps_partial`, `Extract.C44_three_gaps_fails`, `Extract.C45_collocations_partial`, `Extract.C45_two_parts`, `Extract.C45_three_parts`, `Extract.C46_sound`, `Extract.C46_complete`, `Extract.C46_reads_in_range`, `Extract.C47_normalised`, `Extract.C47_counts`, `Klm.C48_read_back`, `Klm.C48_frame`, `Klm.C48_required_bits`, `Klm.C49_history`, `Klm.C50_find_or_insert_partial`, `Klm.C50_few_inserts_partial`, `Klm.C50_insert_fails`, `Klm.C52_all_intersection`, `Klm.PCQ.C53_fifo`, `Klm.PCQ.C53_calls`, `Klm.PCQ.C53_no_overwrite`, `Klm.PCQ.C53_reads_oldest`, `Klm.PCQ.C53_no_deadlock`, `Klm.C54_single`, `Klm.C54_any`, `Klm.C54_bool`, `Klm.C54_multi`, `C55_mixture_is_p`, `C55_draw_is_an_outcome`, `C56_inside_computes_expectations`, `HG.C57_erase`, `Align.C58_counts_partial`, `Align.C58_increment_partial`, `Align.C58_normalize`, `Align.C58_increment_loses_counts_fails`, `Align.C58_increment_after_normalize_fails`, `Align.C59_computeZ_partial`, `Align.C59_dlogz_partial`, `Align.C59_dlogz_swapped_partial`, `Align.C59_dlogz_fails`, `Align.C59_zero_tension_fails`, `Sparse.C60_total_penalty_within_budget_partial`, `Sparse.C60_penalty_shrinks_partial`, `Sparse.C60_absent_key_fails`, `Sparse.C60_first_update_fails`, `Sparse.C60_reset_fails`, `ErrorRates.C61_wer`, `ErrorRates.C61_cer_partial`, `Extract.C62_words`, `Extract.C62_word_ids`, `Extract.C62_sentences`, `Mert.C63_surface_partial`, `Mert.C63_empty_translation_fails`, `Mert.C63_search_partial`, `Mert.C63_active_is_maximal`, `Mert.C65_segments`, `Mert.C65_value`, `Sparse.C66_round_trip`, `Klm.LM.C67_full_score_sentence`, `Klm.LM.C67_full_score_null`, `Klm.LM.C67_sentence`, `Klm.LM.C67_forgot_state`, `Klm.LM.C67_get_state`, `Klm.LM.C67_state_short`, `Klm.LM.C68_derivation_score`, `Klm.LM.C68_derivation_score_explicit`, `Klm.LM.C68_same_string`, `Klm.LM.C69_accepts`, `Klm.LM.C69_context`, `Klm.LM.C69_listed`, `Klm.LM.C69_blank`, `Klm.LM.C69_marks`, `HG.C70_always_a_derivation`, `HG.C70_probability`, `HG.C70_shared_node_string_fails`, `Dec.PB.C71_table`, `Dec.PB.C71_translations`, `Dec.PB.C71_once`, `Dec.PB.C71_pass_through_always`, `Dec.PB.C72_restored_iff`, `Extract.C73_target_phrases`, `Extract.C73_any_gaps`, `Extract.C73_tight`, `Extract.C74_sound`, `Extract.C74_outside`, `Extract.C74_complete`, `Extract.C74_three_gaps_fails`, `Extract.C75_rules`, `Extract.C75_source_count`, `Extract.C75_loose_fails`, `Dec.C76_taggings`, `Dec.C76_once`, `Dec.C77_translations`, `Dec.C77_gives_up`, `Dec.C77_once`, `Dec.C78_swaps`, `Dec.C78_gives_up`, `Dec.C78_orders`, `Dec.C79_splits`, `Dec.C79_once`, `Dec.C79_full_word`, `Extract.C80_calls`, `Extract.C80_grammar`, `Train.C81_risk`, `Train.C81_entropy`, `Train.C81_objective`, `Train.C82_loss`, `Train.C82_gradient_partial`, `Train.C82_testing_fails`, `Train.C83_likelihood`, `Train.C83_total`, `Train.C83_prior_partial`, `Train.C83_means_fails`, `Align.C84_train`, `Align.C84_iteration`, `Align.C84_test`, `Align.C84_empty`, `Klm.Builder.C85_count`, `Klm.Builder.C85_independent`, `Klm.Builder.C85_sort`, `Klm.Builder.C85_exists`, `Klm.Builder.C86_lower`, `Klm.Builder.C86_highest`, `Klm.Builder.C86_collapse`, `Klm.Builder.C86_second`, `Klm.Builder.C87_prune_partial`, `Klm.Builder.C87_unpruned`, `Klm.Builder.C87_prune_fails`, `Klm.Builder.C88_discounts`, `Klm.Builder.C88_kneser_ney`, `Klm.Builder.C88_parse`, `Klm.Builder.C88_pruned_partial`, `Klm.Builder.C88_sums`, `Klm.Builder.C88_range`, `Klm.Builder.C88_ngrams`, `Klm.Builder.C88_formula`, `Klm.Builder.C88_exists`, `Klm.Builder.C88_fallback`, `Klm.Builder.C88_pruned_fails`, `Dec.Scfg.C89_translates`, `Dec.Scfg.C89_identity`, `Dec.Scfg.C89_empty_fails`, `Dec.Scfg.C90_grammars_partial`, `Dec.Scfg.C90_drop`, `Dec.Scfg.C90_restored`, `Dec.Refine.C91_refine`, `SentServer.C92_order_partial`, `SentServer.C92_exit_partial`, `SentServer.C92_panic_partial`, `SentServer.C92_ends_partial`, `SentServer.C92_progress_partial`, `SentServer.C92_served_partial`, `Dec.T2S.C93_translation`, `Dec.T2S.C93_flat_partial`, `Dec.T2S.C93_ranked_partial`, `Dec.T2S.C93_pass_through`, `Dec.T2S.C93_brackets_fails`, `Dec.T2S.C93_empty_label_fails`, `Dec.T2S.C94_read`, `Dec.T2S.C94_unambiguous`, `Dec.T2S.C94_iterate`, `Dec.T2S.C94_sites_refused`, `Dec.T2S.C94_nothing_after_partial`, `Dec.T2S.C94_unclosed_fails`, `Klm.Filter.C95_single`, `Klm.Filter.C95_union`, `Klm.Filter.C95_multiple`, `Klm.Filter.C95_raw`, `Klm.Filter.C95_scores`, `Klm.Filter.C95_query`, `Klm.Filter.C95_line_number_fails`, `Klm.FilterThread.C96_safe`, `Klm.FilterThread.C96_race`, `Klm.FilterThread.C96_progress`, `Klm.FilterThread.C96_complete`, `Klm.FilterThread.C96_arpa_partial`, `Klm.FilterThread.C96_raw`, `Klm.FilterThread.C96_raw_fails`, `Klm.FilterBuffer.C96_buffer_fails`, `Klm.Phrase.C97_multiple`, `Klm.Phrase.C97_union`, `Klm.Phrase.C97_raw`, `Klm.Phrase.C97_query`, `Klm.Phrase.C97_unk_fails`, `NgramFeat.C98_cache`, `NgramFeat.C98_bigrams`, `NgramFeat.C98_bigrams_explicit`, `NgramFeat.C98_counts_partial`, `NgramFeat.C98_counts_explicit_partial`, `NgramFeat.C98_same_string`, `NgramFeat.C98_begin_fails`, `Klm.Chain.C99_in_order`, `Klm.Chain.C99_complete`, `Klm.Chain.C99_one_holder`, `Klm.Chain.C99_recycled`, `Klm.Chain.C99_no_deadlock`, `Klm.Chain.C99_no_abort`, `Klm.Chain.C99_run`, `Klm.Chain.C99_read_file`, `Klm.Chain.C99_records`, `Dec.Decode.C100_best`, `Dec.Decode.C100_always`, `Dec.Decode.C100_identity`, `Mteval.Ssk.C101_kernel`, `Mteval.Ssk.C101_similarity`, `Mteval.Ssk.C101_closest`, `Mteval.Ssk.C101_corpus`, `Klm.LM.C102_full_score_sentence`, `Klm.LM.C102_full_score_null`, `Klm.LM.C102_sentence`, `Klm.LM.C102_forgot_state`, `Klm.LM.C102_get_state`, `Klm.LM.C102_state_short`, `Klm.LM.C102_same_as_probing`, `Klm.LM.C102_accepts`, `Klm.LM.C103_sorted_files`, `Klm.LM.C103_buffer_independent`, `Klm.LM.C103_from_arpa`, `Klm.LM.C103_duplicate_partial`, `Klm.LM.C103_duplicate_fails`, `Dec.Parser.Rs.C104_parses`, `Dec.Parser.Rs.C104_once`, `Dec.Parser.Rs.C104_agree`, `Dec.Parser.Rs.C104_finds_more`, `Dec.Parser.Rs.C104_limits_fails`, `Dec.Intersect.C105_intersect`, `Dec.Intersect.C105_empty_target_fails`, `Dec.Intersect.C105_lattice_fails`, `Dec.Fast.C106_fast_intersect`, `Dec.Fast.C106_lexical`, `Dec.Fast.C106_tagger`, `Dec.Fast.C106_short_reference_fails`, `Klm.Packed.C107_entries`, `Klm.Packed.C107_find`, `Klm.Packed.C107_frame`, `Klm.Packed.C107_header`, `Klm.Packed.C107_compression`, `Klm.Packed.C107_trie`, `Klm.Packed.C107_smallest`, `Klm.Quantize.C108_nearest`, `Klm.Quantize.C108_lossless`, `Klm.Quantize.C108_error`, `Klm.Quantize.C108_order`, `Klm.Quantize.C108_middle_partial`, `Klm.Quantize.C108_longest`, `Klm.Quantize.C108_one_bit_fails`, `Klm.Quantize.C108_layout`, `Klm.Quantize.C108_header`, `Train.Mira.C109_run_partial`, `Train.Mira.C109_step`, `Train.Mira.C109_stay`, `Train.Mira.C109_final_fails`, `Train.Mira.C109_passes_fails`, `C110_round_trip_partial`, `Train.Dtrain.C111_all`, `Train.Dtrain.C111_limit`, `Train.Dtrain.C111_xyx_partial`, `Train.Dtrain.C111_pro_partial`, `Train.Dtrain.C111_pass`, `Train.Dtrain.C111_train`, `Train.Dtrain.C111_all_samples`, `Train.Dtrain.C111_xyx_fails`, `Train.Dtrain.C111_xyx_bounds_fails`, `Train.Dtrain.C111_xyx_limit_fails`, `Train.Dtrain.C111_pro_fails`, `Klm.Vocab.C112_sorted`, `Klm.Vocab.C112_probing`, `Klm.Vocab.C112_read_words`, `Klm.Vocab.C112_sorted_binary`, `Klm.Vocab.C112_probing_binary`, `Train.Candidates.C113_history`, `Scores.C114_corpus`, `Scores.C114_order`, `Scores.C114_statistics`, `Scores.C114_difference`, `Scores.C114_identity_partial`, `Scores.C114_identity_fails`, `Scores.C114_transport_partial`, `Scores.C114_million_fails`, `Scores.C114_length_fails`, `Scores.C114_scaled_partial`, `Scores.C114_ter_scaled_fails`, `Scores.C114_half_fails`, `Scores.C115_aer_counts`, `Scores.C115_aer_partial`, `Scores.C115_aer_zero_partial`, `Scores.C115_empty_fails`, `Scores.C115_ser_counts`, `Scores.C115_ser_fails`, `Scores.C115_wer_partial`, `Scores.C115_wer_fails`, `Scores.C115_ter`, `BleuValue.C116_value_partial`, `BleuValue.C116_range`, `BleuValue.C116_monotone`, `BleuValue.C116_orders`, `BleuValue.C116_short_fails`, `BleuValue.C116_empty_fails`, `BleuValue.C116_qcri_fails`, `BleuValue.C116_sentence`, `Comb.C117_create`, `Comb.C117_single`, `Comb.C117_statistics`, `Comb.C117_total`, `Comb.C117_score`, `Comb.C117_announced_fails`, `Comb.C117_error_fails`, `Dec.Basic.C118_word_penalty`, `Dec.Basic.C118_arity`, `Dec.Basic.C118_word_set`, `Dec.Basic.C118_oov_partial`, `Dec.Basic.C118_non_latin_partial`, `Dec.Basic.C118_side`, `Dec.Basic.C118_shape_name`, `Train.RProp.C119_runs`, `Train.RProp.C119_rule_partial`, `Train.RProp.C119_bounds`, `Train.RProp.C119_returns`, `Train.RProp.C119_zero_fails`, `Train.RProp.C119_converged`, `Train.RProp.C119_converged_fails`, `Train.RProp.C119_resume`, `Train.RProp.C119_truncated`, `Train.RProp.C119_size`, `Mbr.C120_choice`, `Mbr.C120_mbr_partial`, `Mbr.C120_ter_partial`, `Mbr.C120_list`, `Mbr.C120_roles_fails`, `Mbr.C120_error_metric_fails`, `Mbr.C120_lists_partial`, `Mbr.C120_ids_partial`, `Mbr.C120_empty_fails`, `Mbr.C120_id_fails`, `Mbr.C120_missing_fails`, `HashUnion.C121_checks`, `HashUnion.C121_empty`, `HashUnion.C121_nodes`, `HashUnion.C121_keeps`, `HashUnion.C121_contains_partial`, `HashUnion.C121_goal_partial`, `HashUnion.C121_from`, `HashUnion.C121_again`, `HashUnion.C121_exact_fails`, `HashUnion.C121_sorts`, `HashUnion.C121_result_partial`, `HashUnion.C121_cycle_fails`, `Corpus.C122_pairs`, `Corpus.C122_source`, `Corpus.C122_partition`, `Corpus.C122_refuses`, `Utoa.C123_itos`, `Utoa.C123_injective`, `Utoa.C123_buffer`, `Utoa.C123_pad`, `Utoa.C123_append_fails`, `Utoa.C123_signed_pad_partial`, `Utoa.C123_pad_fails`, `Dedup.C124_collision_fails`
* **propext, Quot.sound**: `HG.C04_viterbi_best_derivation`, `HG.C04_path_length`, `HG.C04_path_edges`, `Dec.Cube.C14_limit`, `Dec.Parser.C16_goal_unary_fails`, `Dec.Parser.C16_unary_cycle_fails`, `Dec.C17_extend`, `Dec.C17_bins`, `Dec.C17_unaries`, `Dec.C17_fine`, `Dec.C18_reused_lattice_fails`, `Dec.C20_too_long`, `Dec.C20_no_lhs_fails`, `C23_small_vector`, `C23_equality`, `Sparse.C24_value`, `Sparse.C24_local_max_irrelevant`, `Sparse.C25_erase_absent_fails`, `Sparse.C25_erase_empty_fails`, `C27_dictionary`, `C28_decode_encode_partial`, `C28_plus_fails`, `C28_escape_injective_and_safe`, `C29_two_byte_block_fails`, `Mert.C34_constants`, `Mert.C34_in_place`, `Extract.C39_null_phrase_fails`, `Extract.C44_monotone_partial`, `Extract.C45_ternary_fails`, `Extract.C47_defined`, `Klm.C51_binary_find`, `Klm.C51_bounded_find`, `Klm.C51_sorted_uniform_find`, `Klm.C51_pivots_in_range`, `Klm.C52_first_intersection`, `Klm.C54_split_unique`, `HG.C57_regions`, `Align.C58_plus`, `Sparse.C60_map_mode_partial`, `ErrorRates.C61_cer_fails`, `Mert.IO.C64_round_trip_partial`, `Mert.IO.C64_long_statistics_fails`, `Sparse.C66_reserved_fails`, `HG.C70_report`, `Dec.PB.C71_lattice_alternatives_fails`, `Dec.C76_distinct`, `Dec.C77_distinct`, `Dec.C79_characters`, `Dec.C79_characters_total`, `Dec.Scfg.C90_string_fails`, `Dec.Scfg.C90_shared_fails`, `Dec.Refine.C91_mixed`, `Dec.Refine.C91_goals_fails`, `SentServer.C92_hang_fails`, `SentServer.C92_panic_fails`, `SentServer.C92_read`, `Klm.FilterThread.C96_terminates`, `Klm.FilterBuffer.C96_buffer`, `Klm.FilterBuffer.C96_buffer_new`, `Klm.Phrase.C97_room`, `Klm.Chain.C99_terminates`, `Klm.Chain.C99_stream_writes`, `Dec.Decode.C100_score`, `Dec.Intersect.C105_features`, `Dec.Fast.C106_unshared`, `Dec.Fast.C106_shared_rule_fails`, `Dec.Fast.C106_pruned_forest_fails`, `C110_lines`, `C110_no_newline`, `C110_equals_fails`, `C110_short_file_fails`, `Klm.Vocab.C112_zero_hash_fails`, `Train.Candidates.C113_file_partial`, `Train.Candidates.C113_empty_features_fails`, `Scores.C114_ser_fails`, `Dec.Basic.C118_oov_fails`, `Utoa.C123_utos`, `Utoa.C123_trailing`, `Utoa.C123_append`, `Dedup.C124_lines`, `Dedup.C124_all_partial`, `Dedup.C124_first_partial`, `Dedup.C124_again`
* **propext**: `HG.C04_no_in_edges_fails`, `HG.C09_union_with_empty_receiver`, `HG.C11_node_ids_fails`, `C23_push_own_element_fails`, `Sparse.C25_erase_absent_fails_witness`, `Sparse.C26_eq_unsound_fails`, `Sparse.C26_eq_incomplete_fails`, `Ter.C38_long_sentences_fails`, `Extract.C40_null_word_fails`, `Klm.C49_invalid_key_fails`, `Klm.C54_null`, `Klm.C54_empty_delimiter_fails`, `C56_semiring_laws`, `HG.C70_edges_identify`, `Dec.PB.C72_phrase_lost_fails`, `Dec.C78_empty_fails`, `Dec.C79_empty_fails`, `Dec.C79_whole`, `SentServer.C92_synch_fails`, `SentServer.C92_cut_fails`, `Klm.FilterThread.C96_frame`, `Klm.FilterThread.C96_hang_fails`, `Klm.Chain.C99_stream_reads`, `C110_newline_fails`, `Klm.Vocab.C112_duplicate_fails`, `Train.Candidates.C113_order_fails`, `Train.Candidates.C113_bit_fails`, `Train.Candidates.C113_hash_fails`, `Dec.Basic.C118_non_latin_words`, `Dec.Basic.C118_non_latin_fails`, `Corpus.C122_line`, `Corpus.C122_agree_fails`
* **none**: `Edit.C37_distance_unique`, `Klm.C54_any_character_last_fails`, `C56_star`, `Dec.C76_empty_fails`, `Dec.C77_empty_fails`, `SentServer.C92_read_dead`
