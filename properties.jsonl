{"id": "C01", "title": "Hypergraph construction keeps its indices consistent", "statement": "After any sequence of AddNode, AddEdge and ConnectEdgeToHeadNode calls with valid arguments, every node and edge id equals its position, an edge is listed in out_edges_ of a node exactly once per occurrence of that node among the edge's tails, and is listed in in_edges_ of a node iff it was connected to that node (its head).", "quantifier": "all finite sequences of construction calls", "why_tests_cant": "the number and order of calls is unbounded", "anchors": ["decoder/hg.h:Hypergraph::AddNode", "decoder/hg.h:Hypergraph::AddEdge", "decoder/hg.h:Hypergraph::ConnectEdgeToHeadNode"]}
{"id": "C02", "title": "Inside score is the sum over derivations", "statement": "For a hypergraph whose nodes are in topological order (every tail before its head), Inside(hg) returns, at every node, exactly the sum over all derivation trees of that node of the product of the edge weights, in any commutative semiring; on a node without incoming edges it returns zero (the empty sum).", "quantifier": "all topologically ordered hypergraphs, all semirings, all weight functions", "why_tests_cant": "unbounded graphs and an exponential number of derivations", "anchors": ["decoder/inside_outside.h:Inside"]}
{"id": "C03", "title": "Outside and posterior expectations", "statement": "For a topologically ordered hypergraph in which no edge repeats a tail node, outside(head(e))*weight(e)*prod inside(tails) is the total weight of the derivations of the goal counted with the number of times they use e; this fails when an edge lists the same tail node twice.", "quantifier": "all topologically ordered hypergraphs and weights", "why_tests_cant": "unbounded graphs; the failing shape is not produced by the unit tests", "anchors": ["decoder/inside_outside.h:Outside", "decoder/inside_outside.h:InsideOutsides", "decoder/hg.cc:ComputeEdgePosteriors"]}
{"id": "C04", "title": "Viterbi returns a best derivation", "statement": "For a topologically ordered hypergraph in which every node has an incoming edge, Viterbi returns at the goal a weight that is attained by an actual derivation and is not exceeded by any derivation, and the returned traversal value is the traversal of that same derivation.", "quantifier": "all topologically ordered hypergraphs, all non-negative weights, all traversals", "why_tests_cant": "exponentially many derivations", "anchors": ["decoder/viterbi.h:Viterbi"]}
{"id": "C05", "title": "Lazy k-best returns the k best derivations in order", "statement": "Whatever requests for the k-th best derivation of nodes are made, in whatever order, there is for each node one list of its derivations, from best to worst without repetition and with no missing derivation better than a listed one, such that each request returns the derivation at place k of the list (with its score, features and yield and with indices of its antecedents in their own lists); nothing is returned only if the list has all the derivations. With the filter for unique yields the same holds of the distinct yields of the node, each with a best derivation.", "quantifier": "all acyclic hypergraphs whose nodes have incoming edges, all weights from an ordered commutative monoid, all sequences of requests (k below the bound given to the constructor when there is no filter)", "why_tests_cant": "unbounded k and graph sizes, memoised lazy state", "anchors": ["decoder/kbest.h:KBestDerivations::LazyKthBest"]}
{"id": "C06", "title": "Topological sort preserves derivations and establishes order", "statement": "TopologicallySortNodesAndEdges(goal) on an acyclic hypergraph yields a hypergraph in which every tail precedes its head, the goal is the last node, ids equal positions, and the derivations of the goal are in weight-preserving bijection with the original ones; nodes and edges that cannot reach the goal are removed.", "quantifier": "all acyclic hypergraphs and goals", "why_tests_cant": "all graphs of any size", "anchors": ["decoder/hg.cc:TopologicallySortNodesAndEdges"]}
{"id": "C07", "title": "Edge pruning removes exactly the derivations that use a pruned edge", "statement": "PruneEdges(mask) leaves exactly the derivations of the goal that use no pruned edge.", "quantifier": "all hypergraphs, all masks", "why_tests_cant": "exponential numbers of graphs and masks", "anchors": ["decoder/hg.cc:Hypergraph::PruneEdges"]}
{"id": "C08", "title": "Density / beam pruning never loses the Viterbi derivation", "statement": "Margin pruning with a cutoff not exceeding the best score keeps every edge of the best derivation; every derivation whose score is at least the cutoff survives.", "quantifier": "all hypergraphs, all cutoffs", "why_tests_cant": "all graphs and thresholds", "anchors": ["decoder/hg.cc:Hypergraph::MarginPrune", "decoder/hg.cc:Hypergraph::PruneInsideOutside"]}
{"id": "C09", "title": "Union of forests", "statement": "Union(other) on non-empty hypergraphs yields a hypergraph whose goal derivations are the disjoint union of the goal derivations of both arguments; with an empty argument the result is not well defined.", "quantifier": "all pairs of hypergraphs", "why_tests_cant": "all pairs", "anchors": ["decoder/hg.cc:Hypergraph::Union"]}
{"id": "C10", "title": "Reweighting scores derivations by the feature dot product", "statement": "After Reweight(w), the log-weight of every derivation equals the dot product of w with the sum of the feature vectors of its edges.", "quantifier": "all hypergraphs, weights and derivations", "why_tests_cant": "all derivations", "anchors": ["decoder/hg.h:Hypergraph::Reweight", "decoder/viterbi.cc:ViterbiFeatures"]}
{"id": "C11", "title": "Edge/Node subset keeps node identities", "statement": "CreateEdgeSubset/CreateNodeEdgeSubset return a hypergraph whose nodes' ids equal their positions.", "quantifier": "all hypergraphs and masks", "why_tests_cant": "holds or fails for every graph", "anchors": ["decoder/hg.h:Hypergraph::Node::copy_reindex", "decoder/hg.cc:CreateEdgeSubset"]}
{"id": "C12", "title": "Weight pushing preserves the derivation distribution", "statement": "PushWeightsToSource/Goal changes every derivation's weight by the same constant factor.", "quantifier": "all hypergraphs and derivations", "why_tests_cant": "all derivations", "anchors": ["decoder/hg.cc:Hypergraph::PushWeightsToSource", "decoder/hg.cc:Hypergraph::PushWeightsToGoal"]}
{"id": "C13", "title": "Exhaustive rescoring is exact", "statement": "Applying feature functions without pruning ends without failing an assertion, and the resulting forest's derivations of the goal correspond one-to-one to the input's; in each of them the features of every edge are exactly those the feature functions give when run bottom up along that derivation (final features at the goal).", "quantifier": "all acyclic forests whose nodes all have an incoming edge and whose goal edges are unary, all sets of feature functions, all state types", "why_tests_cant": "unbounded forests and state spaces", "anchors": ["decoder/apply_models.cc:NoPruningRescorer"]}
{"id": "C14", "title": "Cube pruning visits each combination of antecedents exactly once", "statement": "At every node, whichever of the three candidate strategies is used and in whatever order the scores make candidates pop: no combination of an incoming edge and antecedent indices is popped twice, every popped combination is within bounds, at most the pop limit are popped, and if the queue runs empty every combination has been popped; under the third strategy a combination is queued exactly when all combinations just below it have been popped.", "quantifier": "all sets of incoming edges, all numbers of antecedents per tail, all orders of popping, all pop limits, three strategies", "why_tests_cant": "unbounded tuples", "anchors": ["decoder/apply_models.cc:CubePruningRescorer::PushSucc", "decoder/apply_models.cc:CubePruningRescorer::PushSuccFast", "decoder/apply_models.cc:CubePruningRescorer::PushSuccFast2", "decoder/apply_models.cc:CubePruningRescorer::KBest"]}
{"id": "C15", "title": "Cube pruning keeps a sub-forest with exact scores", "statement": "Whatever the strategy, pop limit and order of scores, cube pruning ends without failing an assertion and returns a non-empty forest whose goal derivations project, one to one, to derivations of the input; for the edges into any input node at most pop-limit edges are made; if no state bytes are ignored the features of each derivation are those the feature functions give along it; and if the pop limit is at least the number of derivations of every node nothing is lost.", "quantifier": "all forests, feature functions, strategies, pop limits of at least one, orders of candidates, state erasures", "why_tests_cant": "unbounded", "anchors": ["decoder/apply_models.cc:CubePruningRescorer"]}
{"id": "C16", "title": "Bottom-up parser is sound and complete", "statement": "ExhaustiveBottomUpParser::Parse succeeds iff the goal category derives the input, and the derivations of the returned forest are exactly the grammar derivations of the input, each of them once.", "quantifier": "all lattices (in particular all sentences), all sets of grammars, all span limits; for the exact derivations the unary rules are those the parser keeps (an acyclic subset, all of them if they are acyclic and none rewrites the goal category)", "why_tests_cant": "unbounded inputs and grammars", "anchors": ["decoder/bottom_up_parser.cc:PassiveChart", "decoder/bottom_up_parser.cc:ActiveChart"]}
{"id": "C17", "title": "Grammar trie lookup is exact", "statement": "Following Extend from the root along a symbol sequence reaches a rule bin iff a rule with that source side was added, and the bin holds exactly those rules in insertion order; unary rules are returned by the unary interface exactly.", "quantifier": "all sequences of AddRule and all queries", "why_tests_cant": "unbounded histories", "anchors": ["decoder/grammar.cc:TextGrammar::AddRule", "decoder/grammar.cc:TGImpl"]}
{"id": "C18", "title": "Lattice distances are shortest paths", "statement": "After ComputeDistances on a fresh lattice, Distance(i,j) is the minimum number of arcs on a path from i to j when there is one, and otherwise the distance from i to the nearest later position that can be reached.", "quantifier": "all lattices with forward arcs, all pairs of positions", "why_tests_cant": "all graphs", "anchors": ["decoder/lattice.cc:Lattice::ComputeDistances"]}
{"id": "C19", "title": "Rule substitution builds the yield compositionally", "statement": "ESubstitute/FSubstitute return the rule's side with the k-th variable replaced by the k-th antecedent's yield, and its length is the number of terminals plus the antecedents' lengths.", "quantifier": "all rules and antecedents", "why_tests_cant": "all rules", "anchors": ["decoder/trule.h:TRule::ESubstitute", "decoder/trule.h:TRule::FSubstitute"]}
{"id": "C20", "title": "Rule serialization round-trips", "statement": "Saving and loading a rule with a left-hand side category and at most 64 symbols on each side restores its left-hand side, both sides and its arity (exactly in the same process, by name in another).", "quantifier": "all rules up to 64 symbols per side with a left-hand side, all dictionaries of the loading process", "why_tests_cant": "all symbol sequences", "anchors": ["decoder/trule.h:TRule::save", "decoder/trule.h:TRule::load"]}
{"id": "C21", "title": "Lattice PLF round trip", "statement": "Writing a lattice as PLF text and reading it back restores positions, arcs, distances and labels (for labels containing quotes, blanks and backslashes too).", "quantifier": "all lattices with non-empty labels and forward arcs, one of which reaches the end", "why_tests_cant": "all label strings", "anchors": ["decoder/hg_io.cc:HypergraphIO::AsPLF", "decoder/hg_io.cc:HypergraphIO::PLFtoLattice", "decoder/hg_io.cc:HypergraphIO::Escape"]}
{"id": "C22", "title": "Forest-as-grammar conversions agree", "statement": "The grammar produced from a forest for intersection and the grammar written by WriteAsCFG permute variables consistently: the rewritten rule denotes the original rule with source and target exchanged.", "quantifier": "all rules of any arity", "why_tests_cant": "the disagreement needs arity three", "anchors": ["decoder/hg_intersect.cc:HG::Intersect", "decoder/hg_io.cc:HypergraphIO::WriteAsCFG"]}
{"id": "C23", "title": "SmallVector behaves like a vector", "statement": "Every sequence of push_back, pop_back, resize, clear, copy, assignment, element writes and erase on SmallVector observes exactly the contents of an ordinary sequence.", "quantifier": "all operation sequences", "why_tests_cant": "unbounded histories across the inline/heap boundary", "anchors": ["utils/small_vector.h:SmallVector"]}
{"id": "C24", "title": "Sparse vector behaves like a finite map", "statement": "Every sequence of set_value, add_value, +=, -=, *= on FastSparseVector followed by value/dot queries observes exactly a finite map with default zero, independently of the local/remote representation.", "quantifier": "all operation sequences", "why_tests_cant": "unbounded histories across the local/remote boundary", "anchors": ["utils/fast_sparse_vector.h:FastSparseVector"]}
{"id": "C25", "title": "Sparse vector erase removes only the given key", "statement": "erase(k) removes k and leaves all other keys unchanged, whether or not k was present.", "quantifier": "all vectors and keys", "why_tests_cant": "all states", "anchors": ["utils/fast_sparse_vector.h:FastSparseVector::erase"]}
{"id": "C26", "title": "Sparse vector equality is equality of maps", "statement": "operator== returns true exactly when both vectors have the same value at every key.", "quantifier": "all pairs of vectors", "why_tests_cant": "all pairs", "anchors": ["utils/fast_sparse_vector.h:FastSparseVector::operator=="]}
{"id": "C27", "title": "Dictionaries are bijections", "statement": "Over any history of Convert calls, distinct words receive distinct ids, the same word always receives the same id, Convert(Convert(w)) = w, ids are never reassigned, and a frozen dictionary returns 0 for unknown words without changing.", "quantifier": "all histories", "why_tests_cant": "unbounded histories", "anchors": ["utils/dict.h:Dict::Convert", "utils/tdict.cc", "utils/fdict.cc"]}
{"id": "C28", "title": "Feature name escaping is invertible", "statement": "Decoding an escaped feature name returns the original name.", "quantifier": "all strings", "why_tests_cant": "all strings", "anchors": ["utils/fdict.cc:UrlEncode", "utils/fdict.cc:UrlDecode"]}
{"id": "C29", "title": "Base64 transport is lossless", "statement": "b64decode(b64encode(x)) = x for every byte string.", "quantifier": "all byte strings", "why_tests_cant": "all lengths and contents", "anchors": ["utils/b64tools.cc:b64encode", "utils/b64tools.cc:b64decode", "utils/sparse_vector.cc:B64::Encode"]}
{"id": "C30", "title": "Alignment text round trip", "statement": "Serializing an alignment grid in Pharaoh format and reading it back yields the same set of links.", "quantifier": "all grids", "why_tests_cant": "all grids", "anchors": ["utils/alignment_io.cc:AlignmentIO::ReadPharaohAlignmentGrid", "utils/alignment_io.cc:AlignmentIO::SerializePharaohFormat"]}
{"id": "C31", "title": "Alignment symmetrization bounds", "statement": "For every pair of alignments the results of grow-diag, grow-diag-final and grow-diag-final-and contain the intersection and are contained in the union; and the growth loop terminates.", "quantifier": "all pairs of alignments", "why_tests_cant": "all grids", "anchors": ["utils/atools.cc"]}
{"id": "C32", "title": "Index compaction", "statement": "Removing marked elements keeps exactly the unmarked ones in order, and the index map sends each kept index to its new position.", "quantifier": "all vectors and masks", "why_tests_cant": "all masks", "anchors": ["utils/indices_after.h:indices_after"]}
{"id": "C33", "title": "Log-space arithmetic is exact real arithmetic", "statement": "With real-number arithmetic in place of floats, LogVal's +, -, *, / and comparisons denote the corresponding operations on signed real numbers.", "quantifier": "all pairs of values", "why_tests_cant": "all reals", "anchors": ["utils/logval.h:LogVal"]}
{"id": "C34", "title": "MERT hull is the upper envelope", "statement": "Sorting a ConvexHull yields lines whose pointwise maximum equals that of the input lines everywhere, with breakpoints strictly increasing and each segment's line maximal on its interval; += is pointwise max, *= pointwise sum.", "quantifier": "all finite sets of lines, all hulls built from edges and constants, no two points of a hull being the same object when it is sorted in place", "why_tests_cant": "all reals", "anchors": ["training/dpmert/mert_geometry.cc:ConvexHull::Sort", "training/dpmert/mert_geometry.cc:ConvexHull::operator*="]}
{"id": "C35", "title": "Line search finds the best interval", "statement": "LineOptimize returns a score and a position such that the score is the metric of the summed statistics of the segments active at that position, and no position has a better score.", "quantifier": "all error surfaces of which one starts at minus infinity and whose distinct breakpoints are more than epsilon apart, all metrics, both directions", "why_tests_cant": "all surfaces", "anchors": ["training/dpmert/line_optimizer.cc:LineOptimizer::LineOptimize"]}
{"id": "C36", "title": "BLEU n-gram statistics are clipped counts", "statement": "The match count of order n is the sum over distinct n-grams of min(count in hypothesis, max count in a reference), and the hypothesis count is max(0, length-n+1), independently of previously scored hypotheses.", "quantifier": "all references, hypotheses and histories of scored hypotheses", "why_tests_cant": "mutable count table carried across calls", "anchors": ["mteval/ns.cc:BleuSegmentEvaluator::ComputeNgramStats", "mteval/scorer.cc:BLEUScorerBase"]}
{"id": "C37", "title": "Edit distance is Levenshtein distance", "statement": "LevenshteinDistance(a,b) and TER's MinimumEditDistance equal the least number of insertions, deletions and substitutions, and TER's reported path has exactly that many errors.", "quantifier": "all pairs of sequences", "why_tests_cant": "all lengths", "anchors": ["mteval/levenshtein.h:LevenshteinDistance", "mteval/ter.cc:TERScorerImpl::MinimumEditDistance"]}
{"id": "C38", "title": "TER shifts permute words, terminate and never exceed the edit distance", "statement": "PerformShift returns a permutation of its input; the shift search terminates; the returned edit count is at most the plain edit distance.", "quantifier": "all hypotheses and references", "why_tests_cant": "all lengths", "anchors": ["mteval/ter.cc:TERScorerImpl::PerformShift", "mteval/ter.cc:TERScorerImpl::CalculateAllShifts"]}
{"id": "C39", "title": "Suffix-array lookup returns exactly the occurrences", "statement": "Looking up a phrase word by word returns the suffix range that contains exactly the positions where the phrase occurs.", "quantifier": "all corpora and nonempty phrases without the reserved word __NULL__", "why_tests_cant": "all corpora", "anchors": ["extractor/suffix_array.cc:SuffixArray::Lookup", "extractor/suffix_array.cc:SuffixArray::LookupRangeStart"]}
{"id": "C40", "title": "Suffix array is the sorted list of suffixes", "statement": "The constructor produces a permutation of all positions sorted by the lexicographic order of the suffixes.", "quantifier": "all corpora without the reserved word __NULL__, all random pivots", "why_tests_cant": "all corpora and pivot choices", "anchors": ["extractor/suffix_array.cc:SuffixArray::BuildSuffixArray"]}
{"id": "C41", "title": "LCP array is correct", "statement": "BuildLCPArray returns at each rank the length of the longest common prefix of that suffix and its predecessor.", "quantifier": "all corpora without the reserved word __NULL__", "why_tests_cant": "all corpora", "anchors": ["extractor/suffix_array.cc:SuffixArray::BuildLCPArray"]}
{"id": "C42", "title": "Discontiguous phrase matching is exact", "statement": "Intersect returns exactly the occurrences of a discontiguous phrase that stay in one sentence, respect the minimum gap and the maximum span, whether the prefix or the suffix is extended.", "quantifier": "all corpora, phrases and parameters", "why_tests_cant": "all corpora", "anchors": ["extractor/fast_intersector.cc:FastIntersector::Intersect"]}
{"id": "C43", "title": "Extracted phrase pairs are alignment-consistent", "statement": "When FindFixPoint succeeds, no alignment link leaves the returned pair of source and target spans, the spans contain the words asked for and a link, and with tight phrases the words at the edges that were extended are aligned.", "quantifier": "all alignments, spans and parameters", "why_tests_cant": "all alignments", "anchors": ["extractor/rule_extractor_helper.cc:RuleExtractorHelper::FindFixPoint"]}
{"id": "C44", "title": "Gap order is the target order of the gaps", "statement": "GetGapOrder returns the permutation that sorts the target gaps.", "quantifier": "all lists of disjoint gaps", "why_tests_cant": "the failing case needs three gaps", "anchors": ["extractor/rule_extractor_helper.cc:RuleExtractorHelper::GetGapOrder"]}
{"id": "C45", "title": "Precomputed collocations are true occurrences", "statement": "Every collocation stored for a pattern is an occurrence of that pattern.", "quantifier": "all corpora", "why_tests_cant": "the failing case needs two rightmost candidates", "anchors": ["extractor/precomputation.cc:Precomputation::UpdateIndex"]}
{"id": "C46", "title": "Occurrence sampling is sound", "statement": "The sampler returns at most max_samples distinct occurrences, all from the given range and none from a blacklisted sentence, and all of them when they fit.", "quantifier": "all ranges and blacklists", "why_tests_cant": "all ranges", "anchors": ["extractor/backoff_sampler.cc:BackoffSampler::Sample"]}
{"id": "C47", "title": "Lexical translation tables are normalised", "statement": "For every source word seen, the target-given-source scores over all target words (NULL included) sum to one, and likewise in the other direction.", "quantifier": "all aligned corpora", "why_tests_cant": "all corpora", "anchors": ["extractor/translation_table.cc:TranslationTable"]}
{"id": "C48", "title": "Bit packing round-trips without interference", "statement": "Writing values into zeroed disjoint bit fields (up to 57 bits) and reading them back returns each value, whatever else is written to the other fields.", "quantifier": "all offsets, widths, values and write orders", "why_tests_cant": "all memory contents", "anchors": ["klm/util/bit_packing.hh:ReadInt57", "klm/util/bit_packing.hh:WriteInt57"]}
{"id": "C49", "title": "Linear probing table implements a map", "statement": "Over any sequence of inserts, lookups and doublings within capacity, Find returns the last inserted entry of a key exactly when the key was inserted.", "quantifier": "all histories and hash functions", "why_tests_cant": "unbounded histories", "anchors": ["klm/util/probing_hash_table.hh:ProbingHashTable"]}
{"id": "C50", "title": "Auto-growing table accepts any number of inserts", "statement": "AutoProbing::Insert always terminates and stores the entry.", "quantifier": "all histories", "why_tests_cant": "needs more inserts than the initial bucket count", "anchors": ["klm/util/probing_hash_table.hh:AutoProbing::Insert"]}
{"id": "C51", "title": "Sorted search finds a key iff present", "statement": "BinaryFind and (Bounded)SortedUniformFind return true exactly when the key occurs in the sorted range and then point to it, for any pivot rule staying in range.", "quantifier": "all sorted arrays, keys, pivots", "why_tests_cant": "all arrays", "anchors": ["klm/util/sorted_uniform.hh"]}
{"id": "C52", "title": "Multi-way intersection is exact", "statement": "AllIntersection outputs exactly the values common to all sorted sets, in increasing order, once each.", "quantifier": "all collections of strictly sorted sets", "why_tests_cant": "all collections", "anchors": ["klm/util/multi_intersection.hh"]}
{"id": "C53", "title": "Producer/consumer queue is a bounded FIFO", "statement": "For every interleaving of any number of producers and consumers, the values consumed are, in order, exactly the values produced, nothing is lost, duplicated or overwritten before being read, and at most `size` items are outstanding.", "quantifier": "all schedules, thread counts and sizes", "why_tests_cant": "all schedules", "anchors": ["klm/util/pcqueue.hh:PCQueue"]}
{"id": "C54", "title": "Token iteration splits at delimiters", "statement": "Iterating TokenIter over a string yields exactly the fields between delimiters (all, or the non-empty ones when SkipEmpty is set).", "quantifier": "all strings", "why_tests_cant": "all strings", "anchors": ["klm/util/tokenize_piece.hh:TokenIter"]}
{"id": "C55", "title": "Alias sampler represents the distribution", "statement": "After Init(p), the mixture of the N two-point distributions given by cutoffs and aliases equals p.", "quantifier": "all probability vectors", "why_tests_cant": "all vectors", "anchors": ["utils/alias_sampler.h:AliasSampler"]}
{"id": "C56", "title": "Expectation semiring laws", "statement": "The pair semiring used for expectations satisfies the commutative semiring laws and its inside value carries sum p and sum p*r.", "quantifier": "all values", "why_tests_cant": "all values", "anchors": ["utils/exp_semiring.h:PRPair"]}
{"id": "C57", "title": "Feature-state layout", "statement": "The state regions assigned to feature functions are pairwise disjoint and inside the state buffer, and erasing ignored bytes touches only the ignored suffix of each region.", "quantifier": "all lists of feature functions", "why_tests_cant": "all lists", "anchors": ["decoder/ffset.cc:ModelSet"]}
{"id": "C58", "title": "Translation-table counts accumulate", "statement": "Each Increment(e,f) adds its amount to the count of (e,f) and changes no other count; Normalize makes every row with mass sum to one.", "quantifier": "all histories", "why_tests_cant": "depends on history", "anchors": ["word-aligner/ttables.h:TTable::Increment", "word-aligner/ttables.h:TTable::Normalize"]}
{"id": "C59", "title": "Diagonal alignment normalizer", "statement": "ComputeZ(i,m,n,alpha) equals the sum over j=1..n of UnnormalizedProb(i,j,m,n,alpha), and ComputeDLogZ is the expected feature value under it.", "quantifier": "all i,m,n,alpha", "why_tests_cant": "all reals", "anchors": ["word-aligner/da.h:DiagonalAlignment"]}
{"id": "C60", "title": "Cumulative L1 penalty only shrinks weights", "statement": "A penalty step never changes the sign of a weight nor increases its magnitude, and the total penalty applied to a feature stays within the accumulated budget.", "quantifier": "all histories", "why_tests_cant": "unbounded histories", "anchors": ["training/utils/online_optimizer.h:CumulativeL1OnlineOptimizer"]}
{"id": "C61", "title": "Word and character error statistics are those of the closest reference", "statement": "For a non-empty set of references, the statistics reported by WER and CER are the edit distance to the closest reference and that reference's length (the first closest one).", "quantifier": "all hypotheses and non-empty reference lists", "why_tests_cant": "all sentences; the failing inputs of CER are those at least as far from every reference as they are long", "anchors": ["mteval/ns_wer.cc:WERMetric::ComputeSufficientStatistics", "mteval/ns_cer.cc:CERMetric::ComputeSufficientStatistics"]}
{"id": "C62", "title": "A data array represents its text", "statement": "The word read at every index is the word of the text at that index (lines joined with an end-of-line word); words and word numbers are in bijection and exactly the words of the text and the two reserved words are known; each sentence starts where the previous ones end, has the length of its line, and each position is attributed to the line it belongs to.", "quantifier": "all texts and positions", "why_tests_cant": "all texts", "anchors": ["extractor/data_array.cc:DataArray::CreateDataArray", "extractor/data_array.cc:DataArray::GetWordAtIndex", "extractor/data_array.cc:DataArray::GetSentenceId"]}
{"id": "C63", "title": "Error surfaces are exact", "statement": "ComputeErrorSurface turns the hull of a sentence into a surface whose deltas, summed up to any position, are the sufficient statistics of the translation with the highest score at that position; searching the surfaces of all sentences therefore returns a position with the best corpus score.", "quantifier": "all sequences of segments with their translations, all evaluators, all positions", "why_tests_cant": "all hulls and positions", "anchors": ["training/dpmert/ces.cc:ComputeErrorSurface", "mteval/ns.h:SufficientStats", "training/dpmert/line_optimizer.cc:LineOptimizer::LineOptimize"]}
{"id": "C64", "title": "Serialised error surfaces are read back unchanged", "statement": "ErrorSurface::Deserialize of what ErrorSurface::Serialize wrote gives the same segments, with the same breakpoints and statistics.", "quantifier": "all surfaces, statistics of every encoded length the assertion admits", "why_tests_cant": "all surfaces and lengths", "anchors": ["training/dpmert/error_surface.cc:ErrorSurface::Serialize", "training/dpmert/error_surface.cc:ErrorSurface::Deserialize"]}
{"id": "C65", "title": "The MERT envelope of a forest lists its best derivations", "statement": "For every translation forest and every search direction, the envelope computed for a node has one segment per stretch of the search line; each segment comes from a derivation of the node, has that derivation's slope and intercept, its reconstructed translation is that derivation's translation and its collected edges are that derivation's edges; and at every position of the segment no derivation of the node scores higher.", "quantifier": "all acyclic topologically sorted forests, all feature weights and directions (values in an ordered field), all nodes, all positions on the line", "why_tests_cant": "a forest has exponentially many derivations and the line has infinitely many positions; a test compares a few sampled positions on small forests.", "anchors": ["training/dpmert/mert_geometry.cc: ConvexHullWeightFunction, ConvexHull::operator+=, ConvexHull::operator*=, MERTPoint::ConstructTranslation, MERTPoint::CollectEdgesUsed", "decoder/inside_outside.h: Inside", "training/dpmert/mr_dpmert_map.cc: main"]}
{"id": "C66", "title": "Feature vectors survive serialisation between processes", "statement": "A feature vector saved by one process and loaded by another, whose feature dictionary may assign other ids, has the same value for every feature name, and the loader keeps the ids it already had; with a frozen dictionary this holds for the names the loader knows. (Vectors that carry the reserved id 0 are excepted: it is dropped only when it comes first in the iteration.)", "quantifier": "all vectors over positive known ids, local or hashed, all dictionaries of the two processes, frozen or not", "why_tests_cant": "depends on the order of insertion, the representation and the contents of two dictionaries, which a unit test in one process never varies.", "anchors": ["utils/fast_sparse_vector.h: save, load", "utils/fdict.h: FD::Convert", "utils/dict.h: Dict::Convert"]}
{"id": "C67", "title": "Language model queries give the back-off probability", "statement": "After any sequence of words scored with FullScore from BeginSentenceState or NullContextState, the score of the next word is the back-off probability that the ARPA file defines for it after the whole history, although the state holds fewer words than the order; FullScoreForgotState and GetState, from an explicit history of any length, agree; and the scores of the words of a sentence add up to its log probability.", "quantifier": "all ARPA models without duplicate n-grams accepted by the loader, of every order from 2, all histories, all words", "why_tests_cant": "the state drops words whenever the tables show that they cannot matter; an error shows only for particular combinations of listed and missing n-grams.", "anchors": ["klm/lm/model.cc: FullScore, FullScoreForgotState, GetState, ScoreExceptBackoff, ResumeScore", "klm/lm/search_hashed.hh", "klm/lm/state.hh"]}
{"id": "C68", "title": "The language model feature of a derivation is the language model score of its string", "statement": "For every derivation the sum of the values the KLanguageModel feature gives to its rules, plus its final value, is the log probability of the derived string with sentence markers, whatever rules the string is made of and in whatever order they combine; so two derivations of a string get the same score. With explicit sentence markers in the rules the same holds, provided n-grams ending in </s> have no back-off.", "quantifier": "all derivations (trees of rules with any number of words and non-terminals, in any order), all ARPA models without duplicate n-grams", "why_tests_cant": "each rule sees only the bounded left and right states of its antecedents; the property is about all trees, all splits of a string and all patterns of missing n-grams.", "anchors": ["decoder/ff_klm.cc: KLanguageModelImpl::LookupWords, FinalTraversalCost", "klm/lm/left.hh: RuleScore", "klm/lm/model.cc: ExtendLeft, UnRest"]}
{"id": "C69", "title": "Loading an ARPA file keeps every n-gram and completes the table", "statement": "A file in which the context of every n-gram of order three or more is listed, without back-offs at the highest order, is loaded; in a loaded model every listed n-gram is found with its listed probability and back-off, anything else that is found stands for the probability that backing off gives, and the marks that end a search early are never wrong: an n-gram marked as not extending to the left has no extension in the table, and one marked as no context has no back-off and is the context of nothing.", "quantifier": "all ARPA files without duplicate n-grams, all orders from 2", "why_tests_cant": "missing suffixes are filled in while the file is read, in file order, and change entries read earlier; the effect depends on which n-grams are present at all orders.", "anchors": ["klm/lm/search_hashed.cc: AdjustLower, ReadNGrams, ActivateLowerMiddle, ActivateUnigram", "klm/lm/read_arpa.hh: ReadNGram", "klm/lm/value_build.hh: NoRestBuild"]}
{"id": "C70", "title": "Sampling from a forest draws derivations in proportion to their weights", "statement": "For every sequence of random numbers, sampling a hypothesis from a forest ends and visits exactly the edges of one derivation of the goal; with independent uniform draws the probability of each derivation is its weight divided by the total weight of all derivations; the reported model score and features are those of the sampled derivation, and so is the reported string when the derivation uses no node with two different edges.", "quantifier": "all non-empty topologically ordered hypergraphs in which every node has an incoming edge, all positive edge weights, all sequences of draws", "why_tests_cant": "a test can only compare frequencies on particular forests; the distribution is a statement about every forest and every sequence of draws.", "anchors": ["decoder/hg_sampler.cc: HypergraphSampler::sample_hypotheses", "utils/sampler.h: RandomNumberGenerator::SelectSample"]}
{"id": "C71", "title": "The phrase-based translator's forest holds exactly the translations", "statement": "For a text input the phrase-based translator ends; it succeeds exactly if the input can be covered by phrases of the table, each starting within the distortion limit of the first untranslated position, and the derivations in the resulting forest are then exactly these translations, each once. A loaded table lists exactly the given phrase pairs; pass-through rules add a translation for exactly those input words that have none, and with them every input of at least one word is translated.", "quantifier": "all sentences, phrase tables without an empty source phrase and distortion limits", "why_tests_cant": "partial translations with the same coverage share a node, whichever order the queue produces them in; a translation lost or doubled by the sharing shows only for particular combinations of overlapping phrases.", "anchors": ["decoder/phrasebased_translator.cc: PhraseBasedTranslatorImpl::Translate, EnqueuePossibleContinuations, Coverage", "decoder/phrasetable_fst.cc: AddPhrase, LoadTextPhrasetable, AddPassThroughTranslation"]}
{"id": "C72", "title": "When the phrase table survives a sentence with pass-through rules", "statement": "Translating a sentence with pass-through rules leaves the phrase table as it was exactly if every input word either has a translation of its own or begins no phrase of the table; in particular translations of later sentences are then not affected by earlier ones.", "quantifier": "all phrase tables, inputs and options", "why_tests_cant": "the damage appears only in a later sentence, and only when a word that begins a longer phrase but has no translation of its own has been seen before.", "anchors": ["decoder/phrasetable_fst.cc: AddPassThroughTranslation, ClearPassThroughTranslations", "decoder/phrasebased_translator.cc: PhraseBasedTranslatorImpl::Translate"]}
{"id": "C73", "title": "Target phrases are exactly the choices of edges", "statement": "For a target span with up to two gaps, the phrases generated are exactly one for each way of extending the outer edges and the inner edges of the gaps over unaligned words within the limits (with tight phrases: the one without extension). Each phrase is the words and nonterminals of its chunks in order, and its alignment is the links of its words to the words of the source phrase. With more gaps every phrase generated is still of this form.", "quantifier": "all sentence pairs, alignments, gaps and limits", "why_tests_cant": "the number of choices grows with the number of unaligned words and their positions relative to the gaps; the recursion interleaves the choices of all gaps.", "anchors": ["extractor/target_phrase_extractor.cc:TargetPhraseExtractor::ExtractPhrases", "extractor/target_phrase_extractor.cc:GeneratePhrases", "extractor/target_phrase_extractor.cc:AddSubphrase"]}
{"id": "C74", "title": "Rules extracted from an occurrence are valid hierarchical rules", "statement": "Every rule extracted from an occurrence of a source phrase is made of a source span and a target span with gaps numbered alike such that no link leaves a pair, each pair has a link, both sides are the words of the spans with nonterminals for gaps, the alignment is exactly the links between these words, and all limits hold. With at most two nonterminals every valid rule for the occurrence itself is extracted, and every rule with a nonterminal at an end that reaches to the nearest place allowed. What the code reads outside its arrays does not change the result.", "quantifier": "all sentence pairs, alignments, limits, phrases and their occurrences", "why_tests_cant": "validity depends on all links and on the interplay of gaps, extension to a fix point and the limits.", "anchors": ["extractor/rule_extractor.cc:RuleExtractor::ExtractAlignments", "extractor/rule_extractor.cc:AddExtracts", "extractor/rule_extractor.cc:AddNonterminalExtremities", "extractor/rule_extractor_helper.cc"]}
{"id": "C75", "title": "Counts of extracted rules", "statement": "Each pair of sides extracted gives exactly one rule, with the number of times it was extracted and the alignment it was extracted with most often (the first in order among several). The source count is the number of occurrences from which a rule with its source side was extracted. With tight phrases the pair count is at most the source count, and that at most the number of occurrences, so that the estimated probabilities are at most one.", "quantifier": "all lists of occurrences in all sentence pairs", "why_tests_cant": "the counts are sums of fractions over all rules of all occurrences.", "anchors": ["extractor/rule_extractor.cc:RuleExtractor::ExtractRules", "extractor/features/target_given_source_coherent.cc"]}
{"id": "C76", "title": "The tagger's forest is the set of taggings", "statement": "For an input of at least one word the forest built by the tagger has exactly one derivation for every way to give each word a tag of the tag set, and no others.", "quantifier": "all tag sets without repetitions, all non-empty inputs", "why_tests_cant": "the number of taggings is exponential in the length and the claim is about every tag set and input.", "anchors": ["decoder/tagger.cc:TaggerImpl::BuildTrellis"]}
{"id": "C77", "title": "The lexical translator's forest is the set of word-by-word translations", "statement": "The lexical translator gives up exactly if some source word (or the null word, when that is used) has no rules. Otherwise its forest has exactly one derivation for every choice, for each word of the reference, of a source position and a rule for the word there (which must produce a word of the reference if only alignments are wanted), and no others.", "quantifier": "all grammars, source sentences, references and settings of the options", "why_tests_cant": "exponentially many derivations, for arbitrary rules and sentences.", "anchors": ["decoder/lextrans.cc:LexicalTransImpl::BuildTrellis"]}
{"id": "C78", "title": "The search with swaps is the set of reorderings by disjoint swaps of neighbours", "statement": "With dynamic search the lexical translator gives up exactly if some source word has no rules; otherwise the derivations in its forest are exactly those of the words of the reference in an order in which no word is moved by more than one place, each word produced by a rule for some source word.", "quantifier": "all grammars, source sentences and non-empty references", "why_tests_cant": "the number of such orders grows exponentially; the claim covers references of every length, with repeated words.", "anchors": ["decoder/lextrans.cc:LexicalTransImpl::BuildDynaSearchTrellis", "decoder/lextrans.cc:LexicalTransImpl::CreateEdgeHelper"]}
{"id": "C79", "title": "The compound splitter's forest is the set of splits of a word", "statement": "The forest has exactly one derivation for every way to cut the word into parts of at least three characters (or to leave it whole), each part but the last written as it is or without its linking element (es, s, or the n of en), and no others. The edge reported as the full word is the edge of the uncut word. The characters a word is taken apart into make up the word.", "quantifier": "all words of at least one character", "why_tests_cant": "exponentially many splits for words of every length and spelling.", "anchors": ["decoder/csplit.cc:CompoundSplitImpl::BuildTrellis", "decoder/csplit.cc:CompoundSplit::GetFullWordEdgeIndex", "decoder/csplit.cc:SplitUTF8String"]}
{"id": "C80", "title": "The grammar of a sentence comes from every pattern of the sentence that occurs in the corpus, once, with all its occurrences", "statement": "For a sentence, the grammar extractor considers exactly the source patterns (one or more stretches of the sentence separated by numbered nonterminals that stand for at least min_gap_size words, within the limits on nonterminals, symbols and span) that occur in a line of the corpus, each exactly once, with the list of all its occurrences in the corpus, each once. It terminates, and reads neither outside the sentence nor through a null pointer. Hence every rule of the grammar has such a source side and every rule extractable from such a pattern is in the grammar. The trie of patterns and its suffix links only save work.", "quantifier": "all corpora, all sentences, all limits, all contents of the precomputed index that are right", "why_tests_cant": "the patterns of a sentence are exponentially many, and which of them are pruned through suffix links depends on the order of the breadth-first search and on everything looked up before.", "anchors": ["extractor/rule_factory.cc:HieroCachingRuleFactory::GetGrammar", "extractor/rule_factory.cc:HieroCachingRuleFactory::CannotHaveMatchings", "extractor/rule_factory.cc:HieroCachingRuleFactory::AddTrailingNonterminal", "extractor/rule_factory.cc:HieroCachingRuleFactory::ExtendState", "extractor/matchings_trie.h:TrieNode", "extractor/matchings_finder.cc:MatchingsFinder::Find"]}
{"id": "C81", "title": "Minimum-risk training is given the expected risk of the k-best lists, less the entropy bonus, and its gradient", "statement": "The objective that minrisk optimisation evaluates at a weight vector is the sum over the k-best lists of the expected cost (error, or one minus the gain) of a candidate under the log-linear distribution of the weights, minus the temperature times the entropy of that distribution, and the gradient it reports is the gradient of that function at that point.", "quantifier": "all collections of non-empty k-best lists, all features and scores, all weight vectors, all temperatures", "why_tests_cant": "a gradient is a statement about every direction and about a limit; numeric differentiation checks a few directions up to a tolerance.", "anchors": ["training/utils/risk.cc:CandidateSetRisk::operator()", "training/utils/entropy.cc:CandidateSetEntropy::operator()", "training/minrisk/minrisk_optimize.cc:RiskObjective::operator()"]}
{"id": "C82", "title": "Pairwise ranking optimisation is given the regularised log loss of its training pairs and its gradient", "statement": "The value that the PRO reducer evaluates at a weight vector is the logistic loss of the training pairs plus C times the squared length of the weights plus T times the squared distance to the previous weights, and the gradient is the gradient of that function; the pairs that are held out for testing have no influence on it.", "quantifier": "all training and held-out sets, all weight vectors, all regularisation constants and previous weights", "why_tests_cant": "a gradient is a statement about every direction and about a limit, and the held-out set must not matter whatever it is.", "anchors": ["training/pro/mr_pro_reduce.cc:TrainingInference", "training/pro/mr_pro_reduce.cc:ApplyRegularizationTerms", "training/pro/mr_pro_reduce.cc:ProLoss"]}
{"id": "C83", "title": "Conditional-likelihood training is given the negative log-likelihood of the references and its gradient", "statement": "The objective of CRF training at a weight vector is minus the sum, over the sentences whose reference can be reached, of the log of the mass of the derivations of the reference over the mass of all derivations; the gradient is its gradient. With a Gaussian prior, the squared distance to the means over twice the variance is added, with its gradient. Training only stops if a reference forest outweighs the translation forest.", "quantifier": "all corpora of pairs of forests, all features, all weight vectors, all variances and means", "why_tests_cant": "the number of derivations of a forest is exponential, and a gradient is a statement about every direction and about a limit.", "anchors": ["training/crf/mpi_batch_optimize.cc:TrainingObserver::NotifyTranslationForest", "training/crf/mpi_batch_optimize.cc:TrainingObserver::NotifyAlignmentForest", "training/crf/mpi_batch_optimize.cc:main", "training/crf/cllh_observer.cc:ConditionalLikelihoodObserver", "decoder/inside_outside.h:InsideOutside"]}
{"id": "C84", "title": "Training the word aligner never makes the corpus less likely, and prints the most probable links", "statement": "Each iteration of fast_align reports the log-likelihood of the corpus under its current model; with a fixed tension the likelihood never goes down from one iteration to the next. The translation table after an iteration is the table of expected counts under the table before, normalised per source word. The alignment printed for a sentence pair links each target word to the source word (or to none, if it is the null word) that explains it with the highest probability, the first one in case of a tie; aligning a test set with the same table gives the same links.", "quantifier": "all corpora of non-empty sentence pairs of up to 10^9 target words, any number of iterations, with or without null word and diagonal prior, all tensions and null probabilities", "why_tests_cant": "monotonicity of EM is an inequality over all corpora and all tables reached after any number of iterations; a corpus that violates it need not be among those tried.", "anchors": ["word-aligner/fast_align.cc:main", "word-aligner/ttables.h:TTable::Increment", "word-aligner/ttables.h:TTable::Normalize", "word-aligner/da.h:DiagonalAlignment"]}
{"id": "C85", "title": "lmplz counts every n-gram of the corpus exactly once, whatever the memory", "statement": "After the counting step of the language model estimator the sorted stream has every n-gram of the padded lines (order-1 sentence starts before, one sentence end after the words, special words skipped) exactly once, in suffix order, with the number of its occurrences; the stream does not depend on the block size, the sort memory, the grouping of merges or the order in which equal records leave a queue. Sorting without combining yields a sorted permutation of the records.", "quantifier": "all corpora, orders, block sizes, block groupings, merge schedules and tie breaks", "why_tests_cant": "Blocks, merge groups and ties depend on memory settings and data sizes; a test fixes a few of the unboundedly many schedules.", "anchors": ["klm/lm/builder/corpus_count.cc: CorpusCount::Run, Writer", "klm/util/stream/sort.hh: Sort, MergingReader, MergeQueue, BlockSorter", "klm/lm/builder/sort.hh: SuffixOrder, ContextOrder, AddCombiner", "klm/lm/builder/pipeline.cc: CountText"]}
{"id": "C86", "title": "Adjusted counts count the different words before an n-gram", "statement": "For every order below the highest the estimator passes on every n-gram that ends somewhere in the corpus and has the sentence start at most as its first word, once, in suffix order; its adjusted count is the number of different words that come before it, or, if it begins with the sentence start, the number of its occurrences. The unigrams also have <unk> and <s> with count 0. The highest order keeps the n-grams with <s> at most in first place, with their numbers of occurrences; what is left of each block are exactly these.", "quantifier": "all non-empty corpora, orders of at least 2, block sizes and pruning thresholds", "why_tests_cant": "The counts are made in one pass that compares neighbouring n-grams only; that it counts right depends on the sort order and the padding for all corpora.", "anchors": ["klm/lm/builder/adjust_counts.cc: AdjustCounts::Run, FindDifference, CollapseStream"]}
{"id": "C87", "title": "Pruning drops the n-grams that do not occur more often than the threshold", "statement": "With a pruning threshold for an order above one, exactly the n-grams of this order are dropped whose number of occurrences does not exceed the threshold; without thresholds none is dropped.", "quantifier": "all non-empty corpora, orders of at least 2, thresholds and n-grams", "why_tests_cant": "Whether the n-gram that happens to be last in suffix order is treated like the others shows only for particular corpora.", "anchors": ["klm/lm/builder/adjust_counts.cc: AdjustCounts::Run, CollapseStream", "klm/lm/builder/ngram.hh: Mark, UnmarkedCount, CutoffCount"]}
{"id": "C88", "title": "An estimated language model is a probability distribution after every context", "statement": "After lmplz, queried with back-off, for every context of fewer words than the order, seen or not, the probabilities of the words of the corpus, </s> and <unk> sum to one; each is between 0 and 1; the model has exactly the n-grams of the corpus; the probability of an n-gram is its discounted adjusted count over the counts of its context plus back-off times the lower-order probability; and the estimation always has a result if there are discounts.", "quantifier": "all non-empty corpora, orders of at least 2, block sizes, orders of sorting and merging, fallback discounts, contexts", "why_tests_cant": "The back-offs and the n-grams are joined by the positions in streams sorted differently; whether they stay in step depends on the whole corpus.", "anchors": ["klm/lm/builder/initial_probabilities.cc: InitialProbabilities, AddRight, MergeRight", "klm/lm/builder/interpolate.cc: Interpolate, Callback", "klm/lm/builder/joint_order.hh: JointOrder", "klm/lm/builder/adjust_counts.cc: StatCollector::CalculateDiscounts", "klm/lm/builder/discount.hh: Discount", "klm/lm/builder/pipeline.cc: Pipeline", "klm/lm/builder/lmplz_main.cc: ParseDiscountFallback"]}
{"id": "C89", "title": "With glue and pass-through rules every sentence has a translation", "statement": "For every set of grammars, if the glue grammar and pass-through rules are on, every lattice with a path of one or more words from its start to its end has a forest, and the words of the path, unchanged, are one of its translations. With no other grammar, on a lattice without *EPS* arcs, the translations are exactly the word sequences of the paths, and there is a forest exactly if there is a path. The empty sentence never has a translation.", "quantifier": "all lattices with forward arcs, grammars, limits on spans, categories", "why_tests_cant": "It depends on span limits computed from distances in the lattice, on the order of the unary rules and on all the grammars given; no finite set of lattices and grammars shows it.", "anchors": ["decoder/scfg_translator.cc: GlueGrammar, PassThroughGrammar, HasRuleForSpan, SCFGTranslatorImpl::Translate", "decoder/bottom_up_parser.cc: PassiveChart::Parse, TopoSortUnaries", "decoder/lattice.cc: ComputeDistances"]}
{"id": "C90", "title": "Grammars given for a sentence affect that sentence only", "statement": "Over every history of supplied grammar objects, supplied grammar texts and sentences with grammars in their markup, one decoder object never stops with an error; each sentence is translated with the grammars of the configuration, those supplied since the sentence before it and those in its markup, and no others; after each sentence the grammars are those of the configuration.", "quantifier": "all histories of operations, all configurations", "why_tests_cant": "Histories are unbounded; whether an old grammar leaks depends on all that happened before.", "anchors": ["decoder/scfg_translator.cc: AddSupplementalGrammar, AddSupplementalGrammarFromString, RemoveSupplementalGrammars, ProcessMarkupHintsImpl, SentenceCompleteImpl", "decoder/translator.cc: ProcessMarkupHints, Translate, SentenceComplete"]}
{"id": "C91", "title": "Refining a coarse forest gives exactly the fine derivations", "statement": "In coarse-to-fine parsing, refining a forest succeeds exactly if some coarse derivation has a refinement: every rule replaced by one of its fine rules so that the categories agree. The derivations of the refined forest are exactly these refinements, with the spans and lattice costs of the coarse ones, and the refined forest is consistent and in topological order. A rule without fine rules stops the decoder.", "quantifier": "all topologically ordered forests, all rules and fine rules", "why_tests_cant": "It is a statement about all derivations of all forests; a missed or an extra derivation shows up only for particular splits.", "anchors": ["decoder/scfg_translator.cc: RefineForest, RefineRule"]}
{"id": "C92", "title": "The sentence server writes one answer per input line, in input order, whatever the clients do", "statement": "`sentserver` hands the lines of its input out to decoder clients that connect, die and return answers in any order. Line k of its output is always an answer that some client gave to line k of the input (a synchronisation line is copied), lines given to a client that dies are handed out again, no answer is lost, repeated or moved, the server does not deadlock, every run ends, exit code 0 means the whole input was answered, and exit code 1 is used only when no client is left.", "quantifier": "all inputs, all numbers of clients, all interleavings of their threads, all points at which clients die, all answers", "why_tests_cant": "The order of answers depends on the schedule of the threads and on when clients die; a run exercises one schedule.", "anchors": ["training/utils/sentserver.cc: queue_get, queue_finish, queue_abort, queue_panic, queue_print, read_line, write_line, new_client, done_client"]}
{"id": "C93", "title": "Tree-to-string translation builds exactly the derivations of the input tree", "statement": "For every grammar and every input tree, `--formalism t2s` ends; it reports success exactly if the tree can be covered by rules whose source sides match at the places where they are used, the forest contains exactly the derivations that do so, each once, with the spans of the subtrees, and it is well formed. With `--add_pass_through_rules` every tree has a translation, and its own words are among the translations.", "quantifier": "all grammar files, all input trees, all ways of writing them", "why_tests_cant": "The translator shares partial matches of rules in a queue of states and merges equal states; a wrong merge or a missed continuation shows only for particular combinations of rules and trees.", "anchors": ["decoder/tree2string_translator.cc: Tree2StringTranslatorImpl::Translate, ReadTree2StringGrammar, CreatePassThroughRules, DoesAbstractPassThroughRuleExist, AddDummyGoalNode, ParserState", "decoder/tree_fragment.h: TreeFragment::iterator, begin, truncate"]}
{"id": "C94", "title": "Trees are read as written, and only trees are read", "statement": "Every tree in bracket notation is read as exactly that tree, whatever spaces are between its parts: nodes in post-order, children in order, spans from the leaves; a text stands for one tree only and iterating gives its symbols depth first. Text after the tree, sites in an input tree and missing brackets are refused with a message.", "quantifier": "all trees, all ways of writing them, all texts after them", "why_tests_cant": "Trees of all shapes, depths and spacings have to be covered.", "anchors": ["decoder/tree_fragment.cc: TreeFragment::TreeFragment, ParseRec, SetupSpansRec", "decoder/tree_fragment.h: TreeFragment::iterator"]}
{"id": "C95", "title": "Filtering a language model keeps exactly the n-grams of the vocabulary and leaves scores alone", "statement": "For every vocabulary and every ARPA file or file of counts, the filter writes the lines whose words (without the last one in context mode) are tags or words of the vocabulary, unchanged, in order and under a header with their numbers; `union` keeps a line if some sentence of the vocabulary does, `multiple` writes for each sentence the file that `single` would write for it. A model filtered this way gives every sentence over the vocabulary the score of the full model.", "quantifier": "all vocabularies, all ARPA files and files of counts, the modes single, union and multiple with and without context, all sentences over the vocabulary", "why_tests_cant": "That no back-off path leaves the filtered model is a statement about all sentences and all models; intersections of posting lists are skipped through in orders that depend on the sizes of the lists.", "anchors": ["klm/lm/filter/vocab.hh: Single::PassNGram, Union::PassNGram, Multiple::AddNGram, IsTag", "klm/lm/filter/vocab.cc: ReadSingle, ReadMultiple", "klm/lm/filter/wrapper.hh: BinaryFilter, ContextFilter", "klm/lm/filter/arpa_io.hh: ReadNGrams, ReadARPA, ARPAOutput", "klm/lm/filter/count_io.hh: ReadCount", "klm/lm/filter/filter_main.cc: DispatchFilterModes"]}
{"id": "C96", "title": "The language model filter with several threads writes what it writes with one", "statement": "For every number of threads, batch size and schedule, filtering an ARPA file with several threads ends, never uses a batch from two threads at once, never writes lines out of order or between the wrong sections, and leaves the files that filtering with one thread leaves.", "quantifier": "all inputs, filters, batch sizes, queue sizes, numbers of threads and interleavings of the reading thread, the filter workers and the output worker", "why_tests_cant": "The order in which workers finish and the places where threads wait differ from run to run; a deadlock or a reordering needs a particular schedule, and a lost batch a particular number of lines.", "anchors": ["klm/lm/filter/thread.hh: ThreadBatch, FilterWorker, OutputWorker, Controller", "klm/util/thread_pool.hh: Worker, ThreadPool", "klm/lm/filter/format.hh: DispatchARPAInput, ARPAFormat, CountFormat, InputBuffer, BinaryOutputBuffer, MultipleOutputBuffer"]}
{"id": "C97", "title": "The phrase filter keeps exactly the n-grams that strings of phrases can produce", "statement": "For every list of phrases for each sentence and every ARPA file or file of counts, the phrase filter keeps a line for a sentence if its n-gram, without a tag in front and without `</s>` and what follows, stands in some string made of the sentence's phrases in any order and number; if hashes do not collide it keeps no other line. The search for the sentences always ends, in increasing order and without reading past its arrays. A model filtered this way gives every sentence that is a string of the phrases the score of the full model.", "quantifier": "all texts of phrases, all ARPA files and files of counts, modes union and multiple with and without context, all hash functions, all priority queues, all strings of phrases", "why_tests_cant": "Strings of phrases are infinitely many; the search skips through shared posting lists in an order that depends on all of them, and an error would show only where lists are skipped at once from several arcs.", "anchors": ["klm/lm/filter/phrase.hh: Substrings::AddPhrase, MakeHashes, Union::PassNGram, Multiple::AddNGram", "klm/lm/filter/phrase.cc: ReadMultiple, Arc::LowerBound, Vertex::LowerBound, BuildGraph, ConditionCommon::MakeGraph, Union::Evaluate, Multiple::Evaluate"]}
{"id": "C98", "title": "The n-gram features of a derivation count the n-grams of its string", "statement": "For every order from 1 to 5, cluster map and naming scheme, and every derivation, the values of NgramFeatures summed over the rules of the derivation and the final transition are the numbers of positions of the sentence `<s> w1 ... wm </s>`, after `<s>`, at which an n-gram of at most that order with this feature name ends. They do not depend on how the rules split the string, nor on what was scored before.", "quantifier": "all derivations (any rules, any nesting and order of antecedents, empty target sides included), all words, all orders, names, prefixes, separators and cluster maps, all histories of the feature id cache, implicit and explicit sentence markers", "why_tests_cant": "Each rule sees only the boundary words its antecedents left; an n-gram across a boundary may be lost or counted twice for some split among infinitely many.", "anchors": ["decoder/ff_ngrams.cc: NgramDetectorImpl::LookupWords, FireFeatures, FinalTraversal, BeginSentenceState", "decoder/ff_ngrams.h: NgramDetector"]}
{"id": "C99", "title": "A chain of workers gives the result of running the workers one after the other", "statement": "In a chain of klm/util/stream with a source, any number of workers and a recycling last worker, connected by queues of as many places as there are blocks, every worker gets exactly the blocks that the one before it passed on, in that order and with those contents; when Wait has returned every worker has done all its work, as if the workers had run one after the other. No two workers ever have the same block. The source only gets blocks that have been made whole again. The chain never blocks, never aborts and always ends. Records written to a Stream come out of the chain in order and none is lost.", "quantifier": "all numbers of workers (at least two) and blocks (at least one), all lists of blocks or records, all functions of the workers, all schedules of the threads", "why_tests_cant": "The threads may interleave in exponentially many ways; a deadlock or a block in two hands depends on the schedule.", "anchors": ["klm/util/stream/chain.cc: Chain::Start, Add, Wait, Complete, Link::Init, operator++, Poison, ~Link, Recycler::Run", "klm/util/stream/stream.hh: Stream", "klm/util/stream/io.cc: Read, PRead, Write, WriteAndRecycle"]}
{"id": "C100", "title": "The decoder prints the best translation", "statement": "Decode, from a parsed lattice to the printed line, with synchronous grammars, glue and pass-through rules and any number of rescoring passes that intersect exhaustively: the program ends without failing an assertion; it prints an empty line exactly if the input has no derivation; otherwise it prints the translation of a derivation whose score no other derivation exceeds, where a derivation is scored by running the feature functions of all passes bottom up along it, adding up its features and weighting them with the weights of the last pass. An input with a path without *EPS* arcs always gets a translation; without grammars a sentence is printed as it is.", "quantifier": "all grammars, lattices, weights, feature functions with state, and lists of passes", "why_tests_cant": "A dynamic program over shared states must agree with the exponentially many derivations for every grammar and every feature function; a test compares a few sentences.", "anchors": ["decoder/decoder.cc: DecoderImpl::Decode", "decoder/scfg_translator.cc: Translate", "decoder/bottom_up_parser.cc", "decoder/apply_models.cc: ApplyModelSet, NoPruningRescorer", "decoder/ffset.cc: AddFeaturesToEdge, AddFinalFeatures", "decoder/viterbi.h: Viterbi, ESentenceTraversal", "decoder/trule.h: ESubstitute", "decoder/hg.h: Reweight"]}
{"id": "C101", "title": "The string kernel score measures common subsequences", "statement": "The subsequence kernel of two strings is the sum, over all choices of 1 to N places in each string that show the same symbols, of lambda to the power of the total length of the two spans. The normalised kernel is between 0 and 1, symmetric, 1 for a non-empty string and itself, and 0 exactly if the strings have no symbol in common. The statistics of a sentence hold the similarity to the closest reference; the score of a corpus is the mean of the scores of its sentences and is between 0 and 1.", "quantifier": "all strings over any alphabet, all N >= 1, all lambda > 0 (in any commutative semiring for the kernel itself), all lists of references and corpora", "why_tests_cant": "The kernel sums over exponentially many pairs of subsequences; a test compares it with a few values computed by the same program.", "anchors": ["utils/kernel_string_subseq.h: ssk", "mteval/ns_ssk.cc: SSKMetric"]}
{"id": "C102", "title": "A language model stored as a trie gives the probabilities of its ARPA file", "statement": "A language model built as a trie from the sorted n-grams of an ARPA file scores every word after every history with exactly the log probability of the back-off recursion over the file, whether the words are scored one after the other from the beginning of a sentence or from nothing, with an explicit history, or from a state made of an explicit history; the scores of a sentence add up to the probability of the sentence, states fit their arrays, and the answers are those of the hash-table format. Building succeeds exactly if the context of every n-gram of three words or more is listed.", "quantifier": "all ARPA files of order at least 2 that list no n-gram twice, all vocabularies whose words include those of the file, all histories, all words, all correct sorting routines, all tables small enough for 64-bit products", "why_tests_cant": "The missing suffixes of n-grams are inserted with probabilities collected in two passes over sorted files, and every lookup interpolates in bit-packed ranges; a test sees a few histories of one file.", "anchors": ["klm/lm/search_trie.cc: BuildTrie, RecursiveInsert, BlankManager, SRISucks, BackoffMessages, FindBlanks, WriteEntries, PopulateUnigramWeights", "klm/lm/search_trie.hh: TrieSearch", "klm/lm/trie.{hh,cc}: Unigram, BitPackedMiddle, BitPackedLongest", "klm/lm/model.cc: FullScore, FullScoreForgotState, GetState"]}
{"id": "C103", "title": "The size of the sort buffer does not change the trie", "statement": "Sorting the n-grams of an ARPA file in batches and merging the files gives, for every buffer that holds at least one record, each n-gram once in increasing order and each context once in increasing order; the files, and so the trie, do not depend on the size of the buffer or on the sorting routine. A file that lists an n-gram twice is rejected.", "quantifier": "all ARPA files of order at least 2, all buffer sizes of at least one record of each order, all correct sorting routines", "why_tests_cant": "The batches and the order of the merges depend on the buffer and the size of the file; a test uses one buffer that holds everything.", "anchors": ["klm/lm/trie_sort.cc: SortedFiles, ConvertToSorted, WriteContextFile, MergeSortedFiles, ThrowCombine, FirstCombine", "klm/lm/trie_sort.hh: EntryCompare, RecordReader"]}
{"id": "C104", "title": "The recursive bottom-up parser finds exactly the parses that exist without span limits", "statement": "RSExhaustiveBottomUpParser::Parse ends on every lattice without changing a list it is iterating over; it says yes exactly if the lattice has a parse as the goal category when the grammars are taken without their limits on spans, and then the derivations of the goal of the forest are exactly these parses below the goal rule, each once if no rule is listed twice. It finds everything that ExhaustiveBottomUpParser finds, and the two agree on every input whose spans are all accepted by the grammars.", "quantifier": "all lattices with forward arcs (including empty labels), all finite lists of grammars, all unary rules", "why_tests_cant": "The parser recurses through extensions of items and through chains of unary rules while it adds nodes to the charts it loops over; completeness is a statement about all parses of all inputs.", "anchors": ["decoder/bottom_up_parser-rs.cc: RSChart::Parse, AddToChart, ConsumeTerminal, ConsumeNonTerminal, ApplyRules, ApplyUnaryRules, ApplyRule, TopoSortUnaries", "decoder/bottom_up_parser-rs.h: RSExhaustiveBottomUpParser"]}
{"id": "C105", "title": "Intersecting a forest with a reference keeps exactly the derivations of the reference", "statement": "HG::Intersect of a forest with a reference sentence ends; it returns true exactly if the forest has a derivation whose target string is the sentence; and then the derivations of the resulting forest correspond one to one to the derivations of the original forest with that target string: each is the old derivation with the parts in target order, every rule exchanged (its source side being the old target side), naming the old rule as its parent and the old span as its previous span, with its place in the sentence as its span; and every derivation keeps the sum of its features.", "quantifier": "all acyclic forests with non-empty target sides, all sentences, all dictionaries without collisions", "why_tests_cant": "The forest is filtered by a phrase table of the reference, pruned, rewritten as a grammar with permuted variables, and the reference is parsed with it; that nothing is lost, invented or doubled is a statement about all derivations of all forests.", "anchors": ["decoder/hg_intersect.cc: HG::Intersect, RuleFilter", "decoder/bottom_up_parser.cc: ExhaustiveBottomUpParser::Parse", "decoder/hg.cc: PruneEdges"]}
{"id": "C106", "title": "Intersecting a linear chain with a reference keeps exactly the derivations of the reference", "statement": "HG::Intersect of a forest that is marked as a linear chain with a reference sentence ends; it returns true exactly if every position of the sentence has an edge that writes its word; the derivations of the resulting forest correspond one to one to those derivations of the original forest all of whose words are those of the sentence; the edges keep their features, and each edge that writes a word has its two spans and the two sides of its rule exchanged. For the lexical translator this means that the result holds exactly the choices of a source position and a rule for each reference word, for the tagger exactly the reference tagging, and true is returned exactly if there is one.", "quantifier": "all acyclic forests whose word edges have a position in the reference, all sentences, all ways of sharing rule objects; all inputs of the tagger and the lexical translator", "why_tests_cant": "The loop changes edges in place through a cache of inverted rules keyed by object identity, then prunes; which edge gets which rule depends on all edges before it, and what remains is a statement about all derivations.", "anchors": ["decoder/hg_intersect.cc: FastLinearIntersect", "decoder/tagger.cc: BuildTrellis", "decoder/lextrans.cc: BuildTrellis", "decoder/hg.cc: PruneEdges"]}
{"id": "C107", "title": "The packed tables of the trie return what was put into them, with or without pointer compression", "statement": "After any sequence of insertions into a table of the trie and FinishedLoading, the values of every entry can be read back at the address that a lookup returns for it, the range returned for an entry is that of its children, and a search in a range of entries with increasing words finds exactly the words that are there. This holds for full pointers and for pointers compressed with an array of any configured number of bits, which give the same answers. Nothing outside of the announced Size bytes is written, the header holds the configuration that reading it back needs, and the number of bits moved into the array is the one that takes the least memory. Composed for all orders, lookups in the packed tables are those of the trie of C102.", "quantifier": "all numbers of entries, vocabularies, quantisation widths, pointer bits and base addresses, all sequences of insertions with non-decreasing pointers, all other writes of the program outside of the table in between and afterwards, all ranges and words", "why_tests_cant": "Fields straddle bytes at offsets that depend on all sizes at once, and the array of high bits is wrong only for particular sequences of pointers and particular numbers of bits.", "anchors": ["klm/lm/bhiksha.hh: ArrayBhiksha, DontBhiksha", "klm/lm/bhiksha.cc: ChopBits, ArrayCount, FinishedLoading", "klm/lm/trie.cc: BitPackedMiddle, BitPackedLongest, FindBitPacked", "klm/util/sorted_uniform.hh: BoundedSortedUniformFind"]}
{"id": "C108", "title": "Quantised probabilities and backoffs are nearest bin averages, and keep the extension marks", "statement": "Training divides the values of an order into bins of equal size (up to one). For every accepted number of bits, a probability written into the trie is read back as the average of a bin that is at least as close to it as the average of any other bin, and a non-zero backoff likewise among the non-zero backoffs; a zero backoff is read back exactly, with the sign that says whether the n-gram can be extended, and quantisation never changes that mark. Nothing is lost if there are at most as many values as codes, a trained value moves by at most the width of its bin, and order is preserved. The tables are disjoint and lie in the announced Size bytes; the header read back gives the numbers of bits.", "quantifier": "all multisets of values (with ties, fewer values than bins, or none that is non-zero), all values to be written, all numbers of bits that SetupMemory accepts, all bit addresses and all contents of memory around the field", "why_tests_cant": "The nearest centre is wrong only at particular distances between neighbouring averages, and empty bins, reserved codes and widths interact.", "anchors": ["klm/lm/quantize.cc: MakeBins, SetupMemory, Train, TrainProb, FinishedLoading, UpdateConfigFromBinary", "klm/lm/quantize.hh: SeparatelyQuantize, Bins, MiddlePointer, LongestPointer", "klm/lm/search_trie.cc: TrainQuantizer", "klm/lm/blank.hh: HasExtension"]}
{"id": "C109", "title": "Online MIRA training makes the optimal passive-aggressive update for every sentence and averages the weights", "statement": "For every sentence in turn, the k-best list of the current weights is scored; the good hypothesis is a best one among all that were ever seen for the sentence, the bad one a worst one of the present list. If the first hypothesis is not as good as the good one, the weights move to those that minimise half the squared distance plus max_step_size times the violation of the margin (the scaled difference of the metrics); otherwise they stay. After the given number of passes the final file holds the last weights and the averaged file the average of the initial weights and the weights after every sentence.", "quantifier": "all training sets, all numbers of passes, all sequences of random permutations, all behaviours of decoder and metric that give at least one hypothesis, all initial weights, step limits and scales", "why_tests_cant": "A wrong update still reduces the loss on most examples, and whether the step is the minimiser has to be compared with all other weight vectors; end-of-pass bookkeeping shows only over several passes.", "anchors": ["training/mira/kbest_mira.cc: main, TrainingObserver::UpdateOracles, ApproxEqual"]}
{"id": "C110", "title": "Weight files: every feature gets the weight of its last line, and written weights are read back", "statement": "Reading a text weight file gives every feature named in it the number of its last line, whether name and number are separated by a space, a tab or an equals sign, skips blank lines and comments, leaves all other weights and the feature numbers as they are, and does not depend on a newline at the end of the file. A file written by the program and read in any other program, with features in any order, gives every written feature its weight; features that are hidden because they are zero keep what they had.", "quantifier": "all files, all feature names and numbers, all states of the feature dictionary and the weights, both settings of hiding, with and without a comment", "why_tests_cant": "Names are arbitrary strings and the reader repairs separators by searching from the right, so only names with particular characters, files of particular length or without a last newline show a difference.", "anchors": ["utils/weights.cc: Weights::InitFromFile, Weights::WriteToFile", "utils/dict.h: Dict::Convert"]}
{"id": "C111", "title": "Pairwise ranking training uses the intended pairs and makes subgradient steps on their hinge loss", "statement": "Sampling 'all' uses every pair in which the first hypothesis is better by the threshold (and, for the perceptron, is not preferred by the model) exactly once, up to the limit; 'XYX' pairs the best with the middle and the worst and the middle with the worst; 'PRO' uses the fifty pairs that differ most. For every sentence the weights move by the learning rate against a subgradient of the hinge loss of the pairs at the weights used for decoding (with batch, once per pass for all sentences). The output holds the weights after the last pass, their average over the passes, or those of the pass with the best average score.", "quantifier": "all lists of samples with any ties, all orders that sorting may give them, all thresholds, limits and part sizes, all decoders, all numbers of sentences and passes", "why_tests_cant": "Which pairs are used depends on ties, list lengths and limits in ways that only show up in the weights after many updates; that a step is against a subgradient is a statement about all weight vectors.", "anchors": ["training/dtrain/pairsampling.h: all_pairs, partXYX, PROsampling", "training/dtrain/dtrain.cc: main"]}
{"id": "C112", "title": "The vocabulary of a language model numbers its words", "statement": "After loading, every word of the model other than the unknown word has an index of its own between 1 and the bound, every other word has index 0, the enumeration lists every index below the bound once with the word that has it, and the weights of a word are at its index although the sorted vocabulary renumbers the words. Loading the binary file gives the same indices, bound and enumeration; a list of words that is damaged, cut off or has the wrong length is rejected, wherever the boundaries of the chunks that are read fall.", "quantifier": "all lists of words without hash collisions, all sizes, all sorts that order the hashes, all interpolation rules, all files and chunk sizes", "why_tests_cant": "The layout depends on the hashes of all words together and on how words fall on chunk boundaries; a test sees a few vocabularies.", "anchors": ["klm/lm/vocab.cc: SortedVocabulary, ProbingVocabulary, ReadWords, WriteWordsWrapper", "klm/lm/vocab.hh: SortedVocabulary::Index, ProbingVocabulary::Index"]}
{"id": "C113", "title": "Sets of candidates lose nothing, have no duplicates and survive a file", "statement": "However often k-best lists are added to a candidate set, every candidate in it is one of those added, no candidate is in it twice, and every candidate that was ever added is represented by one with the same translation, the same features and nearly the same values. A set that is written to a file is read back with the same translations, features and statistics, up to the printed digits. Candidates with the same features should be recognised whatever the order in which the features are stored, and nearly equal values should be treated alike.", "quantifier": "all histories of additions, all hash functions and iteration orders of the hash set, all bit patterns of finite and infinite values, all names and words without separators", "why_tests_cant": "Which candidates are merged depends on bit patterns, hash codes and the internal order of sparse vectors; drift over many rounds of merging is invisible in a single call.", "anchors": ["training/utils/candidate_set.cc: Dedup, ApproxVectorHasher, ApproxVectorEquals, ParseSparseVector, WriteToFile, ReadFromFile", "mteval/ns.cc: SufficientStats", "utils/sparse_vector.h: print"]}
{"id": "C114", "title": "Scores of sentences add up to the score of the corpus, can be subtracted, and arrive at other processes unchanged", "statement": "For every metric, adding the scores of the sentences to a zero score gives the sums of their statistics, in whatever order they are added; adding the difference of two scores to one of them gives the other; a score reported to be an additive identity changes nothing when added, and a score that changes nothing is reported; adding with a factor adds that multiple of every statistic; and a score written by one process is read by another as the same score.", "quantifier": "all metrics, all statistics, all corpora and their orders, all factors", "why_tests_cant": "The arithmetic, the text format and the length byte go wrong only for large, negative or fractional values; a test sees a few small counts.", "anchors": ["mteval/scorer.h: Score", "mteval/scorer.cc: SERScore, BLEUScore, CreateScoreFromString", "mteval/ter.cc: TERScore", "mteval/wer.cc: WERScore", "mteval/aer_scorer.cc: AERScore", "mteval/comb_scorer.cc"]}
{"id": "C115", "title": "Alignment, sentence, word and translation error rates of a sentence are those of their definitions", "statement": "The AER of an alignment given as text is 1 - 2|A and R| / (|A| + |R|), between 0 and 1, and 0 exactly for the links of the reference; SER is the proportion of wrong sentences; WER of a sentence is its edit distance by length for the reference for which this is smallest; TER counts the edits and shifts of the reference with the fewest, divided by the average length.", "quantifier": "all alignments as texts with links in any order, all hypotheses, all lists of references, all corpora", "why_tests_cant": "Which reference wins, ties, empty references and empty alignments are corner cases of a minimum over arbitrary lists; a test fixes a few of them.", "anchors": ["mteval/aer_scorer.cc: ScoreCandidate, ComputeScore", "mteval/scorer.cc: SERScorer, SERScore", "mteval/wer.cc: ScoreCandidate, ComputeScore", "mteval/ter.cc: TERScorer::ScoreCandidate", "utils/alignment_io.cc: ReadPharaohAlignmentGrid"]}
{"id": "C116", "title": "The value of BLEU is the geometric mean of the n-gram precisions times the brevity penalty", "statement": "From the statistics of a sentence or corpus, both implementations of the metric compute the geometric mean of the precisions, a count of zero being replaced by 0.01, times exp(1 - r/h) if the hypothesis is shorter than the reference. The value is positive and at most 1; it is 1 exactly if all n-grams match and the hypothesis is not shorter; more matches never lower it; a hypothesis equal to one of its references has BLEU 1.", "quantifier": "all vectors of counts and lengths, all orders N, all sentences and references of any length", "why_tests_cant": "Monotonicity, bounds and agreement of the two implementations range over all count vectors; the differences show only for orders without n-grams or without matches.", "anchors": ["mteval/ns.cc: BleuMetric::ComputeBreakdown, ComputeScore", "mteval/scorer.cc: BLEUScore::ComputeScore"]}
{"id": "C117", "title": "A combination of metrics scores a corpus with the weighted sum of the scores of its components", "statement": "A combination described as COMB:NAME=weight;NAME=weight keeps the statistics of its components side by side. Whatever the output vector held before, the statistics of a sentence are those of the components; sums over a corpus are field by field in any order and can be undone by subtraction; and the score of the corpus is the weighted sum of the scores each component would give to its own statistics of the corpus.", "quantifier": "all lists of at least two components, all weights, all corpora and statistics", "why_tests_cant": "The layout of the fields depends on the number and sizes of all components; an offset that is wrong for some list of sizes shows only in sums over sentences.", "anchors": ["mteval/ns_comb.cc: CombinationMetric, CombinationSegmentEvaluator::Evaluate, ComputeScore", "mteval/ns.h: SufficientStats::operator+=, operator-=, operator[]", "utils/stringlib.h: Tokenize"]}
{"id": "C118", "title": "The features of the rules of a derivation add up to counts of its strings", "statement": "Summed over the rules of a derivation, the word penalty is -1/log 10 for every word of the translation, the source word penalty the same for the source string, Arity_i the number of rules with i variables, a word set feature the number of words in the set (or, with --oov, outside it), and the non-Latin feature the number of words with characters of several bytes, whatever has been scored before. The shape feature of a rule says where its sides have words around their variables, and two rules share it exactly if both sides have the same shape.", "quantifier": "all derivations of any size, all rules, vocabularies and words, all histories of earlier calls", "why_tests_cant": "The claims relate sums over arbitrary derivation trees to the strings they produce; a test checks single rules.", "anchors": ["decoder/ff_basic.cc: WordPenalty, SourceWordPenalty, ArityPenalty", "decoder/ff_wordset.cc: WordSet::TraversalFeaturesImpl", "decoder/ff_charset.cc: NonLatinCount, ContainsNonLatin", "decoder/ff_ruleshape.cc: RuleShapeFeatures", "decoder/trule.h: EWords, FWords", "decoder/trule.cc: TRule::ComputeArity"]}
{"id": "C119", "title": "The batch optimiser RProp follows its rule through all evaluations, stops and restarts", "statement": "Whatever gradients a program passes to the optimiser, every weight follows the RProp rule by itself: after a change of sign its step shrinks and it stays, while the sign lasts the step grows, and else it moves by the step against the derivative; moves are within the limits. If the derivative points away from some value on both sides the weight gets back to it without end. A weight with derivative zero should stay, and HasConverged should be said of weights with a small gradient. An optimiser that loads what another has saved goes on as the other would have; a file cut off anywhere, or for another number of weights, is rejected.", "quantifier": "all sequences of gradients of any length and dimension, all parameters that the constructor accepts, all points at which training or the writing of a file stops", "why_tests_cant": "The claims are about unbounded sequences of evaluations and about every place at which a file may end; optimize_test runs a few evaluations of one function.", "anchors": ["training/utils/optimize.h: BatchOptimizer::Optimize, RPropOptimizer", "training/utils/optimize.cc: RPropOptimizer::OptimizeImpl, BatchOptimizer::Save, BatchOptimizer::Load, SaveImpl, LoadImpl", "training/utils/lbfgs.h: traditional_convergence_test"]}
{"id": "C120", "title": "mbr_kbest prints a translation of least expected error for every sentence of its k-best lists", "statement": "Given files with the k-best lists of any number of sentences, mbr_kbest gets exactly these lists with their ids, and prints for each a translation of the list with the least expected error under the posterior that is proportional to the exponential of the scaled scores; leaving the inner loop early never changes the choice. With --output_list it prints every translation with its expected error.", "quantifier": "all k-best lists of any length with any scores, all metrics, all numbers of sentences", "why_tests_cant": "The minimum is over all lists and posteriors, and the reader carries a line from one call to the next through any number of sentences.", "anchors": ["mteval/mbr_kbest.cc: ReadKBestList, main"]}
{"id": "C121", "title": "Adding a forest to a stored forest loses no derivation of either and makes up no edge", "statement": "When --forest_output names a file that exists, the new forest is joined with the stored one by the names (hashes) of the nodes. The result has every derivation of the stored forest and every derivation of the new one, with the same rules and features and at the nodes of the same names, in particular at the goal; every edge of it comes from one of the two; names stay unique; and adding the same forest once more changes nothing. Forests with repeated names or different goals are refused.", "quantifier": "all pairs of forests of any size with any rules, features and node names, and all derivations of any depth", "why_tests_cant": "The claim is about all derivations of all pairs of forests, of which there are unboundedly many, and forests accumulate over any number of iterations.", "anchors": ["decoder/hg_union.cc: EdgesMatch, Union", "decoder/hg.cc: AreNodesUniquelyIdentified", "decoder/decoder.cc: forest_output"]}
{"id": "C122", "title": "The shares of a corpus that parallel readers get are a partition of it, with both sides in step", "statement": "CorpusTools::ReadFromFile with a rank and a size gives exactly the sentence pairs whose line number is the rank modulo the size, in order, the sides in step, together with the vocabularies of the whole corpus; so each pair belongs to exactly one reader. A file is refused exactly if some line, in the share or not, does not have the expected number of fields. ReadLine splits a line at its first bar.", "quantifier": "all corpora with any number of lines of any length, all sizes and ranks", "why_tests_cant": "The partition is claimed for every corpus length and every number of readers, and the vocabulary must not depend on the rank.", "anchors": ["utils/corpus_tools.cc: CorpusTools::ReadLine, CorpusTools::ReadFromFile"]}
{"id": "C123", "title": "Conversions of integers to strings give the decimal representation and stay inside their buffers", "statement": "For every integer of every width, the smallest negative one included, utos, itos, append_utoa and append_itoa give the usual decimal representation, different numbers get different strings, and nothing is written in front of the buffer of toa_bufsize characters. The padded forms fill exactly the width that is asked for and keep the value; dropping trailing zeros gives the digits without them and their number.", "quantifier": "all integers of all widths, all widths of padding", "why_tests_cant": "There are 2^64 inputs, and the bound on the buffer must hold for each of them.", "anchors": ["utils/utoa.h: utoa, itoa, utos, itos, utoa_left_pad, itoa_left_pad, utoa_drop_trailing_0, append_utoa, append_itoa"]}
{"id": "C124", "title": "dedup_corpus prints every different line once, at its first occurrence", "statement": "For every input, dedup_corpus prints every line of it exactly once, in the order of the first occurrences, and running it on its own output changes nothing.", "quantifier": "all files with any number of lines of any length", "why_tests_cant": "Lines are compared by a hash of 64 bits, so that the claim depends on all pairs of lines of all files.", "anchors": ["utils/dedup_corpus.cc: main"]}
