{"id": "C01", "title": "Histories of mutations keep an FST well formed", "statement": "After any sequence of MutableFst calls on a VectorFst starting from new(), start() is either None or an existing state, and (as long as add_tr/set_nextstate were only given existing targets) every transition's nextstate is an existing state.", "quantifier": "all finite histories of mutator calls, including failed ones, over any weight type", "why_tests_cant": "Well-formedness has to survive arbitrary interleavings of insertion, deletion and renumbering; tests exercise a handful of fixed histories.", "anchors": ["rustfst/src/fst_impls/vector_fst/mutable_fst.rs: VectorFst::{new,set_start,add_state,add_states,add_tr,del_state,del_states,del_all_states,delete_trs,pop_trs}", "rustfst/src/fst_impls/vector_fst/data_structure.rs: VectorFst"]}
{"id": "C02", "title": "Epsilon counters are exact", "statement": "After any history of mutator calls, num_input_epsilons(s) and num_output_epsilons(s) equal the number of transitions currently leaving s whose input (resp. output) label is 0.", "quantifier": "all histories of mutator calls and all states", "why_tests_cant": "The counters are maintained incrementally by many different mutators; only an invariant over all histories rules out drift.", "anchors": ["rustfst/src/fst_impls/vector_fst/mutable_fst.rs: VectorFst::{add_tr,set_trs_unchecked,del_states,pop_trs,delete_trs,sum_trs_unchecked,unique_trs_unchecked}", "rustfst/src/fst_impls/vector_fst/data_structure.rs: VectorFstState::increment_num_epsilons", "rustfst/src/trs_iter_mut.rs: TrsIterMut"]}
{"id": "C03", "title": "Property flags never lie", "statement": "After any history of mutator calls, every flag contained in properties() is true of the current FST (e.g. if ACYCLIC is set there is no cycle, if I_LABEL_SORTED is set every state's transitions are sorted by input label). Excluded are the calls documented as not touching the properties (sort/unique/sum_trs_unchecked, set_properties) and set_trs_unchecked on a state that already has transitions, which does leave stale flags.", "quantifier": "all histories of mutator calls, all property bits", "why_tests_cant": "Algorithms silently choose faster, wrong code paths when a flag is stale; flags are updated by bit-mask arithmetic whose correctness depends on the whole history.", "anchors": ["rustfst/src/fst_impls/vector_fst/mutable_fst.rs: VectorFst mutators", "rustfst/src/fst_properties/mutate_properties.rs: add_tr_properties,set_final_properties,...", "rustfst/src/fst_properties/properties.rs: masks"]}
{"id": "C04", "title": "del_states removes exactly the requested states", "statement": "del_states(S) leaves exactly the states not in S, renumbered in their original order; each surviving state keeps its final weight and, in order, exactly its transitions to surviving states; the start state follows its state or becomes None when deleted.", "quantifier": "all FSTs, all lists of existing states (with repetitions, in any order)", "why_tests_cant": "Compaction with renumbering is index arithmetic over every subset of states; tests only cover single subsets.", "anchors": ["rustfst/src/fst_impls/vector_fst/mutable_fst.rs: VectorFst::del_states,del_state"]}
{"id": "C05", "title": "Failed calls change nothing", "statement": "set_start, set_final, add_tr, delete_final_weight, delete_trs, take_final_weight, pop_trs, final_weight, num_trs, get_trs return an error exactly when the named source state does not exist, and on error the FST is unchanged; likewise the tr_iter_mut updates set_ilabel, set_olabel, set_weight, set_nextstate, set_tr for a missing state or index.", "quantifier": "all FSTs and all arguments", "why_tests_cant": "Requires quantifying over all FSTs and out-of-range ids.", "anchors": ["rustfst/src/fst_impls/vector_fst/mutable_fst.rs: set_start,set_final,add_tr,delete_final_weight,delete_trs,pop_trs,take_final_weight,del_states", "rustfst/src/fst_impls/vector_fst/fst.rs: CoreFst for VectorFst"]}
{"id": "C06", "title": "Mutators change only what they name (frame conditions)", "statement": "add_state returns a fresh id (the old num_states) of a state without transitions and final weight; set_final/add_tr/delete_trs/... change only the named state and only the named field, everything else observable stays equal.", "quantifier": "all FSTs, all arguments, all other states", "why_tests_cant": "Frame conditions are universally quantified over untouched parts of the FST.", "anchors": ["rustfst/src/fst_impls/vector_fst/mutable_fst.rs: add_state,set_final,add_tr,delete_final_weight,delete_trs,pop_trs"]}
{"id": "C07", "title": "compute_fst_properties is correct", "statement": "The property bits computed by compute_and_update_properties/properties_check for an FST are true of that FST and, for each pair of a property and its negation, exactly one of the two is reported.", "quantifier": "all well-formed FSTs", "why_tests_cant": "Depends on a graph search (SCC) over arbitrary graphs and on label/weight scans of arbitrary states.", "anchors": ["rustfst/src/fst_properties/compute_fst_properties.rs: compute_fst_properties", "rustfst/src/algorithms/visitors/scc_visitors.rs: SccVisitor", "rustfst/src/algorithms/dfs_visit.rs: dfs_visit"]}
{"id": "C08", "title": "A symbol table is always a bijection", "statement": "After any history of add_symbol/add_symbols/add_table, get_symbol and get_label are mutually inverse between the symbols added and 0..len(); label 0 is <eps> for tables created by new().", "quantifier": "all histories of insertions", "why_tests_cant": "Bijectivity must hold after every history.", "anchors": ["rustfst/src/symbol_table.rs: SymbolTable::{new,empty,add_symbol,add_table,get_label,get_symbol}, BiHashMap::get_id_or_insert"]}
{"id": "C09", "title": "Symbol labels are stable", "statement": "Adding symbols never changes the label of a symbol already present, adding a present symbol is a no-op that returns its label, and a new symbol gets label len().", "quantifier": "all tables and all further histories", "why_tests_cant": "Stability is a statement about all future histories.", "anchors": ["rustfst/src/symbol_table.rs: SymbolTable::add_symbol,add_symbols,add_table"]}
{"id": "C10", "title": "invert swaps input and output", "statement": "invert turns the weighted relation of an FST into its inverse: the successful paths of the result are those of the input with the two label sequences swapped and the same weight; inverting twice gives back the same FST.", "quantifier": "all FSTs, all path lengths", "why_tests_cant": "Quantifies over all (infinitely many) paths of all FSTs.", "anchors": ["rustfst/src/algorithms/inversion.rs: invert"]}
{"id": "C11", "title": "project keeps one side of the relation", "statement": "project(Input/Output) yields an acceptor whose successful paths carry, on both tapes, the input (resp. output) labels of the original paths with the same weights.", "quantifier": "all FSTs, all path lengths", "why_tests_cant": "Quantifies over all paths of all FSTs.", "anchors": ["rustfst/src/algorithms/projection.rs: project"]}
{"id": "C12", "title": "tr_sort only reorders", "statement": "tr_sort leaves states, start and final weights alone, permutes each state's transitions stably into ascending label order, and so keeps the multiset of successful paths.", "quantifier": "all FSTs, both comparators", "why_tests_cant": "Order and permutation over lists of any length.", "anchors": ["rustfst/src/algorithms/tr_sort.rs: tr_sort, ILabelCompare, OLabelCompare", "rustfst/src/fst_impls/vector_fst/mutable_fst.rs: sort_trs_unchecked"]}
{"id": "C13", "title": "tr_sum and tr_unique merge parallel transitions without changing the language", "statement": "tr_sum leaves at most one transition per (ilabel, olabel, nextstate) at each state, carrying the \u2295-sum of the merged ones, so the total weight of every (input, output) string pair over paths of each length is unchanged; tr_unique removes only exact duplicates of a remaining transition.", "quantifier": "all FSTs, all commutative-monoid weights, all path lengths", "why_tests_cant": "Total weights are sums over unboundedly many paths.", "anchors": ["rustfst/src/algorithms/tr_sum.rs: tr_sum", "rustfst/src/algorithms/tr_unique.rs: tr_unique", "rustfst/src/fst_impls/vector_fst/mutable_fst.rs: sum_trs_unchecked, unique_trs_unchecked"]}
{"id": "C14", "title": "union accepts what either accepts", "statement": "The successful paths of union(A, B) are, with the same labels and weights and multiplicities, those of A together with those of B.", "quantifier": "all pairs of FSTs", "why_tests_cant": "Quantifies over all FSTs and all their paths.", "anchors": ["rustfst/src/algorithms/union/union_static.rs: union"]}
{"id": "C15", "title": "concat is concatenation", "statement": "The successful paths of concat(A, B) are exactly the pairs of a successful path of A and one of B, with concatenated labels and \u2297-multiplied weights.", "quantifier": "all pairs of FSTs", "why_tests_cant": "Quantifies over all FSTs and all their paths.", "anchors": ["rustfst/src/algorithms/concat/concat_static.rs: concat"]}
{"id": "C16", "title": "closure is Kleene closure", "statement": "The successful paths of closure(A, Plus) are exactly the non-empty sequences of successful paths of A (labels concatenated, weights multiplied); closure(A, Star) additionally accepts the empty string with weight one.", "quantifier": "all FSTs, all iteration counts", "why_tests_cant": "Unbounded iteration.", "anchors": ["rustfst/src/algorithms/closure/closure_static.rs: closure"]}
{"id": "C17", "title": "reverse reverses every path", "statement": "The successful paths of reverse(A) are those of A with both label sequences reversed and the weight product taken in reverse.", "quantifier": "all FSTs", "why_tests_cant": "All paths of all FSTs.", "anchors": ["rustfst/src/algorithms/reverse.rs: reverse"]}
{"id": "C18", "title": "connect trims and preserves the language", "statement": "connect keeps exactly the states lying on some successful path (accessible and coaccessible) and preserves every successful path with labels and weight.", "quantifier": "all FSTs", "why_tests_cant": "Correctness of a single-pass DFS (Tarjan low-link) on arbitrary cyclic graphs.", "anchors": ["rustfst/src/algorithms/connect.rs: connect, ConnectVisitor", "rustfst/src/algorithms/dfs_visit.rs: dfs_visit"]}
{"id": "C19", "title": "top_sort sorts acyclic FSTs and leaves cyclic ones", "statement": "If the FST is acyclic, after top_sort every transition goes to a strictly larger state id and the FST is the same up to renumbering; if it is cyclic it is left unchanged apart from flags.", "quantifier": "all FSTs with a start state", "why_tests_cant": "DFS finishing order on arbitrary graphs.", "anchors": ["rustfst/src/algorithms/top_sort.rs: top_sort, TopOrderVisitor", "rustfst/src/algorithms/state_sort.rs: state_sort"]}
{"id": "C20", "title": "state_sort is renumbering", "statement": "For any permutation, state_sort yields the FST with states renamed accordingly (same paths with the same labels and weights), and rejects an order of the wrong length without changing the FST.", "quantifier": "all FSTs, all permutations", "why_tests_cant": "The in-place cycle-following algorithm must be right for every permutation.", "anchors": ["rustfst/src/algorithms/state_sort.rs: state_sort"]}
{"id": "C21", "title": "Super-final state and final-epsilon removal preserve the language", "statement": "add_super_final_state gives an FST with a single final state accepting the same weighted strings; rm_final_epsilon preserves the total weight of every string pair.", "quantifier": "all FSTs (rm_final_epsilon: commutative semirings)", "why_tests_cant": "All paths of all FSTs.", "anchors": ["rustfst/src/algorithms/add_super_final_state.rs: add_super_final_state", "rustfst/src/algorithms/rm_final_epsilon.rs: rm_final_epsilon"]}
{"id": "C22", "title": "encode/decode round trip", "statement": "The encoded FST is an acceptor / unweighted as requested, and decoding it with the table gives back an FST with the same accepting paths as the original (labels and weights restored).", "quantifier": "all FSTs, all encode types", "why_tests_cant": "The label table is built up over the whole traversal.", "anchors": ["rustfst/src/algorithms/encode/encode_static.rs: encode", "rustfst/src/algorithms/encode/decode_static.rs: decode", "rustfst/src/algorithms/encode/table.rs"]}
{"id": "C23", "title": "relabel_pairs substitutes labels", "statement": "relabel_pairs replaces each label by its image under the given map, leaving unmapped labels, weights and structure alone, and fails without touching the FST when a label is mapped twice.", "quantifier": "all FSTs and label maps", "why_tests_cant": "All maps and paths.", "anchors": ["rustfst/src/algorithms/relabel_pairs.rs: relabel_pairs"]}
{"id": "C24", "title": "Binary FST format round trip", "statement": "Loading what store() wrote gives back an equal FST (states, order of transitions, labels, weights, start, symbol tables, properties).", "quantifier": "all VectorFst/ConstFst whose sizes and ids fit the format, any weight type whose own codec round-trips", "why_tests_cant": "Every byte sequence the writer can produce must be read back.", "anchors": ["rustfst/src/fst_impls/vector_fst/serializable_fst.rs: store, load, parse_vector_fst", "rustfst/src/fst_impls/const_fst/serializable_fst.rs", "rustfst/src/parsers/bin_fst/*"]}
{"id": "C25", "title": "Text FST format round trip", "statement": "Parsing the text() of an FST whose start state has at least one outgoing transition (and whose last state is mentioned) gives back the same FST.", "quantifier": "all such FSTs", "why_tests_cant": "All FSTs; number printing/parsing.", "anchors": ["rustfst/src/fst_traits/macros.rs: write_fst", "rustfst/src/parsers/text_fst/*", "rustfst/src/fst_impls/vector_fst/serializable_fst.rs: from_parsed_fst_text"]}
{"id": "C26", "title": "Symbol table formats round trip", "statement": "Reading back a written symbol table gives an equal table (binary: all tables; text: tables whose symbols are non-empty words without white space).", "quantifier": "all tables", "why_tests_cant": "All tables, all byte strings.", "anchors": ["rustfst/src/parsers/bin_symt/nom_parser.rs", "rustfst/src/parsers/text_symt/nom_parser.rs", "rustfst/src/symbol_table.rs: write, read, write_text, read_text"]}
{"id": "C27", "title": "ConstFst is the same FST", "statement": "Converting a VectorFst to a ConstFst keeps start, number of states, and for every state the final weight, the transitions in order and the epsilon counts.", "quantifier": "all VectorFst and all states", "why_tests_cant": "Slice arithmetic over all states.", "anchors": ["rustfst/src/fst_impls/const_fst/converters.rs", "rustfst/src/fst_impls/const_fst/fst.rs", "rustfst/src/trs.rs: TrsConst"]}
{"id": "C28", "title": "Weights form semirings", "statement": "Boolean, integer, tropical, log, probability, product, (left/right/restricted) string and gallic weights satisfy the semiring laws they advertise: \u2295 associative/commutative with zero, \u2297 associative with one, zero annihilates, \u2297 distributes on the advertised sides; advertised idempotence, path and commutativity flags are true.", "quantifier": "all weights (floats idealised as exact numbers)", "why_tests_cant": "Algebraic laws quantify over all triples of weights.", "anchors": ["rustfst/src/semirings/*.rs: Semiring impls"]}
{"id": "C29", "title": "divide undoes times", "statement": "Whenever divide(a\u2297b, a, left) (resp. right) is defined for a cancellable a it returns b.", "quantifier": "all weights", "why_tests_cant": "Universally quantified algebra.", "anchors": ["rustfst/src/semirings/{tropical_weight,log_weight,probability_weight,string_weight,product_weight,gallic_weight}.rs: WeaklyDivisibleSemiring::divide_assign"]}
{"id": "C30", "title": "String weights compute longest common prefixes/suffixes", "statement": "\u2295 of left (right) string weights is the longest common prefix (suffix) and natural-order statements about it hold; restricted string \u2295 is defined only on equal or zero arguments.", "quantifier": "all label sequences", "why_tests_cant": "All sequences of all lengths.", "anchors": ["rustfst/src/semirings/string_weight.rs: plus_assign, times_assign"]}
{"id": "C31", "title": "Reweighting and pushing preserve total weights", "statement": "reweight with any invertible potentials, and push_weights towards initial or final states, preserve the weight of every successful path (up to the total weight when removed).", "quantifier": "all FSTs, all potentials, both directions", "why_tests_cant": "All paths.", "anchors": ["rustfst/src/algorithms/reweight.rs: reweight", "rustfst/src/algorithms/push.rs: push_weights"]}
{"id": "C32", "title": "shortest_distance returns the \u2295-sum over paths", "statement": "On acyclic FSTs (any semiring) and on any FST over idempotent/bounded semirings, when shortest_distance returns, entry s is the \u2295 of the weights of all paths from the start to s.", "quantifier": "all FSTs, all queue disciplines", "why_tests_cant": "Sums over all paths, independence from the schedule in which the queue is served.", "anchors": ["rustfst/src/algorithms/shortest_distance.rs: ShortestDistanceState::shortest_distance"]}
{"id": "C33", "title": "all_pairs_shortest_distance solves the path equation", "statement": "The returned matrix D satisfies D = 1 \u2295 A\u2297D for the transition matrix A and, on acyclic FSTs, D[p][q] is the \u2295 of the weights of all paths from p to q.", "quantifier": "all FSTs over star semirings", "why_tests_cant": "Floyd\u2013Warshall/Kleene elimination for all sizes.", "anchors": ["rustfst/src/algorithms/all_pairs_shortest_distance.rs: all_pairs_shortest_distance"]}
{"id": "C34", "title": "shortest_path(1) returns a best path", "statement": "The single shortest path result is a linear FST carrying the labels of a successful path of the input whose weight is the \u2295-minimum over all successful paths.", "quantifier": "all FSTs over path semirings", "why_tests_cant": "Optimality over all paths.", "anchors": ["rustfst/src/algorithms/shortest_path.rs: single_shortest_path, single_shortest_path_backtrace"]}
{"id": "C35", "title": "rm_epsilon removes epsilons and keeps the weighted language", "statement": "After rm_epsilon no transition is \u03b5:\u03b5 and the total weight of each (input, output) pair is unchanged.", "quantifier": "all FSTs (\u03b5-acyclic, or idempotent closed semirings)", "why_tests_cant": "Sums over unboundedly many \u03b5-paths.", "anchors": ["rustfst/src/algorithms/rm_epsilon/rm_epsilon_state.rs: expand", "rustfst/src/algorithms/rm_epsilon/rm_epsilon_static.rs: rm_epsilon"]}
{"id": "C36", "title": "Lazy FST answers do not depend on the query history", "statement": "start(), final_weight(s) and get_trs(s) of a LazyFst return the value the operation computes, whatever queries (in whatever order, with repetition) happened before.", "quantifier": "all histories of queries, all cache implementations", "why_tests_cant": "Caching bugs are history dependent.", "anchors": ["rustfst/src/algorithms/lazy/lazy_fst.rs: LazyFst", "rustfst/src/algorithms/lazy/cache/*.rs"]}
{"id": "C37", "title": "State tables are bijections", "statement": "A lazy operation's StateTable gives equal tuples equal ids, different tuples different ids, never changes an id, ids are 0..n, and find_tuple(find_id(t)) = t.", "quantifier": "all histories of lookups", "why_tests_cant": "Histories.", "anchors": ["rustfst/src/algorithms/lazy/state_table.rs: BiHashMap, StateTable", "rustfst/src/algorithms/factor_weight/state_table.rs"]}
{"id": "C38", "title": "Lazy FST expansion is complete", "statement": "LazyFst::compute() produces a static FST with the same start and, for every state reachable in the lazy FST, the same final weight and transitions.", "quantifier": "all lazy operations with finitely many reachable states", "why_tests_cant": "Completeness of a breadth-first expansion for all graphs.", "anchors": ["rustfst/src/algorithms/lazy/lazy_fst.rs: LazyFst::compute"]}
{"id": "C39", "title": "compose is relational composition without path duplication", "statement": "Successful paths of compose(A, B) correspond one-to-one to pairs of a successful path of A and one of B whose middle tapes agree; labels are A's input and B's output and the weight is the product; \u03b5-transitions produce no duplicates.", "quantifier": "all FSTs over commutative semirings", "why_tests_cant": "The \u03b5-filter must be right for every interleaving of \u03b5-transitions.", "anchors": ["rustfst/src/algorithms/compose/compose_fst_op.rs: ComposeFstOp", "rustfst/src/algorithms/compose/compose_filters/sequence_compose_filter.rs", "rustfst/src/algorithms/compose/matchers/sorted_matcher.rs"]}
{"id": "C40", "title": "replace expands non-terminals", "statement": "Paths of replace correspond to call/return derivations: each non-terminal transition is replaced by a successful path of the FST it names.", "quantifier": "all FST families", "why_tests_cant": "Unbounded recursion depth.", "anchors": ["rustfst/src/algorithms/replace/replace_fst_op.rs: ReplaceFstOp"]}
{"id": "C41", "title": "factor_weight preserves total weight", "statement": "Factoring arc and final weights keeps for every path the product of its factors equal to the original weight.", "quantifier": "all FSTs and factor iterators whose factors multiply back", "why_tests_cant": "All paths.", "anchors": ["rustfst/src/algorithms/factor_weight/factor_weight_op.rs: FactorWeightOp"]}
{"id": "C42", "title": "determinize preserves weights and is deterministic", "statement": "For an acceptor over a weakly divisible semiring the determinized FST has at most one transition per label at each state and gives each string the same total weight, whatever the iteration order of its internal hash maps.", "quantifier": "all acceptors without \u03b5, all hash-map iteration orders", "why_tests_cant": "Result must not depend on hash iteration order; subset construction over all inputs.", "anchors": ["rustfst/src/algorithms/determinize/determinize_fsa_op.rs: DeterminizeFsaOp"]}
{"id": "C43", "title": "isomorphic decides equality up to renumbering", "statement": "If isomorphic(A, B) returns true then the FSTs are equal up to renaming of accessible states, hence have the same weighted paths.", "quantifier": "all pairs of deterministic FSTs", "why_tests_cant": "All pairs.", "anchors": ["rustfst/src/algorithms/isomorphic.rs: isomorphic, Isomorphism"]}
{"id": "C44", "title": "Interval sets represent integer sets", "statement": "normalize keeps the set of members, leaves sorted disjoint non-adjacent intervals, sets count to the number of members; member(v) tells exactly whether v is in some interval.", "quantifier": "all finite lists of intervals", "why_tests_cant": "All lists.", "anchors": ["rustfst/src/algorithms/compose/interval_set.rs: IntervalSet"]}
{"id": "C45", "title": "Partition refinement keeps a partition", "statement": "Every history of add/split/finalize operations keeps the classes disjoint, covering all elements, with correct sizes, and only ever refines.", "quantifier": "all histories", "why_tests_cant": "Linked-list manipulation over all histories.", "anchors": ["rustfst/src/algorithms/partition.rs: Partition"]}
{"id": "C46", "title": "Queues deliver each enqueued state in their discipline's order", "statement": "Fifo, lifo, state-order, topological-order and shortest-first queues return exactly the states enqueued and not yet dequeued, in their respective order; the heap behind shortest-first/n-best returns a maximal element.", "quantifier": "all histories of enqueue/dequeue/update", "why_tests_cant": "Histories.", "anchors": ["rustfst/src/algorithms/queues/*.rs", "rustfst/src/algorithms/shortest_path.rs: Heap"]}
{"id": "C47", "title": "paths_iter enumerates exactly the successful paths", "statement": "For an acyclic FST the path iterator terminates and yields every successful path exactly once with its labels and weight.", "quantifier": "all acyclic FSTs", "why_tests_cant": "All paths.", "anchors": ["rustfst/src/fst_traits/paths_iterator.rs: PathsIterator", "rustfst/src/fst_path.rs: FstPath"]}
{"id": "C48", "title": "Linear FST builders and decoders are inverse", "statement": "acceptor/transducer build an FST with exactly one successful path carrying the given labels and weight; decode_linear_fst returns it back.", "quantifier": "all label sequences", "why_tests_cant": "All sequences.", "anchors": ["rustfst/src/utils/labels_to_fst.rs", "rustfst/src/utils/fst_to_labels.rs", "rustfst/src/utils/epsilon_machine.rs"]}
{"id": "C49", "title": "check_path_in_fst decides membership", "statement": "check_path_in_fst(fst, path) returns true iff the FST has a successful path with those labels and weight.", "quantifier": "all FSTs and paths", "why_tests_cant": "All FSTs and paths.", "anchors": ["rustfst/src/fst_path.rs: check_path_in_fst"]}
{"id": "C50", "title": "tr_map applies a mapper to every transition and final weight", "statement": "tr_map applies the mapper exactly once to each transition and final weight and honours the mapper's final action (none, allow, require super-final).", "quantifier": "all FSTs and mappers", "why_tests_cant": "All FSTs and mappers.", "anchors": ["rustfst/src/algorithms/tr_map.rs: tr_map", "rustfst/src/algorithms/tr_mappers/*.rs"]}
{"id": "C51", "title": "Algorithm property masks are truthful", "statement": "The flags set on the results of invert, project, closure, concat, union, reverse, tr_sort, connect, reweight, ... are true of the result whenever the input's flags were true of the input.", "quantifier": "all FSTs with truthful flags", "why_tests_cant": "Each mask is a claim about all FSTs.", "anchors": ["rustfst/src/fst_properties/mutate_properties.rs: *_properties", "rustfst/src/fst_properties/properties.rs"]}
{"id": "C52", "title": "Conversions between FST types keep the FST", "statement": "fst_convert copies start, final weights and transitions of every state unchanged.", "quantifier": "all FSTs", "why_tests_cant": "All FSTs.", "anchors": ["rustfst/src/algorithms/fst_convert.rs"]}
{"id": "C53", "title": "condense collapses strongly connected components", "statement": "On an FST with a start state, condense returns component numbers such that two states get the same number exactly if each reaches the other, and an acyclic FST whose states are these components, whose transitions are the transitions between different components and whose final weights are the sums of the final weights in the component.", "quantifier": "all FSTs with a start state (and the empty FST)", "why_tests_cant": "Tarjan on all graphs.", "anchors": ["rustfst/src/algorithms/condense.rs: condense", "rustfst/src/algorithms/visitors/scc_visitors.rs"]}
{"id": "C54", "title": "closure solves a* = 1 \u2295 a\u2297a*", "statement": "The closure of a weight satisfies a* = 1 \u2295 a\u2297a* wherever the series it stands for converges.", "quantifier": "all weights of the star semirings", "why_tests_cant": "Universally quantified algebra; the value at zero and near one is easily missed.", "anchors": ["rustfst/src/semirings/*.rs: StarSemiring::closure_assign"]}
{"id": "C55", "title": "Weight reversal is an anti-automorphism", "statement": "reverse is self-inverse and reverses products: reverse(a\u2297b) = reverse(b)\u2297reverse(a), and commutes with \u2295, so reversing an FST reverses path weights.", "quantifier": "all weights", "why_tests_cant": "Universally quantified algebra.", "anchors": ["rustfst/src/semirings/{string_weight,gallic_weight,product_weight,union_weight}.rs: reverse, reverse_back"]}
{"id": "C56", "title": "quantize moves a weight by at most half a step and is idempotent", "statement": "quantize(delta) returns a multiple of delta at distance at most delta/2, leaves infinities alone and is idempotent.", "quantifier": "all weights and positive deltas", "why_tests_cant": "All numbers.", "anchors": ["rustfst/src/semirings/macros_float.rs: quantize_assign"]}
{"id": "C57", "title": "Minimizing an unweighted acceptor preserves what it accepts", "statement": "minimize of a deterministic acceptor without weights ends, succeeds, accepts the same strings along the same labels, is again a deterministic unweighted acceptor and has only useful states. Anything that is not an unweighted acceptor is refused by acceptor_minimize.", "quantifier": "all deterministic unweighted acceptors, all orders in which the heap breaks ties", "why_tests_cant": "Partition refinement is right only if every split and every work-list entry is right for every automaton; tests sample a few.", "anchors": ["rustfst/src/algorithms/minimize.rs: acceptor_minimize, merge_states, cyclic_minimize, AcyclicMinimizer", "rustfst/src/algorithms/partition.rs"]}
{"id": "C58", "title": "The minimized acceptor is minimal", "statement": "No deterministic acceptor with the same language has fewer states than the result of minimize, and no two states of the result accept the same strings.", "quantifier": "all deterministic unweighted acceptors and all other deterministic acceptors of the same language", "why_tests_cant": "A comparison with all automata for the language.", "anchors": ["rustfst/src/algorithms/minimize.rs: acceptor_minimize, pre_partition, AcyclicMinimizer"]}
{"id": "C59", "title": "Minimizing a weighted acceptor preserves every string's weight", "statement": "minimize of a deterministic acceptor with weights ends, succeeds, and gives every string the weight it had, up to the configured rounding; the result is deterministic, an acceptor, and has only useful states. A non-deterministic FST is refused unless its weights are idempotent and the caller allows it.", "quantifier": "all deterministic weighted acceptors whose distances to the final states exist, all weights left alone by rounding, all orders in which the heap breaks ties", "why_tests_cant": "Pushing, encoding, partition refinement and decoding must fit together for every automaton; a lost or doubled path shows only on particular cycles.", "anchors": ["rustfst/src/algorithms/minimize.rs: minimize_with_config", "rustfst/src/algorithms/push.rs: push_weights_with_config", "rustfst/src/algorithms/encode/encode_static.rs: encode, decode"]}
{"id": "C60", "title": "Changing the weights of an FST keeps its paths", "statement": "weight_convert calls the converter once for every transition and final weight and keeps states, start and transitions otherwise. Converting a transducer to gallic weights gives an acceptor whose paths carry the output string in their weight; converting back gives the output labels back, with one new state for labels in final weights, path for path. It fails exactly when a weight cannot be converted.", "quantifier": "all FSTs, all converters, all kinds of gallic weights", "why_tests_cant": "The paths of all FSTs, including cycles and final weights with labels, must correspond.", "anchors": ["rustfst/src/algorithms/weight_convert.rs: weight_convert", "rustfst/src/algorithms/weight_converters/to_gallic_converter.rs: ToGallicConverter", "rustfst/src/algorithms/weight_converters/from_gallic_mapper.rs: FromGallicConverter", "rustfst/src/algorithms/weight_converters/simple_weight_converter.rs: SimpleWeightConverter"]}
{"id": "C61", "title": "Determinizing a transducer keeps its transduction", "statement": "determinize of a transducer without cycles ends. Type NonFunctional gives every pair of strings the weight it had, type Functional too if the transducer is functional and trim (and whenever it returns an FST at all), and type Disambiguate gives every input the weight it had, with one of the outputs of the best paths. No state of the result has two transitions with the same input label other than epsilon.", "quantifier": "all acyclic transducers with weights that can be divided and are left alone by rounding, all orders of the hash maps; cyclic ones whenever the algorithm returns", "why_tests_cant": "Outputs are delayed by unbounded strings; whether they are emitted once and in order depends on the subset construction for every automaton and hash order.", "anchors": ["rustfst/src/algorithms/determinize/determinize_static.rs: determinize_fst, determinize_with_config", "rustfst/src/algorithms/determinize/divisors.rs: GallicCommonDivisor, LabelCommonDivisor", "rustfst/src/semirings/gallic_weight.rs: GallicWeight, GallicWeightMin, GallicWeightRestrict"]}
{"id": "C62", "title": "Minimizing a transducer keeps its transduction", "statement": "minimize of a deterministic transducer without cycles ends and succeeds. The result has exactly the accepting paths of the input, with the same input strings, output strings and weights, though they may take more transitions; no state has two transitions with the same input label other than epsilon, and all flags of the result are true.", "quantifier": "all acyclic deterministic transducers with nonzero weights that can be divided and are left alone by rounding, whose final states have no transition that reads epsilon", "why_tests_cant": "Output labels are moved towards the start state by string arithmetic and split again; that no label is lost or moved across another depends on all paths of every automaton.", "anchors": ["rustfst/src/algorithms/minimize.rs: minimize, minimize_with_config", "rustfst/src/algorithms/factor_weight/factor_iterators/gallic_factor.rs: GallicFactorLeft", "rustfst/src/algorithms/shortest_distance.rs: shortest_distance_with_internal_config", "rustfst/src/semirings/string_weight.rs: StringWeightLeft"]}
{"id": "C63", "title": "The n shortest paths are n best paths", "statement": "shortest_path with n > 1 ends and succeeds. The accepting paths of the result are n accepting paths of the input (with their input strings, output strings and weights), or all of them when there are fewer, and no accepting path left out is better than one that is kept. The paths of the result have three more epsilon transitions; all its flags are true. When no path has a weight other than zero the result is empty. n = 0 gives the empty FST.", "quantifier": "all FSTs, cyclic ones too, over commutative weights with the path property in which the cycles are absorbed and whose weights can be cancelled (tropical weights without negative transitions), and all n", "why_tests_cant": "The search grows a tree of path suffixes ordered by a priority queue and prunes each state after n visits; that no better path is pruned depends on all paths of every, possibly cyclic, automaton.", "anchors": ["rustfst/src/algorithms/shortest_path.rs: shortest_path_with_config, n_shortest_path, ShortestPathCompare, Heap"]}
{"id": "C64", "title": "The delayed union, concatenation and closure agree with the static ones", "statement": "UnionFst, ConcatFst and ClosureFst answer every query as one fixed FST, whose accepting paths are the paths of either operand, a path of the first followed by a path of the second, or one or more paths of the operand in sequence (and the empty path for ClosureStar), with the same input strings, output strings and weights and a fixed number of additional epsilon transitions for each operand. compute always ends, and the FST that it returns has exactly these paths. What is accepted is what the static union, concat and closure accept.", "quantifier": "all well-formed operands that do not use the two labels by which the code names them, all fair histories of queries, paths of weight zero aside", "why_tests_cant": "The operations are recursive networks with a stack; that calls and returns always match and no path is lost or repeated concerns all paths of all operands and all orders of queries.", "anchors": ["rustfst/src/algorithms/union/union_fst.rs: UnionFst", "rustfst/src/algorithms/concat/concat_fst.rs: ConcatFst", "rustfst/src/algorithms/closure/closure_fst.rs: ClosureFst", "rustfst/src/algorithms/replace/replace_fst_op.rs: ReplaceFstOp"]}
{"id": "C65", "title": "Random generation yields paths of the input, as many as were drawn", "statement": "randgen ends, without error or panic, for every selector that keeps its contract. The paths that it yields are accepting paths of the input (same input and output strings, same number of transitions, fewer than max_length). In weighted mode every sampled path appears once, with the weight -log of its share of the samples (or of its number of samples, if the total weight is kept); in unweighted mode it appears as often as it was drawn, with weight one. The counts add up to at most npath, and to exactly npath if the input has no dead ends and no path as long as max_length. The flags of the output are true.", "quantifier": "all well-formed FSTs, with or without cycles; all selectors, random generators and sequences of draws; all configurations", "why_tests_cant": "The result depends on a random generator and on a state table that is built while the states are expanded; a test sees a few sequences of draws on a few FSTs.", "anchors": ["rustfst/src/algorithms/randgen/mod.rs: randgen_with_config", "rustfst/src/algorithms/randgen/randgen_fst_op.rs: RandGenFstOp", "rustfst/src/algorithms/randgen/tr_sampler.rs: TrSampler::sample", "rustfst/src/algorithms/randgen/tr_selector.rs: UniformTrSelector", "rustfst/src/algorithms/randgen/randgen_visitor.rs: RandGenVisitor", "rustfst/src/algorithms/lazy/lazy_fst_2.rs: LazyFst2::compute"]}
{"id": "C66", "title": "Look-ahead reachability: which labels can be read next and whether a path can end", "statement": "LabelReachable gives each label a number; reach_label of the number answers true exactly if the label can be read next from the state, transitions with epsilon on that side being passed silently; reach_final answers true exactly if a final state with a weight other than zero can be reached silently. Different labels get different numbers, epsilon stays epsilon, and this stays so after any further relabelling of labels or whole FSTs (relabel, relabel_fst) and for the pairs of relabel_pairs with collisions avoided. relabel_fst changes only these labels and the order of the transitions. On a sorted FST, reach answers None exactly if no transition in the given range is reported, and otherwise the first position, the position after the last one and the sum of the weights of the reported transitions. StateReachable answers whether a final state can be reached from a state. The construction fails only for a final state (for labels: one with stored weight zero) on a cycle with another state.", "quantifier": "all well-formed FSTs with a start state and true flags whose labels are below NO_LABEL, cyclic or not; all states, labels, relabelled FSTs and ranges", "why_tests_cant": "The answers come from interval sets built in a depth-first numbering of a transformed, condensed graph; a missed cross edge, a wrong interval end or a number used twice shows only on particular shapes of graphs.", "anchors": ["rustfst/src/algorithms/compose/label_reachable.rs: LabelReachable, LabelReachableData", "rustfst/src/algorithms/compose/state_reachable.rs: StateReachable", "rustfst/src/algorithms/compose/interval_reach_visitor.rs: IntervalReachVisitor"]}
{"id": "C67", "title": "Composition with sigma matchers", "statement": "compose_with_config with a sigma matcher on an operand gives the relational composition (paths one to one with pairs of paths that agree on the middle tape, with the product weight) in which a sigma transition of that operand is read as any allowed label, on the matched side or, according to the rewrite mode, on both sides. It never fails when sigma is not epsilon, the operand with the matcher has its sort flag, the other operand does not use sigma and not both have sigma transitions; sigma = epsilon and a missing sort flag are errors.", "quantifier": "all well-formed operands, all sigma labels, rewrite modes and sets of allowed labels, all filters, paths of weight zero aside", "why_tests_cant": "Which labels a sigma transition stands for depends on the other transitions of the state and on all labels of the other operand; whether a path is lost or found twice concerns all pairs of paths.", "anchors": ["rustfst/src/algorithms/compose/matchers/sigma_matcher.rs: SigmaMatcher, IteratorSigmaMatcher", "rustfst/src/algorithms/compose/compose_static.rs: compose_with_config, MatcherConfig::create_matcher", "rustfst/src/algorithms/compose/compose_fst_op.rs: match_type, match_input, ordered_expand, match_tr"]}
{"id": "C69", "title": "optimize keeps the weight of every string pair", "statement": "optimize succeeds, and the optimized FST gives every pair of strings the same total weight as before. Its state and flag data are right; an acceptor comes out as a deterministic acceptor without useless states.", "quantifier": "all well-formed FSTs over the tropical semiring with right flags and a start state, all heap orders and iteration orders inside", "why_tests_cant": "optimize chooses among several pipelines (epsilon removal, encoding, determinization, minimization, decoding) by stored flags; each pipeline is only right on some class of FSTs, and whether the chosen one preserves all weights concerns all FSTs of the class and all their paths.", "anchors": ["rustfst/src/algorithms/optimize.rs: optimize, optimize_acceptor, optimize_transducer, encode_deter_mini_decode"]}
{"id": "C68", "title": "Composition with look-ahead gives the composition", "statement": "Composing two FSTs with a look-ahead filter ends without error and gives the relational composition of the two FSTs: what the look-ahead cuts off lies on no accepting path, and weights pushed forward are taken off again. This holds for arc look-ahead on either side with any flags, and for label look-ahead on either side when the FSTs come from MatcherFst::new_with_relabeling, with the library's look-ahead flags and the sequence filter that takes the epsilons of the other FST first; the result then relates the labels of the FSTs before relabelling.", "quantifier": "all pairs of well-formed FSTs with right flags (cyclic ones and ones with epsilons included), all look-ahead flags as stated, all weights of a commutative semiring, for weight pushing all weights one can divide by and that are fixed under quantization", "why_tests_cant": "Look-ahead decides from precomputed label intervals or from the next transitions whether a pair of states can still succeed; a single wrong cut loses paths only for some combination of epsilons, filter state and labels, and the pushed weights must cancel on every path of every pair of FSTs.", "anchors": ["rustfst/src/algorithms/compose/lookahead_filters/lookahead_compose_filter.rs: LookAheadComposeFilter", "rustfst/src/algorithms/compose/lookahead_filters/push_weights_compose_filter.rs: PushWeightsComposeFilter", "rustfst/src/algorithms/compose/lookahead_matchers: TrivialLookAheadMatcher, TrLookAheadMatcher, LabelLookAheadMatcher, LabelLookAheadRelabeler", "rustfst/src/algorithms/compose/matcher_fst.rs: MatcherFst::new_with_relabeling", "rustfst/src/algorithms/compose/compose_fst_op.rs: ComposeFstOp"]}
{"id": "C70", "title": "Pushing labels keeps the relation", "statement": "push with PUSH_LABELS, with or without PUSH_WEIGHTS, towards the initial or towards the final states, ends without error and keeps every accepting path with its input, its output and its weight, except for what it was asked to remove: with REMOVE_COMMON_AFFIX the longest common prefix (or suffix) of all outputs, with REMOVE_TOTAL_WEIGHT the sum of all path weights. Paths may get more transitions.", "quantifier": "all acyclic transducers with nonzero weights of a weakly divisible semiring and all options; with only one of the two removal options an accepting path must exist", "why_tests_cant": "Strings of any length move across all transitions at once through distances in a semiring of strings and weights, division by them and factoring; every path of every transducer must still read and write the same.", "anchors": ["rustfst/src/algorithms/push.rs: push_with_config, m_labels_pushing, remove_weight, compute_total_weight", "rustfst/src/algorithms/factor_weight/factor_weight_op.rs: FactorWeightOp", "rustfst/src/semirings/gallic_weight.rs: GallicWeightLeft, GallicWeightRight"]}
{"id": "C71", "title": "The n shortest paths with unique are the n best strings", "statement": "shortest_path with n > 1 and unique on an acceptor without epsilons ends and succeeds. The result has exactly one accepting path for each of n different strings, or for all strings of the acceptor when there are fewer. The weight of each path is the weight of the string in the input (its best path), and no other string has a better one. A transducer with different labels on a transition is refused.", "quantifier": "all acyclic acceptors without epsilon transitions whose weights are finite tropical weights on the quantization grid, all acceptors without weights (cycles allowed), all n > 1 and all iteration orders of the hash maps", "why_tests_cant": "The result is the outcome of a reversal, a determinization with residual weights and a best-first search driven by distances of subsets; that it misses no string, repeats none and ranks them rightly is a statement about all acceptors and all n, and hash map orders differ from run to run.", "anchors": ["rustfst/src/algorithms/shortest_path.rs: shortest_path_with_config, n_shortest_path", "rustfst/src/algorithms/determinize/determinize_static.rs: determinize_with_distance", "rustfst/src/algorithms/determinize/state_table.rs: compute_distance, find_id_from_ref"]}
{"id": "C72", "title": "The delayed epsilon removal presents one FST", "statement": "Whatever is asked of a RmEpsilonFst (start, transitions, final weights, counters), in whatever order and however often, the answers are those of one fixed FST. It has no epsilon transition, gives every pair of strings the weight the input gives it, and the flags that are reported are true of it. Counters are known exactly of the states asked for before. After any such history compute ends and returns the part of this FST that can be reached, with the same weights and true flags.", "quantifier": "all FSTs with a start state, all histories of queries about their states, all weights: epsilon transitions without cycles, or idempotent weights and epsilon cycles that add nothing; the weights of the epsilon transitions lie in a class closed under sums and products without zero", "why_tests_cant": "Distances, marks and elements of one expansion stay in place for the next one, so a row could depend on which states were asked for before; all orders of queries must give rows that fit together.", "anchors": ["rustfst/src/algorithms/rm_epsilon/rm_epsilon_fst.rs: RmEpsilonFst", "rustfst/src/algorithms/rm_epsilon/rm_epsilon_op.rs: RmEpsilonOp", "rustfst/src/algorithms/rm_epsilon/rm_epsilon_state.rs: RmEpsilonState", "rustfst/src/algorithms/lazy/lazy_fst_2.rs: LazyFst2"]}
{"id": "C73", "title": "Relabelling through symbol tables keeps the strings of all paths", "statement": "relabel_tables succeeds exactly when every label of every transition has a symbol in its old table that is also in the new table. Then each label becomes the label of the same symbol, everything else stays, and the paths spell the same strings with the same weights through the new tables as before through the old ones. string_paths_iter yields every accepting path of an FST without accessible cycle exactly once, with the symbols of its labels separated by spaces, and fails if a table is missing.", "quantifier": "all FSTs, all symbol tables given or attached, both choices of attaching the new tables, all paths", "why_tests_cant": "The new label of a symbol depends on both tables, and a label mapped wrongly shows only on the paths that carry it; the statement is about all paths and all tables.", "anchors": ["rustfst/src/fst_traits/mutable_fst.rs: relabel_tables", "rustfst/src/string_path.rs: StringPath::istring, ostring", "rustfst/src/fst_traits/string_paths_iterator.rs: StringPathsIterator"]}
{"id": "C74", "title": "A text describes one FST, whichever FST type reads it", "statement": "Reading a text always succeeds. The FST read has the states up to the largest one mentioned, the state of the first row as start state, the transitions of each state in the order of the rows and the final weight of the last row of each state. A VectorFst and a ConstFst read from the same text answer all queries alike, for all states, existing or not; counters are exact, and if no final weight is zero both report exactly the true flags.", "quantifier": "all texts and all lists of rows: any order of rows, gaps in the state ids, repeated final weights, states without transitions", "why_tests_cant": "The two readers build their arrays differently (one row at a time, or sorted, grouped and with gaps filled); agreement must hold for every order of rows and every pattern of gaps.", "anchors": ["rustfst/src/fst_impls/const_fst/serializable_fst.rs: from_parsed_fst_text", "rustfst/src/fst_impls/vector_fst/serializable_fst.rs: from_parsed_fst_text", "rustfst/src/parsers/text_fst/parsed_text_fst.rs: ParsedTextFst"]}
{"id": "C75", "title": "The delayed operations agree with the static functions", "statement": "Ask a delayed composition, determinization of an acceptor, replacement without recursion, or weight factoring anything, in any order, clearing its cache or not: there is one one-to-one translation of its state numbers to the states of the FST the static function returns under which every answer is the answer of that FST. Expanding the delayed FST at any point of the history ends, and gives a well-formed copy of that FST: same start, same final weights, same transitions in the same order, states renumbered.", "quantifier": "all operands that the static functions accept, all filters that handle epsilon, all hash map orders, all cache types, all histories of queries about states the client has been told of, all points at which the FST is expanded", "why_tests_cant": "State numbers depend on the order in which a client asks; agreement has to hold for every one of the unboundedly many histories.", "anchors": ["rustfst/src/algorithms/lazy/lazy_fst.rs: LazyFst", "rustfst/src/algorithms/compose/compose_fst.rs: ComposeFst", "rustfst/src/algorithms/compose/compose_static.rs: compose_with_config", "rustfst/src/algorithms/determinize/determinize_fsa_op.rs: DeterminizeFsaOp", "rustfst/src/algorithms/factor_weight/factor_weight_fst.rs: FactorWeightFst", "rustfst/src/algorithms/replace/replace_fst.rs: ReplaceFst"]}
{"id": "C76", "title": "The attached symbol tables follow the operations", "statement": "Read an FST through the symbol tables attached to it, so that it relates strings of symbols. Then union, concatenation, closure, reversal, trimming, composition and the shortest path do to this relation what they do to labels, provided the operands share the tables of the tapes that are put together. Inverting an FST also exchanges its tables, and projecting it leaves one table on both tapes.", "quantifier": "all FSTs with attached symbol tables, all strings of symbols, all weights", "why_tests_cant": "A table that is dropped, kept or swapped wrongly only shows when a label has different symbols on the two tapes; the claim ranges over all tables and all strings.", "anchors": ["rustfst/src/algorithms/inversion.rs: invert", "rustfst/src/algorithms/projection.rs: project", "rustfst/src/algorithms/union/union_static.rs: union", "rustfst/src/algorithms/concat/concat_static.rs: concat", "rustfst/src/algorithms/closure/closure_static.rs: closure", "rustfst/src/algorithms/reverse.rs: reverse", "rustfst/src/algorithms/compose/compose_fst.rs: ComposeFst::new", "rustfst/src/algorithms/lazy/lazy_fst.rs: LazyFst::compute", "rustfst/src/algorithms/shortest_path.rs: shortest_path_with_config", "rustfst/src/fst_traits/mutable_fst.rs: set_symts_from_fst"]}
{"id": "C77", "title": "A delayed composition that is saved and loaded again goes on as before", "statement": "Write a delayed composition, with whatever it has cached and numbered so far, to its two files with SerializableLazyFst::write, and build a delayed composition from what is read from them. It then answers all further queries, lists its states and expands exactly as the one that was saved, so all answers before and after are those of one static composition. A file that was cut short is refused with an error. If the process ends while the files of an earlier save are being replaced, what is on the disk is refused or goes on like one of the two saved FSTs. Other threads may use the delayed FST while it is being saved.", "quantifier": "all operands, filters, caches, histories of queries before the save and after the load, iteration orders of the hash maps, crash points", "why_tests_cant": "The files depend on the history and on the iteration order of hash maps, and the defects need a crash or another thread at one particular moment; the tests save a fully expanded FST once and load it.", "anchors": ["rustfst/src/algorithms/lazy/lazy_fst.rs: SerializableLazyFst::write", "rustfst/src/algorithms/lazy/cache/simple_vec_cache.rs: write_simple_vec_cache, parse_simple_vec_cache", "rustfst/src/algorithms/lazy/cache/simple_hash_map_cache.rs: write_simple_hashmap_cache, parse_simple_hashmap_cache", "rustfst/src/algorithms/lazy/cache/utils_serialization.rs", "rustfst/src/algorithms/lazy/cache/utils_parsing.rs", "rustfst/src/algorithms/lazy/state_table.rs: StateTable::write_binary, StateTable::parse_binary", "rustfst/src/algorithms/compose/compose_fst_op.rs: ComposeFstOpState::read, ComposeFstOpState::write", "rustfst/src/algorithms/compose/compose_fst.rs: ComposeFst::new_with_options_and_cache"]}
{"id": "C78", "title": "Clones and kept transition lists are independent of later changes", "statement": "get_trs hands out a list of transitions without copying it, and clones of a ConstFst share their transitions. Still, no object ever changes behind its holder's back: an FST does not change when a clone of it or a transition list taken from it is changed, a kept transition list does not change when the FST it came from is changed, converted, consumed or dropped, and every call reads and gives back what it would if each object had its own copy of its data. Memory is freed with its last holder and never before; a sole holder is changed in place.", "quantifier": "all programs: any number of FSTs and transition lists, all mutators of VectorFst and TrsVec, clone, shallow_clone, to_trs_vec, get_trs, reserve, conversion to ConstFst, fst_into_iter and drop, in any order", "why_tests_cant": "Whether a change is made in place or on a copy depends on the number of pointers alive at that moment, that is on the whole history of the program.", "anchors": ["rustfst/src/trs.rs: TrsVec, TrsConst, shallow_clone, Clone", "rustfst/src/fst_impls/vector_fst/mutable_fst.rs", "rustfst/src/fst_impls/vector_fst/fst.rs: get_trs", "rustfst/src/fst_impls/vector_fst/allocable_fst.rs", "rustfst/src/fst_impls/vector_fst/iterators.rs: fst_into_iter", "rustfst/src/fst_impls/const_fst/converters.rs", "rustfst/src/fst_impls/const_fst/iterators.rs: fst_into_iter", "rustfst/src/fst_impls/const_fst/fst.rs: get_trs"]}
{"id": "C79", "title": "Composing with look-ahead and pushed labels gives the composition", "statement": "A composition that looks ahead may also push labels: where the look-ahead finds that only one transition of the other FST can come next, this transition is taken at once, and the FST looked from reads the label later. The result is still the composition of the two FSTs: for every pair of paths with a common middle string exactly one path, with the same strings and the product of the weights, and no others; also when weights are pushed at the same time. A matcher that is told to treat a label like epsilon gives the transitions with this label together with the epsilon transitions, or the loop in their place.", "quantifier": "all pairs of FSTs, with cycles and epsilons on both sides, the numbering of labels chosen by the library, all weights of a commutative semiring (for pushed weights: those that can be divided and are kept by quantize)", "why_tests_cant": "Whether a label may be pushed depends on all paths that could follow in both FSTs, and reading it later on all paths of the other FST.", "anchors": ["rustfst/src/algorithms/compose/lookahead_filters/push_labels_compose_filter.rs: PushLabelsComposeFilter, pushed_label_filter_tr, push_label_filter_tr, set_state, filter_final", "rustfst/src/algorithms/compose/matchers/multi_eps_matcher.rs: MultiEpsMatcher, IteratorMultiEpsMatcher, CompactSet", "rustfst/src/algorithms/compose/lookahead_matchers/label_lookahead_matcher.rs: lookahead_fst, lookahead_label", "rustfst/src/algorithms/compose/lookahead_matchers/mod.rs: default_lookahead_prefix", "rustfst/src/algorithms/compose/compose_fst_op.rs"]}
