{
 "claims": [
  {
   "property": "C01",
   "status": "proved",
   "theorems": [
    "Verif.C01_start_exists",
    "Verif.C01_well_formed"
   ],
   "note": "All histories of the 22 modelled mutators from new(), failed calls included. Targets exist whenever only existing targets were given."
  },
  {
   "property": "C02",
   "status": "proved",
   "theorems": [
    "Verif.C02_counters_exact"
   ],
   "note": "All histories, including del_states, del_trs_id_sorted, set_trs, tr_iter_mut updates and sort/unique/sum of transitions."
  },
  {
   "property": "C03",
   "status": "proved",
   "theorems": [
    "Verif.C03_step",
    "Verif.C03_flags_truthful",
    "Verif.C03_no_contradiction",
    "Verif.C03_setTrs_stale"
   ],
   "note": "For histories in which set_trs_unchecked is only used on states without transitions and the methods documented as not updating flags are not used; C03_setTrs_stale shows the first condition is needed."
  },
  {
   "property": "C04",
   "status": "proved",
   "theorems": [
    "Verif.C04_del_states",
    "Verif.C04_numbering",
    "Verif.C04_del_state",
    "Verif.C04_del_states_panics"
   ],
   "note": "Well-formed FSTs, any list of existing states. A missing state makes del_states panic (witness)."
  },
  {
   "property": "C05",
   "status": "partial",
   "theorems": [
    "Verif.C05_mutators_fail_cleanly",
    "Verif.C05_tr_iter_mut_fails_cleanly",
    "Verif.C05_queries_fail_cleanly",
    "Verif.C05_set_nextstate_not_clean",
    "Verif.C05_set_nextstate_partial"
   ],
   "note": "Proved for all methods named in the property and for the other tr_iter_mut updates; for set_nextstate the claim is false (flags are reduced before the index test): witness plus the part that holds."
  },
  {
   "property": "C06",
   "status": "proved",
   "theorems": [
    "Verif.C06_add_state",
    "Verif.C06_add_states",
    "Verif.C06_set_start",
    "Verif.C06_set_final",
    "Verif.C06_delete_final",
    "Verif.C06_add_tr",
    "Verif.C06_delete_trs",
    "Verif.C06_set_trs",
    "Verif.C06_tr_iter_mut"
   ],
   "note": ""
  },
  {
   "property": "C07",
   "status": "partial",
   "theorems": [
    "Verif.C07_compute",
    "Verif.C07_update",
    "Verif.C07_check",
    "Verif.C07_no_start",
    "Verif.C07_zero_final"
   ],
   "note": "Full traversal (Tarjan) and scan, every mask, for well-formed FSTs with true stored flags that have a start state (or are empty) and no explicit zero final weight. Both conditions are needed: witnesses C07_no_start and C07_zero_final show the code reports false flags without them."
  },
  {
   "property": "C08",
   "status": "proved",
   "theorems": [
    "Verif.C08_bijection"
   ],
   "note": "Every table reached from new() or empty() by any history of add_symbol, add_symbols, add_table (of any other such table): len/labels/symbols/get_label/get_symbol/contains_* agree and form a bijection onto 0..len, and exactly the symbols that were added are present. The bimap is a function String -> Option Nat plus a list of names."
  },
  {
   "property": "C09",
   "status": "proved",
   "theorems": [
    "Verif.C09_stability"
   ],
   "note": "Any further history of additions keeps every label and symbol of the earlier table."
  },
  {
   "property": "C10",
   "status": "proved",
   "theorems": [
    "Verif.C10_paths",
    "Verif.C10_relation",
    "Verif.C10_structure",
    "Verif.C10_involution",
    "Verif.C10_flags"
   ],
   "note": "Multisets of accepting paths of every length, hence relation and weights."
  },
  {
   "property": "C11",
   "status": "proved",
   "theorems": [
    "Verif.C11_paths",
    "Verif.C11_structure",
    "Verif.C11_flags"
   ],
   "note": ""
  },
  {
   "property": "C12",
   "status": "proved",
   "theorems": [
    "Verif.C12_tr_sort",
    "Verif.C12_paths",
    "Verif.C12_flags"
   ],
   "note": "Sortedness, stability, per-state multiset and path multiset preserved."
  },
  {
   "property": "C13",
   "status": "partial",
   "theorems": [
    "Verif.C13_tr_sum",
    "Verif.C13_tr_sum_language",
    "Verif.C13_tr_sum_flags",
    "Verif.C13_tr_unique",
    "Verif.C13_tr_unique_accepts",
    "Verif.C13_tr_unique_language",
    "Verif.C13_tr_unique_flags",
    "Verif.C13_tr_unique_not_unique",
    "Verif.C13_tr_unique_nodup_partial"
   ],
   "note": "tr_sum fully proved. tr_unique removes only exact duplicates (proved) but can leave duplicates behind because its sort ignores weights: witness, plus the part that holds."
  },
  {
   "property": "C14",
   "status": "partial",
   "theorems": [
    "Verif.C14_union_full",
    "Verif.C14_union_paths",
    "Verif.C14_union",
    "Verif.C14_union_initial_acyclic",
    "Verif.C14_union_new_start",
    "Verif.C14_union_empty",
    "Verif.C14_flags",
    "Verif.C14_no_start_defect"
   ],
   "note": "The complete function, including the traversal that decides where the second FST is attached. A left operand that has states but no start state makes the code lose the right operand: witness C14_no_start_defect; that case is excluded in the theorems."
  },
  {
   "property": "C15",
   "status": "proved",
   "theorems": [
    "Verif.C15_concat_paths",
    "Verif.C15_concat",
    "Verif.C15_flags"
   ],
   "note": "Path multisets by length, relation, and flags; includes operands without start state."
  },
  {
   "property": "C16",
   "status": "proved",
   "theorems": [
    "Verif.C16_plus_paths",
    "Verif.C16_star_paths",
    "Verif.C16_plus",
    "Verif.C16_star",
    "Verif.C16_flags",
    "Verif.C16_wf"
   ],
   "note": "Path multisets by length and relation."
  },
  {
   "property": "C17",
   "status": "proved",
   "theorems": [
    "Verif.C17_paths",
    "Verif.C17_reverse",
    "Verif.C17_structure",
    "Verif.C17_flags"
   ],
   "note": "Any weight reversal that is an anti-homomorphism."
  },
  {
   "property": "C18",
   "status": "proved",
   "theorems": [
    "Verif.C18_connect",
    "Verif.C18_paths",
    "Verif.C18_trim",
    "Verif.C18_wf",
    "Verif.C18_flags",
    "Verif.C18_panics"
   ],
   "note": "Every well-formed FST, including FSTs without start state. A transition to a missing state makes the traversal panic (C18_panics)."
  },
  {
   "property": "C19",
   "status": "proved",
   "theorems": [
    "Verif.C19_acyclic",
    "Verif.C19_cyclic",
    "Verif.C19_paths",
    "Verif.C19_flags",
    "Verif.C19_no_start"
   ],
   "note": "Every well-formed FST with a start state; C19_no_start: on a non-empty FST without start state top_sort fails."
  },
  {
   "property": "C20",
   "status": "partial",
   "theorems": [
    "Verif.C20_state_sort",
    "Verif.C20_paths",
    "Verif.C20_bad_length",
    "Verif.C20_flags",
    "Verif.C20_no_start"
   ],
   "note": "Every permutation and every well-formed FST with a start state. Without a start state the code returns Ok and leaves the states unsorted: witness C20_no_start."
  },
  {
   "property": "C21",
   "status": "partial",
   "theorems": [
    "Verif.C21_super_final",
    "Verif.C21_rm_final_epsilon_partial",
    "Verif.C21_rm_final_epsilon_total_partial",
    "Verif.C21_zero_sum_defect",
    "Verif.C21_order_defect"
   ],
   "note": "add_super_final_state: all well-formed FSTs. rm_final_epsilon: commutative semirings in which a+b=0 only for a=0; C21_zero_sum_defect shows the claim false without that (the old final weight is kept when the sum is zero), C21_order_defect that the code multiplies in the wrong order for non-commutative semirings."
  },
  {
   "property": "C22",
   "status": "partial",
   "theorems": [
    "Verif.C22_encode",
    "Verif.C22_encode_flags",
    "Verif.C22_decode_flags",
    "Verif.C22_round_trip_weights",
    "Verif.C22_round_trip_labels_partial",
    "Verif.C22_encode_no_start",
    "Verif.C22_decode_epsilon_panics"
   ],
   "note": "Full for FSTs with a start state when weights are encoded. With labels only, decode ends in rm_final_epsilon, which is only correct over commutative zero-sum-free semirings (C21). False of the code: FSTs without a start state are not encoded (counterexample proved)."
  },
  {
   "property": "C23",
   "status": "proved",
   "theorems": [
    "Verif.C23_relabel_pairs",
    "Verif.C23_duplicate",
    "Verif.C23_paths"
   ],
   "note": "Unbounded in the FST and the pair lists. The path statement needs that epsilon is not itself remapped; the structural one has no condition."
  },
  {
   "property": "C24",
   "status": "proved",
   "theorems": [
    "Verif.C24_vector_round_trip",
    "Verif.C24_vector_general",
    "Verif.C24_vector_cut",
    "Verif.C24_const_round_trip",
    "Verif.C24_const_cut",
    "Verif.C24_read_from_const",
    "Verif.C24_zero_final",
    "C24_string_weight",
    "C24_string_weight_collision",
    "C24_product_weight",
    "C24_union_weight"
   ],
   "note": "For every weight codec that reads what it writes; instances given for integer, string, product and union (gallic) weights. Round trip exact when no final weight is zero and numbers fit the 32/64-bit fields; C24_vector_general says what is read back otherwise and C24_zero_final is the witness that Some(zero) comes back as None. Cut files are errors, never a different FST."
  },
  {
   "property": "C25",
   "status": "proved",
   "theorems": [
    "Verif.C25_round_trip",
    "Verif.C25_general",
    "Verif.C25_flags",
    "Verif.C25_start_defect",
    "Verif.C25_lost_states",
    "Verif.C25_garbage_ignored",
    "C25_string_weight",
    "C25_string_final",
    "C25_product_weight",
    "C25_union_weight",
    "C25_infinity_row",
    "C25_product_infinity_defect"
   ],
   "note": "For every weight whose printed form is read back (instances proved for integer, string, product and union weights; printing of floats is not modelled). C25_general says what is read back for any FST with a start state; the defects are the cases outside the round trip: start without transitions, trailing unmentioned states, no start, malformed lines."
  },
  {
   "property": "C26",
   "status": "proved",
   "theorems": [
    "Verif.C26_binary_round_trip",
    "Verif.C26_binary_cut",
    "Verif.C26_invalid_utf8_panics",
    "Verif.C26_text_round_trip",
    "Verif.C26_text_space_defect"
   ],
   "note": "Binary: every table with strings that fit; cut files are errors, except that invalid UTF-8 panics. Text: every table whose symbols have no space, tab or line break; a symbol with a space silently truncates the table that is read."
  },
  {
   "property": "C27",
   "status": "proved",
   "theorems": [
    "Verif.C27_same",
    "Verif.C27_total",
    "Verif.C27_flags",
    "Verif.C27_to_trs_vec_defect"
   ],
   "note": "All queries of the Fst trait agree; to_trs_vec does not (defect)."
  },
  {
   "property": "C28",
   "status": "partial",
   "theorems": [
    "C28_boolean",
    "C28_integer",
    "C28_integer_wrapping",
    "C28_probability",
    "C28_tropical",
    "C28_log",
    "C28_log_plus",
    "C28_string_left",
    "C28_string_right",
    "C28_string_restrict",
    "C28_string_sides",
    "C28_product",
    "C28_gallic_products",
    "C28_gallic",
    "C28_gallic_infinity_defect",
    "C28_gallic_min_defect",
    "C28_gallic_min_partial",
    "C28_float_equality_defect",
    "Verif.C28_boolean_flags",
    "Verif.C28_tropical_flags",
    "Verif.C28_integer_flags",
    "Verif.C28_integer_wrapping_flags",
    "Verif.C28_probability_flags",
    "Verif.C28_log_flags",
    "Verif.C28_string_left_flags",
    "Verif.C28_string_right_flags",
    "Verif.C28_string_restrict_flags"
   ],
   "note": "All advertised laws for every weight type (floats as exact numbers, log over an ordered exponential field). Partial only because the code itself violates commutativity of ⊕ for GallicWeightMin on ties (C28_gallic_min_defect; the rest is C28_gallic_min_partial). The PowerWeight Semiring impl is commented out in the code and is not modelled."
  },
  {
   "property": "C29",
   "status": "proved",
   "theorems": [
    "C29_tropical",
    "C29_log",
    "C29_probability",
    "C29_string",
    "C29_string_zero_panics",
    "C29_string_unchecked",
    "C29_product",
    "C29_gallic"
   ],
   "note": "Every weight type with a division; division of a string by a non-prefix is not checked by the code (C29_string_unchecked) and by zero panics (C29_string_zero_panics)."
  },
  {
   "property": "C30",
   "status": "proved",
   "theorems": [
    "C30_left",
    "C30_right",
    "C30_restrict",
    "C30_natural_order"
   ],
   "note": "Longest common prefix/suffix characterised independently; natural order; restricted plus."
  },
  {
   "property": "C31",
   "status": "proved",
   "theorems": [
    "Verif.C31_reweight_initial",
    "Verif.C31_reweight_final",
    "Verif.C31_reweight_exact",
    "Verif.C31_push_initial",
    "Verif.C31_push_final",
    "Verif.C31_push_normalised",
    "Verif.C31_accepts",
    "Verif.C31_weightOf",
    "Verif.C31_tropical",
    "Verif.C31_noncommutative_defect",
    "Verif.C31_not_normalised"
   ],
   "note": "reweight in both directions keeps the paths of nonzero weight (and all paths when no potential is zero), delayed by one transition if a start state is added; push_weights in both directions, with and without removal of the total weight. Towards the final states the potential has to commute with the final weights (C31_noncommutative_defect shows why); normalisation needs every state to have a live path (C31_not_normalised). Float weights idealised; label pushing is not modelled."
  },
  {
   "property": "C32",
   "status": "proved",
   "theorems": [
    "Verif.C32_shortest_distance",
    "Verif.C32_any_queue",
    "Verif.C32_topological_queue",
    "Verif.C32_reverse",
    "Verif.C32_tropical",
    "Verif.C32_refused",
    "Verif.C32_self_loop_defect"
   ],
   "note": "Termination and exact distances: acyclic FSTs over any right semiring with the automatic (topological) queue, and any FST over idempotent weights whose cycles add nothing, with every lawful queue; both directions. approx_equal is taken as exact equality; ShortestFirstQueue needs the external heap and is not modelled. The defect theorem shows the enqueued[state] bug for non-idempotent weights with a self-loop."
  },
  {
   "property": "C33",
   "status": "proved",
   "theorems": [
    "Verif.C33_path_equation",
    "Verif.C33_star",
    "Verif.C33_acyclic",
    "Verif.C33_panics",
    "Verif.C33_tropical_defect"
   ],
   "note": "The equation needs the closure to satisfy a* = 1 + a a* on the pivots; tropical, log and integer closures do not always (C54), and C33_tropical_defect shows the wrong result for tropical weights."
  },
  {
   "property": "C34",
   "status": "proved",
   "theorems": [
    "Verif.C34_shortest_path",
    "Verif.C34_tropical",
    "Verif.C34_refused"
   ],
   "note": "shortest_path with n = 1, over any semiring with the path property where cycles add nothing (in particular tropical weights that are not negative, and any FST without cycles). The loop, with the queue the code selects, ends; the result has exactly one accepting path, that path is an accepting path of the input with the same labels and weight, and no accepting path of the input is better. If all accepting paths have weight zero the result is empty. Flags of the result are true. n > 1 is not modelled."
  },
  {
   "property": "C35",
   "status": "proved",
   "theorems": [
    "Verif.C35_rm_epsilon",
    "Verif.C35_tropical",
    "Verif.C35_lazy",
    "Verif.C35_startless",
    "Verif.C35_stale_distance",
    "Verif.C35_panics"
   ],
   "note": "Weights idealised as an exact semiring with exact comparison. Hypothesis EpsPositive (no vanishing epsilon weight) is necessary: C35_stale_distance and C35_panics show what the code does without it. The lazy operation is proved for idempotent weights (it uses a FIFO queue)."
  },
  {
   "property": "C36",
   "status": "proved",
   "theorems": [
    "Verif.C36_caches",
    "Verif.C36_table_op",
    "Verif.C36_history",
    "Verif.C36_repeat",
    "Verif.C36_counts",
    "Verif.C36_counts_unasked",
    "Verif.C36_threads"
   ],
   "note": "LazyFst over SimpleVecCache, SimpleHashMapCache and FirstCache, all fair query histories (queries about states learnt from answers, also with the cache cleared), all operations obeying OpLaw; state-table operations obey it. C36_threads covers all interleavings of the atomic steps of concurrent queries. The counting queries (num_trs, num_input_epsilons, num_output_epsilons) fail until get_trs was asked: C36_counts_unasked. LazyFst2 is not modelled."
  },
  {
   "property": "C37",
   "status": "proved",
   "theorems": [
    "Verif.C37_state_table",
    "Verif.C37_factor_weight",
    "Verif.C37_unknown_id"
   ],
   "note": "All histories of requests, BiHashMap/StateTable and FactorWeightStateTable. Ids are unbounded naturals."
  },
  {
   "property": "C38",
   "status": "proved",
   "theorems": [
    "Verif.C38_compute",
    "Verif.C38_paths",
    "Verif.C38_states_iter",
    "Verif.C38_ends",
    "Verif.C38_present",
    "Verif.C38_returns"
   ],
   "note": "compute and states_iter at any point of any fair history, all lawful caches and operations with finitely many reachable tuples; compute ends exactly in that case, and its result is the reachable part of the machine with one state for each tuple. Symbol tables and LazyFst2 are not modelled."
  },
  {
   "property": "C39",
   "status": "proved",
   "theorems": [
    "Verif.C39_compose",
    "Verif.C39_filters",
    "Verif.C39_plain_filters",
    "Verif.C39_unsorted",
    "Verif.C39_relation",
    "Verif.C39_weights",
    "Verif.C39_trivial_duplicates",
    "Verif.C39_noMatch_duplicates",
    "Verif.C39_null_loses",
    "Verif.C39_noLabel_defect"
   ],
   "note": "Over any commutative monoid with zero: the default composition (sequence filter, sorted matchers, connect) ends without error and its paths, grouped by the numbers of transitions of each operand, are exactly the joined pairs of paths with multiplicity, paths of weight zero aside; the same for the alternative sequence and match filters, with or without connect, and for the null, trivial and no-match filters without ε on the middle tape (with witnesses that they lose or repeat paths otherwise). Hypotheses: well-formed operands, exact ε counters, truthful sort flags, one set, and no label u32::MAX on the middle tape (witness that it is needed). Sigma, multi-ε and lookahead matchers are not modelled."
  },
  {
   "property": "C40",
   "status": "proved",
   "theorems": [
    "Verif.C40_replace",
    "Verif.C40_exact",
    "Verif.C40_weights",
    "Verif.C40_ends",
    "Verif.C40_returns",
    "Verif.C40_lazy",
    "Verif.C40_root",
    "Verif.C40_rank",
    "Verif.C40_diverges"
   ],
   "note": "The paths of the result are those of the recursive transition network of the list (Spec/Replace): every call is carried out by a successful path of the FST called. For all lists of well formed FSTs, options as in ReplaceFstOptions::new. The static replace ends iff no FST can come to call itself (C40_ends); the lazy one is right with recursion too (C40_lazy). Paths of weight zero aside, exact when no final weight is zero (C40_exact)."
  },
  {
   "property": "C41",
   "status": "proved",
   "theorems": [
    "Verif.C41_total",
    "Verif.C41_paths",
    "Verif.C41_finite",
    "Verif.C41_iterators",
    "Verif.C41_mode",
    "Verif.C41_acceptor_defect"
   ],
   "note": "For all well-formed FSTs and factor iterators whose factors multiply back. Hypotheses: quantization leaves second factors unchanged (true of all iterators of the library when it keeps one), transitions for final weights carry epsilon, and the set of reachable elements is finite (proved for acyclic inputs and for factoring final weights only). The factorings of the library are shown to meet the hypotheses."
  },
  {
   "property": "C42",
   "status": "proved",
   "theorems": [
    "Verif.C42_determinize",
    "Verif.C42_returns",
    "Verif.C42_acyclic",
    "Verif.C42_finitely_many",
    "Verif.C42_tropical",
    "Verif.C42_tropical_unweighted",
    "Verif.C42_log",
    "Verif.C42_prob",
    "Verif.C42_order_defect",
    "Verif.C42_quantize_defect",
    "Verif.C42_zero_defect",
    "Verif.C42_coaccessible_defect",
    "Verif.C42_diverges"
   ],
   "note": "For all acceptors with good transition weights, all orders of the hash maps: strictly increasing labels at each state and the same weight of each string for each path length, whenever determinize returns; it returns exactly when finitely many weighted subsets arise (proved for acyclic inputs and finitely many weights; C42_diverges shows a case where it does not). Tropical weights with quantization on the delta grid; log and probability weights with quantization idealised away. Not modelled: in_dist/out_dist, transducers through gallic weights."
  },
  {
   "property": "C43",
   "status": "partial",
   "theorems": [
    "Verif.C43_ends",
    "Verif.C43_renaming",
    "Verif.C43_paths",
    "Verif.C43_isomorphic_partial",
    "Verif.C43_complete",
    "Verif.C43_one_way_not_enough",
    "Verif.C43_false_negative"
   ],
   "note": "True answers imply the same paths (proved in full) and a naming of accessible states that is onto; it need not be injective, because pair_state does not check that two states are paired with different states (witness). True both ways round gives an isomorphism. Completeness proved for FSTs without two like transitions in a state; with such transitions Ok(false) may be returned for isomorphic FSTs (witness). Weights compared exactly in the last two."
  },
  {
   "property": "C44",
   "status": "partial",
   "theorems": [
    "Verif.C44_normalize",
    "Verif.C44_member",
    "Verif.C44_union",
    "Verif.C44_singleton",
    "Verif.C44_diverges",
    "Verif.C44_not_normalized"
   ],
   "note": "Proved for lists of non-empty intervals (begin < end). For lists with an empty interval the property is false: C44_diverges. member and singleton are stated for normalized sets, as documented in the code."
  },
  {
   "property": "C45",
   "status": "proved",
   "theorems": [
    "Verif.C45_history",
    "Verif.C45_refines",
    "Verif.C45_smaller_half",
    "Verif.C45_move_marked",
    "Verif.C45_init_pending"
   ],
   "note": "Refinement of the linked-list implementation to an abstract class map for all valid histories. Preconditions (an element is added once; marked elements are not moved; no initialize between split_on and finalize_split) are part of the specification; the last two are shown to be necessary."
  },
  {
   "property": "C46",
   "status": "partial",
   "theorems": [
    "Verif.C46_key",
    "Verif.C46_state_order",
    "Verif.C46_top_order",
    "Verif.C46_fifo",
    "Verif.C46_lifo",
    "Verif.C46_auto",
    "Verif.C46_heap",
    "Verif.C46_heap_reach",
    "Verif.C46_state_order_head_defect",
    "Verif.C46_scc_order_defect",
    "Verif.C46_shortest_first",
    "Verif.C46_shortest_first_update_defect",
    "Verif.C46_natural_first_reversed",
    "Verif.C46_natural_first_defect"
   ],
   "note": "All queues on any history, and the heap of the n-best search. ShortestFirstQueue is proved over any heap that does what the external crate documents. Partial because false of the code: update of a ShortestFirstQueue panics, and NaturalShortestFirstQueue delivers the state with the greatest distance first (proved for all histories with different distances, with a witness)."
  },
  {
   "property": "C47",
   "status": "proved",
   "theorems": [
    "Verif.C47_paths_iter",
    "Verif.C47_any"
   ],
   "note": "C47_any covers FSTs with cycles: every path is yielded after finitely many calls."
  },
  {
   "property": "C48",
   "status": "proved",
   "theorems": [
    "Verif.C48_transducer",
    "Verif.C48_transducer_roundtrip",
    "Verif.C48_acceptor",
    "Verif.C48_acceptor_roundtrip",
    "Verif.C48_epsilon_machine",
    "Verif.C48_decode",
    "Verif.C48_decode_nothing",
    "Verif.C48_flags"
   ],
   "note": "The roundtrip is for labels other than epsilon; the general theorems say what epsilon labels leave."
  },
  {
   "property": "C49",
   "status": "partial",
   "theorems": [
    "Verif.C49_check_path_partial",
    "Verif.C49_found_partial",
    "Verif.C49_sound_partial",
    "Verif.C49_wrong_yes",
    "Verif.C49_wrong_no",
    "Verif.C49_panics",
    "Verif.C49_startless"
   ],
   "note": "The property is false of the code: output labels are compared at the index of the input labels (witnesses C49_wrong_yes, C49_wrong_no, C49_panics), and an FST without start is said to contain the empty path (C49_startless). The partial theorems cover FSTs whose transitions have epsilon on both sides or on neither, e.g. acceptors."
  },
  {
   "property": "C50",
   "status": "partial",
   "theorems": [
    "Verif.C50_tr_map_partial",
    "Verif.C50_simple",
    "Verif.C50_identity",
    "Verif.C50_rm_weight",
    "Verif.C50_times",
    "Verif.C50_plus",
    "Verif.C50_flags_weights",
    "Verif.C50_input_epsilon_partial",
    "Verif.C50_output_epsilon_partial",
    "Verif.C50_input_epsilon_defect",
    "Verif.C50_require_zero_defect",
    "Verif.C50_no_start"
   ],
   "note": "All FSTs with a start state, all mappers (stateful or not) and final actions. Missing because false of the code: a MapRequireSuperfinal mapper that returns an unlabelled zero leaves the old final weight in place; a startless FST is not mapped; the epsilon mappers claim I_EPSILONS/O_EPSILONS on FSTs without transitions. Each is proved as a counterexample."
  },
  {
   "property": "C51",
   "status": "partial",
   "theorems": [
    "Verif.C10_flags",
    "Verif.C11_flags",
    "Verif.C12_flags",
    "Verif.C13_tr_sum_flags",
    "Verif.C13_tr_unique_flags",
    "Verif.C14_flags",
    "Verif.C15_flags",
    "Verif.C16_flags",
    "Verif.C17_flags",
    "Verif.C20_flags",
    "Verif.C14_union_full",
    "Verif.C18_flags",
    "Verif.C19_flags",
    "Verif.C21_super_final",
    "Verif.C21_rm_final_epsilon_partial",
    "Verif.C53_condense",
    "Verif.C50_flags_weights",
    "Verif.C50_rm_weight",
    "Verif.C50_times",
    "Verif.C50_plus",
    "Verif.C50_identity",
    "Verif.C50_input_epsilon_partial",
    "Verif.C22_encode_flags",
    "Verif.C22_decode_flags",
    "Verif.C23_relabel_pairs",
    "Verif.C52_convert_partial",
    "Verif.C34_shortest_path",
    "Verif.C31_reweight_initial",
    "Verif.C31_reweight_final",
    "Verif.C31_push_initial",
    "Verif.C31_push_final",
    "Verif.C35_rm_epsilon",
    "Verif.C48_flags",
    "Verif.C40_flags_partial",
    "Verif.C40_not_top_sorted_defect",
    "Verif.C40_unused_defect",
    "Verif.C40_ilabel_sorted_defect",
    "Verif.C40_olabel_sorted_defect",
    "Verif.C40_not_acceptor_defect",
    "Verif.C40_not_deterministic_defect",
    "Verif.C40_coaccessible_defect",
    "Verif.C42_flags",
    "Verif.C42_string_defect",
    "Verif.C42_coaccessible_defect",
    "Verif.C41_flags",
    "Verif.C41_acceptor_defect",
    "Verif.C41_coaccessible_defect",
    "Verif.C39_flags",
    "Verif.C57_acceptor_minimize",
    "Verif.C60_to_gallic",
    "Verif.C60_from_gallic_flags",
    "Verif.C62_minimize",
    "Verif.C63_n_shortest",
    "Verif.C65_weighted",
    "Verif.C65_unweighted",
    "Verif.C72_delayed",
    "Verif.C73_relabel_tables",
    "Verif.C64_flags_partial",
    "Verif.C64_shown_flags_partial",
    "Verif.C64_shown_flags",
    "Verif.C64_closure_weighted_cycles_defect"
   ],
   "note": "One theorem per algorithm. Partial because the code sets wrong flags for several of them: each wrong flag has a witness, and each theorem gives the flags that are always true."
  },
  {
   "property": "C52",
   "status": "partial",
   "theorems": [
    "Verif.C52_convert_partial",
    "Verif.C52_no_start_defect"
   ],
   "note": "All FSTs with a start state. Without one the code drops transitions and final weights but copies flags (counterexample proved)."
  },
  {
   "property": "C53",
   "status": "proved",
   "theorems": [
    "Verif.C53_condense",
    "Verif.C53_empty",
    "Verif.C53_no_start_panics"
   ],
   "note": "All well-formed FSTs with a start state, and the empty FST. On a non-empty FST without start state the code panics (C53_no_start_panics)."
  },
  {
   "property": "C54",
   "status": "partial",
   "theorems": [
    "C54_boolean",
    "C54_probability",
    "C54_tropical",
    "C54_tropical_zero_defect",
    "C54_log_defect",
    "C54_integer_defect"
   ],
   "note": "Proved for boolean, probability and tropical (a ≥ one or away from zero); false of the code for log, integer and tropical zero, with witnesses."
  },
  {
   "property": "C55",
   "status": "proved",
   "theorems": [
    "C55_string",
    "C55_gallic"
   ],
   "note": "String and gallic weights; numeric weights reverse to themselves (commutative). ProbabilityWeight::reverse_back is unimplemented!() in the code and is not modelled."
  },
  {
   "property": "C56",
   "status": "proved",
   "theorems": [
    "C56_quantize"
   ],
   "note": "Exact numbers."
  },
  {
   "property": "C57",
   "status": "proved",
   "theorems": [
    "Verif.C57_acceptor_minimize",
    "Verif.C57_refuses",
    "Verif.KMerge.sorted",
    "Verif.HeapMerge.of_runs",
    "Verif.C57_nondeterministic_defect",
    "Verif.C57_zero_weight_defect"
   ],
   "note": "Needs a start state unless the FST is empty, and weights that are all one. False for non-deterministic input (allow_nondet) and for transitions of weight zero: proved counterexamples."
  },
  {
   "property": "C58",
   "status": "partial",
   "theorems": [
    "Verif.C58_minimal_partial",
    "Verif.C57_acceptor_minimize",
    "Verif.C58_unsorted_defect"
   ],
   "note": "Proved for acyclic FSTs and for FSTs whose states list their transitions in one order of labels. False in general: proved counterexample with unsorted transitions."
  },
  {
   "property": "C59",
   "status": "proved",
   "theorems": [
    "Verif.C59_weighted",
    "Verif.C59_minimize",
    "Verif.C59_tropical",
    "Verif.C59_refuses",
    "Verif.C59_rounding_defect"
   ],
   "note": "Exact when rounding leaves the weights alone (tropical: multiples of delta); for other weights the result has the paths of the pushed FST with each weight rounded once (C59_weighted). Nonzero weights, no ε-transition at a final state, exact comparison of distances. A new start state with an ε-transition is allowed for (delay). The rounding error of a path is not bounded (counterexample). The branch for transducers is a parameter here."
  },
  {
   "property": "C60",
   "status": "proved",
   "theorems": [
    "Verif.C60_convert",
    "Verif.C60_simple",
    "Verif.C60_to_gallic",
    "Verif.C60_to_gallic_paths",
    "Verif.C60_from_gallic",
    "Verif.C60_from_gallic_paths",
    "Verif.C60_from_gallic_flags",
    "Verif.C60_gallic_weights",
    "Verif.C60_no_start",
    "Verif.C60_from_gallic_panics",
    "Verif.C60_zero_final_defect",
    "Verif.C60_simple_flags_defect"
   ],
   "note": "Without a start state the result is the empty FST (C60_no_start). Symbol tables are not modelled here. Flags of SimpleWeightConverter: defect."
  },
  {
   "property": "C61",
   "status": "proved",
   "theorems": [
    "Verif.C61_nonfunctional",
    "Verif.C61_nonfunctional_returns",
    "Verif.C61_functional",
    "Verif.C61_functional_ok",
    "Verif.C61_disambiguate",
    "Verif.C61_tropical",
    "Verif.C61_zero_final",
    "Verif.C61_dead_defect"
   ],
   "note": "For weights with exact division (tropical weights on the rounding grid, log and probability weights without rounding). Paths may be longer by the labels of final strings: SameWeightsDelayed. Gallic weights are restricted to their proper values (no infinite string with a nonzero weight, union weights normalised), which the operations preserve. Functional inputs must be free of dead states, otherwise the code may reject them (C61_dead_defect); final weights zero are rejected (C61_zero_final). The flags of the result are not covered."
  },
  {
   "property": "C62",
   "status": "proved",
   "theorems": [
    "Verif.C62_minimize",
    "Verif.C62_tropical",
    "Verif.C62_transducer",
    "Verif.C62_cycle_defect"
   ],
   "note": "Acyclic deterministic transducers over weights with weak division (MinLaw), with rounding that is exact on them; instantiated for tropical weights. For transducers with cycles the property is false: C62_cycle_defect is a witness."
  },
  {
   "property": "C63",
   "status": "proved",
   "theorems": [
    "Verif.C63_n_shortest",
    "Verif.C63_tropical",
    "Verif.C63_other"
   ],
   "note": "Exact comparison of weights (delta = 0) and unique = false. The heap, the comparison with rounding removed, the reversed FST and the distances are those of the code."
  },
  {
   "property": "C64",
   "status": "proved",
   "theorems": [
    "Verif.C64_union",
    "Verif.C64_concat",
    "Verif.C64_closure",
    "Verif.C64_accepts",
    "Verif.C64_name_defect"
   ],
   "note": "The condition on the labels is needed: C64_name_defect shows an operand with the output label u32::MAX - 1, which the delayed union takes for a call. Symbol tables are not modelled here."
  },
  {
   "property": "C65",
   "status": "proved",
   "theorems": [
    "Verif.C65_weighted",
    "Verif.C65_unweighted",
    "Verif.C65_only_paths",
    "Verif.C65_startless",
    "Verif.C65_uniform",
    "Verif.C65_tropical",
    "Verif.C65ex.C65_empty_defect"
   ],
   "note": "For every selector that keeps its contract and every sequence of draws; weighted output for every W and neglog with neglog (a*b) = neglog a * neglog b (C65_tropical: -log over the reals). The empty path is written once in unweighted mode (C65_empty_defect). The distribution of the draws is not part of the model."
  },
  {
   "property": "C66",
   "status": "proved",
   "theorems": [
    "Verif.C66_states",
    "Verif.C66_compute",
    "Verif.C66_label",
    "Verif.C66_final",
    "Verif.C66_relabel_fst",
    "Verif.C66_relabel_pairs",
    "Verif.C66_reach",
    "Verif.C66_zero_defect",
    "Verif.C66_no_start_defect"
   ],
   "note": "FSTs with a start state and labels below NO_LABEL. Symbol tables dropped by relabel_fst are not modelled."
  },
  {
   "property": "C67",
   "status": "partial",
   "theorems": [
    "Verif.C67_rest",
    "Verif.C67_plain_filters",
    "Verif.C67_all_partial",
    "Verif.C67_sigma_zero",
    "Verif.C67_unsorted",
    "Verif.C67_all_defect",
    "Verif.C67_acceptor_defect"
   ],
   "note": "As stated the property is false (C67_all_defect): sigma is not matched with labels for which the state has a transition. C67_rest is the full characterisation of what the code does; C67_all_partial the stated property where no state has, beside a sigma transition, one with a label that sigma stands for."
  },
  {
   "property": "C69",
   "status": "partial",
   "theorems": [
    "Verif.C69_acyclic_acceptor_partial",
    "Verif.C69_deterministic_acceptor_partial",
    "Verif.C69_deterministic_transducer_partial",
    "Verif.C69_acceptor_panic",
    "Verif.C69_cycle_defect",
    "Verif.C69_unweighted_test_defect",
    "Verif.C69_unweighted_panic"
   ],
   "note": "As stated the property is false: optimize panics on some acceptors (C69_acceptor_panic, C69_unweighted_panic; the test for unweighted FSTs can never succeed, C69_unweighted_test_defect) and changes the language of some deterministic transducers with cycles (C69_cycle_defect). Proved for acceptors flagged acyclic (and epsilon-free or top sorted), for acceptors flagged deterministic and epsilon-free with non-negative weights, and for transducers flagged acyclic, deterministic and epsilon-free. Missing: the transducers that optimize encodes first."
  },
  {
   "property": "C68",
   "status": "proved",
   "theorems": [
    "Verif.C68_lookahead",
    "Verif.C68_push_weights",
    "Verif.C68_label_output",
    "Verif.C68_label_input",
    "Verif.C68_label_push_output",
    "Verif.C68_label_push_input",
    "Verif.C68_needs_relabeling",
    "Verif.C68_sequence_output_fails",
    "Verif.C68_non_epsilons_fails",
    "Verif.C68_sorted_panics",
    "Verif.C68_push_quantized"
   ],
   "note": "The conditions in the statement are needed: the last five theorems show what goes wrong without relabelling, over SequenceComposeFilter, with LOOKAHEAD_NON_EPSILONS, with a SortedMatcher, and with weights off the quantization grid. tropical_push shows that finite tropical weights that are multiples of delta can be pushed. Label pushing (PushLabelsComposeFilter) is not modelled."
  },
  {
   "property": "C70",
   "status": "proved",
   "theorems": [
    "Verif.C70_initial",
    "Verif.C70_final",
    "Verif.C70_tropical",
    "Verif.C70_neither",
    "Verif.C70_affix_defect",
    "Verif.C70_cycle_defect"
   ],
   "note": "C70_initial and C70_final are for any weakly divisible semiring (C70_final: final weights commute with the others); C70_tropical is push_with_config for tropical weights in both directions. That the flags of the result are true towards the final states is shown when all states are accessible. Cyclic transducers: C70_cycle_defect shows that outputs change. One removal option alone without accepting path: C70_affix_defect shows the panic."
  },
  {
   "property": "C71",
   "status": "proved",
   "theorems": [
    "Verif.C71_unique",
    "Verif.C71_acyclic",
    "Verif.C71_tropical",
    "Verif.C71_tropical_unweighted",
    "Verif.C71_other",
    "Verif.C71_refused",
    "Verif.C71_eps_defect"
   ],
   "note": "C71_unique holds for any commutative weights with the path property that can be divided, provided the determinization of the reversed acceptor ends; C71_acyclic shows that it does without cycles, C71_tropical_unweighted without weights. With ε-transitions strings can be repeated: C71_eps_defect. For n = 1 the option is not looked at (C71_other)."
  },
  {
   "property": "C72",
   "status": "proved",
   "theorems": [
    "Verif.C72_delayed",
    "Verif.C72_tropical",
    "Verif.C72_startless",
    "Verif.C72_startless_panics"
   ],
   "note": "C72_startless_panics: without start state the states of the delayed FST cannot be asked for (start is none, compute gives the empty FST, C72_startless)."
  },
  {
   "property": "C73",
   "status": "proved",
   "theorems": [
    "Verif.C73_relabel_tables",
    "Verif.C73_failure",
    "Verif.C73_missing",
    "Verif.C73_strings",
    "Verif.C73_string_path",
    "Verif.C73_iter",
    "Verif.C73_not_atomic_defect"
   ],
   "note": "C73_strings needs label 0 to be the same symbol in the old and the new table, as in every table made by SymbolTable::new. C73_not_atomic_defect: a failing call leaves the FST partly relabelled."
  },
  {
   "property": "C74",
   "status": "proved",
   "theorems": [
    "Verif.C74_vector",
    "Verif.C74_const",
    "Verif.C74_text"
   ],
   "note": ""
  },
  {
   "property": "C75",
   "status": "proved",
   "theorems": [
    "Verif.C75_compose",
    "Verif.C75_determinize",
    "Verif.C75_factor_weight",
    "Verif.C75_replace"
   ],
   "note": ""
  },
  {
   "property": "C76",
   "status": "partial",
   "theorems": [
    "Verif.SymFst.C76_invert_partial",
    "Verif.SymFst.C76_project_input_partial",
    "Verif.SymFst.C76_project_output_partial",
    "Verif.SymFst.C76_project_identity_partial",
    "Verif.SymFst.C76_union",
    "Verif.SymFst.C76_concat",
    "Verif.SymFst.C76_closure",
    "Verif.SymFst.C76_connect",
    "Verif.SymFst.C76_reverse",
    "Verif.SymFst.C76_compose",
    "Verif.SymFst.C76_shortest_path",
    "Verif.SymFst.C76_invert_defect",
    "Verif.SymFst.C76_project_defect",
    "Verif.SymFst.C76_concat_defect",
    "Verif.SymFst.C76_compose_defect",
    "Verif.SymFst.C76_compose_no_tables",
    "Verif.SymFst.C76_no_shortest"
   ],
   "note": "invert and project do not touch the tables, so the claim is false for them unless both tapes share one table (C76_invert_defect, C76_project_defect)."
  },
  {
   "property": "C77",
   "status": "partial",
   "theorems": [
    "Verif.C77_compose",
    "Verif.C77_vec",
    "Verif.C77_map",
    "Verif.C77_history",
    "Verif.C77_cut_vec",
    "Verif.C77_cut_map",
    "Verif.C77_cut_table",
    "Verif.C77_crash_partial",
    "Verif.C77_table_newer_vec",
    "Verif.C77_table_newer_map",
    "Verif.C77_torn_defect",
    "Verif.C77_race_defect"
   ],
   "note": "Proved for saves that are complete or cut inside a file. Missing, because false: a crash between the two files (C77_torn_defect) and a hash map cache used by another thread while its entries are written (C77_race_defect)."
  },
  {
   "property": "C78",
   "status": "proved",
   "theorems": [
    "Verif.Arcs.C78_values",
    "Verif.Arcs.C78_independent",
    "Verif.Arcs.C78_clone",
    "Verif.Arcs.C78_getTrs",
    "Verif.Arcs.C78_counts",
    "Verif.Arcs.C78_in_place"
   ],
   "note": "One thread; Arc's strong counts and make_mut as documented by the standard library."
  },
  {
   "property": "C79",
   "status": "proved",
   "theorems": [
    "Verif.C79_label_output",
    "Verif.C79_label_push_output",
    "Verif.C79_label_input",
    "Verif.C79_label_push_input",
    "Verif.C79_transitions",
    "Verif.C79_transitions_push",
    "Verif.C79_multi_eps_one",
    "Verif.C79_multi_eps_list_defect",
    "Verif.C79_multi_eps_contains_defect"
   ],
   "note": "Both sides, with or without pushed weights, for label look-ahead and for TrLookAheadMatcher and TrivialLookAheadMatcher, with every set of flags the library defines for them (custom flags with LOOKAHEAD_NON_EPSILONS are only covered for TrLookAheadMatcher together with LOOKAHEAD_NON_EPSILON_PREFIX). MultiEpsMatcher is right for one label, which is all that the filter uses, and wrong for two."
  }
 ]
}