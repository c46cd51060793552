# Formal model of rustfst in Lean 4

## Trusted base
* Lean 4.33.0 kernel and the Mathlib definitions used in statements.
* Axioms: only `propext`, `Classical.choice`, `Quot.sound`. No own axioms, no `sorry`,
  no `native_decide`, no `bv_decide`.
* The hand-made correspondence between the Rust source and the Lean model. Every model definition
  cites the file and lines it models and states its simplifications.
* External crates are not modelled; what is used of them is stated where it is assumed, e.g. `HeapLaw` for the `BinaryHeap` of
  `binary_heap_plus` (C46; `sortedHeapLaw` shows that the law can be met) and `HeapMerge` for the heap in `minimize`.

## Global modelling decisions
* `StateId`/`Label` (u32) and `usize` are `Nat`; overflow at 2^32/2^64 is not modelled except in
  the binary format, where the limits appear as hypotheses. `EPS_LABEL = 0`; `NO_LABEL`/`NO_STATE_ID = u32::MAX`.
* `Vec`, slices and iterators are `List`. `Arc` sharing/copy-on-write is value semantics;
  for transition lists C78 proves this from a model with pointers and reference counts.
  `Mutex` is elided: each method body is one atomic step.
* `&mut self` methods are functions returning the new value. `Result`/`Option` stay data;
  a Rust panic is the explicit error value `Fail.panic`, an `Err` is `Fail.err`.
* Weights: algorithm models are generic in a type `W` with `Zero One Add Mul DecidableEq`; theorems
  assume Mathlib's `Semiring`/`CommSemiring` (or less) as needed. The concrete weight types are modelled
  separately and shown to satisfy the laws (C28). `f32` weights are idealised as exact numbers
  (rationals/integers with ∞): rounding and the approximate `KDELTA` comparison are not modelled.
* `FstProperties` (bitflags over u64) is a function from the enumeration of named bits to `Bool`.
* Hash maps are association lists / finite functions; where the code iterates over a hash map the
  iteration order is an arbitrary parameter.
* Symbol tables attached to FSTs are left out of the algorithm models (they are copied around by the code); `relabel_tables` and string paths (C73) and the functions of C76 have models with tables
  and are modelled on their own (C08, C09, C26) and inside the binary format (C24).
* Log output, drawing (DOT), FFI/Python bindings, CLI are not modelled.

## Specification layer (independent of the algorithm models)
* `Verif/Spec/Path.lean`: `pathsFrom f n s` / `accPaths f n` — the list (with multiplicity) of successful paths with
  exactly `n` transitions, each reduced to (input labels without ε, output labels without ε, weight product).
  Language statements are equalities of these lists up to permutation, for every `n`; they imply equality of
  the total weight of each string pair in any semiring.
* `Verif/Spec/Props.lean`: `Holds f bit` — the meaning of each property bit.
* Well-formedness `WF`, reachability `Reach`.

## Files
* `Verif/Model/*.lean` — model of the code (cited line by line).
* `Verif/Spec/*.lean` — specifications.
* `Verif/Lemmas/*.lean` — auxiliary lemmas and invariants.
* `Verif/Props/*.lean` — the property theorems, each with a non-vacuity `example`.

## Plan per property
| id | model | proof idea |
|---|---|---|
| C01 C02 C03 | all `MutableFst` mutators as functions, histories as lists of operations | invariant by induction over histories; one preservation lemma per mutator |
| C04 C05 C06 | same functions | direct, list lemmas |
| C07 | `compute_fst_properties` scan + DFS/SCC visitor as stack machine | loop invariants; Tarjan invariants |
| C08 C09 | symbol table as (list, association list) with operation histories | invariant |
| C10–C17 | rational operations and sorting/merging on `Fst` | path lists compared by induction on the length |
| C18 C19 C53 | iterative DFS with visitors | DFS invariants |
| C20 | cycle-following permutation loop | loop invariant on the permutation |
| C21–C23 | as coded | induction on paths |
| C24 C26 | writers produce `List UInt8`-like byte lists, parsers consume them | parser/printer inversion lemma per field |
| C25 | token rows and decimal text | printer/parser inversion |
| C27 | slices of a flat list | list lemmas |
| C28–C30 | each weight type | algebra |
| C31 | reweight/push as coded | telescoping product along a path |
| C32–C34 | relaxation loop with an abstract queue | loop invariant: estimates are sums of path weights; at exit nothing is left to propagate |
| C35 | expansion per state | path decomposition |
| C36–C38 | caches as finite maps with histories of queries | invariant: cached values are computed values |
| C39 | state tuples, sequence filter, sorted matcher | bijection between filtered interleavings and path pairs |
| C40 | `ReplaceFstOp` with its two tables as a lazy operation, options as in `ReplaceFstOptions::new` | the operation computes a pushdown machine; its paths are those of a recursive transition network (`Spec/Replace`), by strong induction on the number of steps; it has finitely many configurations iff no reachable call is recursive |
| C41, C43 | op definitions as coded | induction |
| C42 | subset construction over weighted subsets, the hash-map order an argument (`ord`), weight operations a record (`DetOps`) | weights of strings by induction on length; divisibility by the common divisor as a law (`DetLaw`), proved for the weights of the library; termination for acyclic or finitely weighted inputs; `C42_diverges` shows it can fail otherwise |
| C44 C45 C46 | as coded; the `BinaryHeap` of the external crate under `ShortestFirstQueue` is any heap with the documented behaviour (`HeapLaw`) | invariants over histories |
| C47–C50 C52 | as coded | induction |
| C54–C56 | closure, reverse, quantize of each weight type | algebra |
| C57–C58 | `acceptor_minimize`, `merge_states`, both partition algorithms; the heap is any run that takes a smallest label first (`HeapMerge`), the tree map a list | the partition is a bisimulation (soundness: merged states do the same steps) and coarser than equality of languages (minimality, Myhill–Nerode) |
| C59 | `minimize_with_config` for acceptors: flags, dispatch, push, quantize, encode, minimize, decode | pushing changes only weights (C31), encoding makes the FST a plain deterministic acceptor (C22), C57 on the codes, decoding restores labels, weights and final states |
| C60 | `weight_convert`, `ToGallicConverter`, `FromGallicConverter`, `SimpleWeightConverter` | loop invariant over the states (what is placed where, the superfinal state); paths by induction on their length, grouped by whether they end in an added transition |
| C61 | `determinize_fst` with the three gallic weights, `GallicCommonDivisor` | the generic law of determinization (C42) instantiated with gallic weights, whose common divisor is one label; factoring of final strings (C41) and conversion (C60) composed; functional inputs: invariant that the elements of a subset are runs with equal input; disambiguation: each selected path is a path of the input |
| C62 | the transducer branch of `minimize_with_config`: `ToGallicConverter`, weighted minimization over `GallicWeightLeft`, `factor_weight` of transitions and final weights, `FromGallicConverter` | gallic weights meet the laws of C59 with one distributive law only (left for the weights, right for the reversed ones); C59, C41 and C60 composed; useful states and paths of bounded length make the minimized acceptor acyclic, so factoring ends |
| C63 | `n_shortest_path`: the heap of pending path suffixes, `ShortestPathCompare`, the reversed FST and its distances, pruning after n visits | the tree of suffixes contains every suffix that was not pruned; the key of a suffix is at least as good as the key of each suffix that continues it (potentials), so suffixes leave the heap best first; a suffix that was pruned has n suffixes ahead of it at the same state, whose continuations are at least as good |
| C64 | `UnionFst`, `ConcatFst`, `ClosureFst`: the root FSTs and lists given to `ReplaceFst`, with the lazy replace of C40 | the paths of the network of each list are computed from the paths of the operands (the equation of iteration has one solution); C40 for the network. For C51: every flag that `properties()` shows is right of the computed FST (operands are copied into it, and a rank on the root shows that cycles stay within one copy) |
| C65 | `randgen`: sampler, uniform selector, `RandGenFstOp` with its state table and superfinal state, `LazyFst2::compute`, `RandGenVisitor` on `dfs_visit`; the random generator and the selector are arbitrary functions with a state, `-log` an arbitrary homomorphism from products | invariant of `compute`: a tree whose nodes hold the draws; samples and paths by induction on the levels; the visit of the tree writes one chain per leaf. Not modelled: the distribution of the draws, `f32` rounding of `count / nsamples` |
| C66 | `IntervalReachVisitor` on `dfs_visit`, `StateReachable::{new,new_acyclic,new_cyclic,reach}`, `LabelReachableData::{relabel,relabel_fst,relabel_pairs}`, `LabelReachable::{compute_data,transform_fst,find_intervals,reach_init,reach_label,reach_final,reach,lower_bound}`; hash maps are lists of entries in the order of insertion | invariant of the visit: the set of a finished state holds the numbers of the final states it reaches, that of an open state those of its finished successors; `condense` (C53) for cycles; invariant of `transform_fst` over the states; the entries of the map are a permutation of 1..n, kept by `relabel`; binary search. Not modelled: overflow of the 64-bit numbers |
| C67 | `SigmaMatcher` over `SortedMatcher` with its iterator (`new`, `value_openfst`, `next_openfst`, `next`), priorities and `REQUIRE_MATCH`, `MatcherConfig::create_matcher`, `compose_with_config` without `AutoFilter` | the matcher yields what a plain matcher yields on the operand with the sigma transitions copied for the labels they stand for; the rest is C39 for these operands (`Realizes`). Sigma turns out to stand for the allowed labels that the state has no transition for, so the property is proved in that form and, as stated, where no state has both |
| C68 | `TrivialLookAheadMatcher`, `TrLookAheadMatcher`, `LabelLookAheadMatcher` (over `SortedMatcher`), `lookahead_match_type`, `LookAheadComposeFilter`, `PushWeightsComposeFilter`, `ComposeFstOp` with filters that fail or change weights, `MatcherFst::new_with_relabeling` with `LabelLookAheadRelabeler` | the operation with a look-ahead filter follows the one with its inner filter (`Follows`): same states and transitions except those cut off, weights up to the potential of the pushed weight; a cut is sound since the joined path sets of the two states are empty (for label look-ahead through C66, and only where the filter has taken the epsilons of the other FST); relabelling is an injective renumbering of the middle tape. `PushLabelsComposeFilter` is C79 |
| C69 | `optimize` with its three private functions, calling the models of `rm_epsilon`, `tr_sum`, `encode`, `determinize`, `minimize`, `decode` | each branch is a chain of calls, so the theorem composes C35, C13, C42 and C59, carrying the flags that decide the branch. Two of the branches turn out wrong (a panic and a changed language), so the property is proved for acceptors flagged acyclic or deterministic and for acyclic deterministic transducers (C62). Open: the transducers that are encoded first |
| C70 | `push_with_config`, `m_labels_pushing!` for both directions, on the models of `weight_convert`, `shortest_distance`, `reweight`, `remove_weight`, `factor_weight` and the gallic semirings | the gallic FST has the paths of the transducer with the outputs in the weights; distances are potentials (C32), also those of the unweighted copy; reweighting keeps the paths (C31); the total is divided off since every weight at the start (or every final weight) has it as a factor; factoring (C41) and the way back keep them; the first component of a sum of strings is the common prefix (suffix) |
| C71 | `shortest_path_with_config` with `unique`, `determinize_with_distance` and the distances of the state table | the distance of a subset is the sum of residual weight times distance of its states; since the distances bound the transitions of the reversed FST, these bound the transitions of the determinized one, so the search of C63 finds its best paths; the determinized FST has after its first transition no ε and no two transitions with the same label, hence one path for each string, whose weight is the sum over the paths of the string (C42) |
| C72 | `RmEpsilonFst`, `RmEpsilonOp`, `LazyFst2` | each expansion leaves the state between calls in order (`Rest`), whatever was asked; the cached rows only grow, and rows that stand for the closure sums of C35 can be chosen for the states not asked for, so one FST fits all answers; `compute` collects a closed set of states; the FIFO queue gives the distances without ε-cycles too, by a potential that counts what is still pending |
| C73 | `relabel_tables`, `StringPath`, `StringPathsIterator` | loops with early exit either reach the end with every transition relabelled or stop at one that has no new label; labels on paths come from transitions and are not ε, so both tables give them the same symbols; the iterator is the one of C47 with strings attached |
| C74 | `ConstFst::from_parsed_fst_text`, `VectorFst::from_parsed_fst_text` | stable sorting keeps the order within a state, the groups of a sorted list are the states that occur, and every round of the loop extends the arrays of one explicit recursion, gaps included; flags by C07 |
| C75 | `LazyFst` over the operations of `ComposeFst`, `DeterminizeFsa`, `FactorWeightFst`, `ReplaceFst`, against `compose_with_config`, `determinize`, `factor_weight`, `replace` | both present the same machine; the translation goes through the tuples. The order of a hash map is a function of tuple and label, so a state computed a second time after the cache was cleared is assumed to see the same order |
| C76 | the tables of `invert`, `project`, `union`, `concat`, `closure`, `reverse`, `connect`, `compose`, `shortest_path` | a lift of the label theorems through `getSymbol`. False for `invert` and `project`, which forget the tables: `_partial` for FSTs with one table on both tapes. `compose`, `union` and `concat` do not compare tables |
| C77 | the files of `SimpleVecCache`, `SimpleHashMapCache` and `StateTable` (any iteration order), `LazyFst::write`, `ComposeFstOpState::read`, `ComposeFst::new_with_options_and_cache`; a crash leaves prefixes of the files | parsers read back what was written, stable parsers refuse prefixes; a simulation between interiors with the same entries carries all queries. `_partial` for crashes: between the two files the pair does not fit. Not modelled: `BufWriter`'s ignored errors when it is dropped |
| C78 | memory cells with reference counts, `Arc::new/clone/drop/make_mut`, all mutators of `VectorFst` on pointers, `TrsVec`, `TrsConst`, `ConstFst`, the objects of a program | invariant: the count of a cell is the number of its holders; each call is then the call on values (`Spec/Values`), for all programs. Not modelled: capacities, other threads, pointers to symbol tables |
| C79 | `PushLabelsComposeFilter` around `LookAheadComposeFilter` or `PushWeightsComposeFilter`, `MultiEpsMatcher` with `CompactSet`, `lookahead_label`, `ComposeFstOp` with filters that change transitions | the paths from a tuple with a pushed label are the joined paths of which the first reads that label next (`readsP`); a transition is only pushed when every other one, and ending, has no joined path (C66). Output side and input side, for `LabelLookAheadMatcher`, `TrLookAheadMatcher` (a transition it finds starts in a state from which the other FST has no epsilons) and `TrivialLookAheadMatcher` |
| C51 | masks as coded + `Holds` | one lemma per bit |

## Defects found in the code
Where a natural reading of a property is false of the code the model keeps the code's behaviour; the failure is proved
on a concrete witness (the theorem named) and the proved part is stated under the condition that excludes it.

| code | what happens | theorem |
|---|---|---|
| `set_nextstate` through `TrsIterMut`, bad index | returns an error but has already lowered the flags | C05_set_nextstate_not_clean |
| `set_trs_unchecked` | keeps stale flags | C03_setTrs_stale |
| `del_states` | panics on a state that does not exist | C04_del_states_panics |
| `compute_fst_properties` | FST without start: a self loop is reported ACYCLIC | C07_no_start |
| `compute_fst_properties` | an FST with two final states, one of weight zero, is reported STRING | C07_zero_final |
| `tr_unique` | leaves duplicates whose labels are equal but not adjacent | C13_tr_unique_not_unique |
| `union` | `fst_1` without start: the new start lacks the offset of `fst_2` | C14_no_start_defect |
| `connect` | panics on a missing target | C18_panics |
| `top_sort` | error on an acyclic FST without start | C19_no_start |
| `state_sort` | an FST without start is left unsorted | C20_no_start |
| `rm_final_epsilon` | a zero sum keeps the old weight; factors multiplied in the wrong order | C21_zero_sum_defect, C21_order_defect |
| `encode` | FST without start | C22_encode_no_start |
| `decode` | panics on label 0 | C22_decode_epsilon_panics |
| binary format | `Some(zero)` final weight is read as not final | C24_zero_final |
| binary format | string weight `[u32::MAX]` is written like `Infinity` | C24_string_weight_collision |
| binary format | invalid UTF-8 in a symbol table panics | C26_invalid_utf8_panics |
| text format | start without transitions, trailing states, malformed lines | C25_start_defect, C25_lost_states, C25_garbage_ignored |
| text format | symbols containing spaces | C26_text_space_defect |
| text format | final weight printed `Infinity,…` cuts the file | C25_product_infinity_defect |
| `TrsConst::to_trs_vec` | returns the transitions of the whole FST | C27_to_trs_vec_defect |
| `GallicWeightMin` | `plus` not commutative on ties | C28_gallic_min_defect |
| `GallicWeight` | `Infinity` beside the empty string | C28_gallic_infinity_defect |
| float weights | `==` is approximate and not transitive | C28_float_equality_defect |
| `StringWeight::divide` | panics on zero; does not check the prefix | C29_string_zero_panics, C29_string_unchecked |
| `TropicalWeight::closure` | closure(zero) = −∞ | C54_tropical_zero_defect |
| `LogWeight::closure`, `IntegerWeight::closure` | do not solve a* = 1 ⊕ a⊗a* | C54_log_defect, C54_integer_defect |
| `tr_map` | startless FST; zero final weights; `InputEpsilonMapper` | C50_no_start, C50_require_zero_defect, C50_input_epsilon_defect |
| `fst_convert` | FST without start | C52_no_start_defect |
| `condense` | panics without a start | C53_no_start_panics |
| `StateOrderQueue::head` | returns a state when the queue is empty | C46_state_order_head_defect |
| `SccQueue` | a state of a smaller component after a `dequeue`: `is_empty` wrong, `dequeue` panics (no caller does this) | C46_scc_order_defect |
| `ShortestFirstQueue::update` | panics (`unimplemented!()`) | C46_shortest_first_update_defect |
| `NaturalShortestFirstQueue` | delivers the state with the greatest distance first | C46_natural_first_defect, C46_natural_first_reversed |
| `shortest_distance` | `enqueued[state]` instead of `enqueued[nextstate]`: states behind a self-loop are lost (non-idempotent weights) | C32_self_loop_defect |
| `all_pairs_shortest_distance` | tropical weights: −∞ on the diagonal of acyclic states (closure of zero) | C33_tropical_defect |
| `reweight` to the final states | multiplies the final weight by the potential on the wrong side (non-commutative weights) | C31_noncommutative_defect |
| `push_weights` | transitions into states without a live path keep their weight: not normalised | C31_not_normalised |
| `rm_epsilon` | with an ε-transition of weight zero a distance left by an earlier source is reused: weights change | C35_stale_distance |
| `rm_epsilon` | same cause, no earlier distance: index out of range | C35_panics |
| `IntervalSet::normalize` | does not end at an empty interval | C44_diverges |
| `decode_linear_fst` | an FST without path is decoded as the empty path with weight one | C48_decode_nothing |
| `check_path_in_fst` | output labels compared at the index of the input labels: wrong answers and panics | C49_wrong_yes, C49_wrong_no, C49_panics |
| `check_path_in_fst` | an FST without start "contains" the empty path | C49_startless |
| `LazyFst::num_trs`, `num_*_epsilons` | fail for every state, also existing ones, until `get_trs` was called for it | C36_counts_unasked |
| `isomorphic` | A single answer `true` does not imply isomorphism: different states of the first FST may be paired with the same state of the second one, and the answer depends on the order of the arguments | `C43_one_way_not_enough` |
| `isomorphic` | Returns `Ok(false)`, not the documented error, for isomorphic FSTs when pairing fails at the first or second of two like transitions | `C43_false_negative` |
| `Partition::move_element` | Does not check that the element is not marked by `split_on`; if it is, the classes become inconsistent | `C45_move_marked` |
| `Partition::initialize` | Does not clear the list of visited classes: a pending split makes `finalize_split` panic | `C45_init_pending` |
| `factor_weight_properties` | Keeps `ACCEPTOR` although the labels for final weights may differ from each other | `C41_acceptor_defect` |
| `SortedMatcher`, compose filters | A transition labelled `u32::MAX` (`NO_LABEL`) on the middle tape is taken for a loop; matching paths are lost | `C39_noLabel_defect` |
| `determinize` | Subsets are compared as lists in hash-map order: one subset can become several states, the size of the result is not reproducible | `C42_order_defect` |
| `determinize` | Residual weights are rounded to multiples of `delta`; the weights of strings change | `C42_quantize_defect` |
| `determinize` | A transition of weight zero is divided by itself (not a number for tropical and log weights) | `C42_zero_defect` |
| `determinize_properties` | Keeps `COACCESSIBLE` although final weights zero are dropped | `C42_coaccessible_defect` |
| `replace` (static) | Does not end on recursive calls, not even on a tail recursion for a regular language | `C40_diverges` |
| `replace_properties` | Copies `NOT_TOP_SORTED` although the states are numbered anew | `C40_not_top_sorted_defect` |
| `replace_properties` | Takes `CYCLIC`, `WEIGHTED`, `EPSILONS`, … from FSTs of the list that are never called | `C40_unused_defect` |
| `replace_properties` | `I_LABEL_SORTED` kept when calls read nothing, although names are output labels | `C40_ilabel_sorted_defect` |
| `replace_properties` | `O_LABEL_SORTED` kept when a name is used twice | `C40_olabel_sorted_defect` |
| `replace_properties` | `NOT_ACCEPTOR`, `NOT_I_DETERMINISTIC` kept although the transition to blame is a call and loses its labels | `C40_not_acceptor_defect`, `C40_not_deterministic_defect` |
| `replace_properties` | `COACCESSIBLE` kept although there is no return from a final state of weight zero | `C40_coaccessible_defect` |
| `determinize_properties` | Keeps `IS_STRING` although final weights zero are dropped | `C42_string_defect` |
| `factor_weight_properties` | Keeps `COACCESSIBLE` although final weights zero are dropped | `C41_coaccessible_defect` |
| `minimize` with `allow_nondet` | Runs the algorithm for deterministic FSTs on non-deterministic ones; the result accepts strings the input does not accept | `C57_nondeterministic_defect` |
| `minimize` | Cyclic FSTs whose transitions are not sorted are not minimized (the first partition compares lists of labels) | `C58_unsorted_defect` |
| `minimize` | Transitions of weight zero count as unweighted, but weights are not compared: a state with such a transition is merged with one without | `C57_zero_weight_defect` |
| `minimize` | Weights are rounded once per transition, so the error of a path grows with its length | `C59_rounding_defect` |
| `weight_convert` | Without a start state the result is the empty FST: states and symbol tables are dropped | `C60_no_start` |
| `weight_convert` | Converting to gallic weights fails on a stored final weight zero | `C60_zero_final_defect` |
| `weight_convert` | `SimpleWeightConverter` keeps the flags about weights across semirings: a result may be declared weighted and unweighted at once | `C60_simple_flags_defect` |
| `determinize` | `DeterminizeFunctional` compares outputs on dead states too, and rejects functional transducers that have such states | `C61_dead_defect` |
| `minimize` | Changes the outputs of deterministic transducers with cycles: `shortest_distance` tests whether the current state, not the next one, is in the queue, and after an improving loop it forgets to enqueue | `C62_cycle_defect` |
| `UnionFst`, `ConcatFst`, `ClosureFst` | a transition of an operand with output label `u32::MAX` or `u32::MAX - 1` is taken for a call of an operand | `C64_name_defect` |
| `ClosureFst::properties` | `WEIGHTED_CYCLES` is shown for an operand whose final weights are all zero, although no cycle is made | `C64_closure_weighted_cycles_defect` |
| `randgen` | The empty path appears once in the unweighted output, however often it was drawn, so that fewer than `npath` paths come out | `C65ex.C65_empty_defect` |
| `LabelReachable::new` | A final weight zero stored at a state on a cycle of silent transitions makes the construction fail with an error | `C66_zero_defect` |
| `LabelReachable::new` | On an FST without start state the transitions are lost, so that no label is reported | `C66_no_start_defect` |
| `SigmaMatcher` | `next_openfst` tests for the end of the inner iterator one step too late, so that sigma is not matched with a label that the state also has explicitly: sigma means "rest" rather than "all" | `C67_all_defect` |
| `compose` with a sigma matcher in mode `MatcherRewriteNever` | The flag ACCEPTOR of two acceptors is kept although the result has different labels on its two sides | `C67_acceptor_defect` |
| `optimize` | An acceptor that is not flagged deterministic or acyclic is encoded by weights only and minimized as a transducer; where a label is pushed before the start state the decoding panics | `C69_acceptor_panic` |
| `optimize` | A deterministic transducer with a cycle comes out with other output strings | `C69_cycle_defect` |
| `optimize` | The test for `UNWEIGHTED` never succeeds, since `tr_sum` has just cleared the flag; so it panics on unweighted acceptors, too | `C69_unweighted_test_defect`, `C69_unweighted_panic` |
| `LabelLookAheadMatcher::new` | On FSTs that were not relabelled it looks up the labels of the other FST among its own numbers, so that composition loses paths | `C68_needs_relabeling` |
| `LookAheadComposeFilter` over `SequenceComposeFilter` with label look-ahead on the output | Epsilons of the second FST are not looked through, so that composition loses paths | `C68_sequence_output_fails` |
| Label look-ahead with `LOOKAHEAD_NON_EPSILONS` | The same also over `AltSequenceComposeFilter` | `C68_non_epsilons_fails` |
| `LookAheadComposeFilterBuilder::new` | Panics if the matcher to look ahead with is a `SortedMatcher` | `C68_sorted_panics` |
| `PushWeightsComposeFilter` | The weight kept in the filter state is quantized, the one multiplied to the transition is not; off the grid of `delta` they do not cancel and path weights change | `C68_push_quantized` |
| `push` with `PUSH_LABELS` and `REMOVE_COMMON_AFFIX` only | On an FST without accepting path the total weight zero is not recognised any more once its weight is replaced by one; the division by the infinite string panics | `C70_affix_defect` |
| `push` with `PUSH_LABELS` on an FST with a cycle | Outputs change, since `shortest_distance` tests `enqueued[state]` instead of `enqueued[nextstate]` | `C70_cycle_defect` |
| `shortest_path` with `unique` on an acceptor with ε-transitions | The determinization takes ε for an ordinary label, so the result has the same string more than once | `C71_eps_defect` |
| `RmEpsilonFst` of an FST without start state | Asking for the transitions of a state panics: the vector of distances is empty | `C72_startless_panics` |
| `relabel_tables` that fails on a later transition | The earlier transitions stay relabelled while the old tables stay attached, so paths spell other strings than before | `C73_not_atomic_defect` |
| `invert` of an FST whose tapes have different symbol tables | The tables are not exchanged, so the labels of each tape are spelled with the table of the other one | `SymFst.C76_invert_defect` |
| `project` of an FST whose tapes have different symbol tables | The other tape keeps its table, so the result is no identity on strings | `SymFst.C76_project_defect` |
| `concat`, `union` and `compose` of FSTs with different symbol tables | Not noticed; symbols of the second FST become other symbols | `SymFst.C76_concat_defect`, `SymFst.C76_compose_defect` |
| `compose` with an FST without start state; `shortest_path` with `nshortest` 0 | The result has no symbol tables, so `string_paths_iter` is an error | `SymFst.C76_compose_no_tables`, `SymFst.C76_no_shortest` |
| A process that ends between the two files of `SerializableLazyFst::write` | The new cache stays with the old state table, is loaded without an error, and states are confused (the other order would be harmless) | `C77_torn_defect`, `C77_table_newer_vec` |
| `SimpleHashMapCache::write` while another thread uses the cache | The number of entries and the entries are read under separate locks; an entry inserted in between is read back as a final weight | `C77_race_defect` |
| `MultiEpsMatcher` with two labels and `MULTI_EPS_LIST` | The iterator returns `None` after the transitions of the first label; those of the second label and the epsilons are lost | `C79_multi_eps_list_defect` |
| `MultiEpsMatcher` with two labels and `MULTI_EPS_LOOP` | `CompactSet::insert` keeps the least key as greatest key, so `contains` denies a label that was added | `C79_multi_eps_contains_defect` |
