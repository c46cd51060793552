import Verif.Model.Lazy
import Verif.Model.Dfs

/-!
# `compose` (algorithms/compose): sorted matchers, composition filters, `ComposeFstOp`

Both operands are `VectorFst`s. Sigma matchers are in Model/SigmaMatcher, look-ahead matchers and filters in Model/LookAhead; other matchers are not modelled. `times` does not fail.
-/

namespace Verif
universe u v
variable {W : Type u} {FS : Type}

/-! ### Matchers -/

/-- `IterItemMatcher` (matchers/mod.rs 83-87). -/
inductive IterItem (W : Type u) where
  | tr (t : Tr W)
  | epsLoop

/-- The label a matcher looks at: `MatchInput` or `MatchOutput` (`get_label`, sorted_matcher.rs 157-163). -/
def sideLabel (input : Bool) (t : Tr W) : Label := if input then t.ilabel else t.olabel

/-- `into_tr` and `eps_loop` (matchers/mod.rs 90-105). -/
def IterItem.intoTr [One W] (i : IterItem W) (state : StateId) (input : Bool) : Tr W :=
  match i with
  | .tr t => t
  | .epsLoop => if input then ⟨NO_LABEL, EPS, 1, state⟩ else ⟨EPS, NO_LABEL, 1, state⟩

/-- `lower_bound_by` of the crate superslice (not in the repository), on a sorted slice: the first index whose label is not smaller. -/
def lowerBound (input : Bool) (m : Label) (ts : List (Tr W)) : Nat := (ts.takeWhile fun t => decide (sideLabel input t < m)).length

/-- `IteratorSortedMatcher`: `new` (sorted_matcher.rs 124-155) and all that `next` (169-183) yields. -/
def sortedIter (input : Bool) (ts : List (Tr W)) (label : Label) : List (IterItem W) :=
  let currentLoop := decide (label = EPS)
  let m := if label = NO_LABEL then EPS else label
  let pos := if currentLoop then 0 else lowerBound input m ts
  (if currentLoop then [.epsLoop] else []) ++ ((ts.drop pos).takeWhile fun t => decide (sideLabel input t = m)).map .tr

/-- The answers of `match_type` of a matcher: its own type, `MatchNone`, `MatchUnknown`. -/
inductive CanMatch where
  | yes
  | none
  | unknown
  deriving DecidableEq

/-- `SortedMatcher::match_type` (sorted_matcher.rs 56-85). With `test` the flags must be known (`properties_check`, fst.rs 166-176). -/
def sortedMatchType (f : Fst W) (input test : Bool) : R CanMatch :=
  let yes := if input then PropBit.iLabelSorted else .oLabelSorted
  let no := if input then PropBit.notILabelSorted else .notOLabelSorted
  if test && !f.props.knows (Props.of [yes, no]) then .error .err
  else if f.props yes then .ok .yes
  else if f.props no then .ok .none
  else .ok .unknown

/-- The part of `MatchType` that `ComposeFstOp` uses. -/
inductive MatchT where
  | input
  | output
  | both
  deriving DecidableEq

/-- The last three branches of `ComposeFstOp::match_type` (compose_fst_op.rs 189-195). -/
def matchTypeTested (A B : Fst W) : R MatchT :=
  match sortedMatchType A false true with
  | .error e => .error e
  | .ok .yes => .ok .output
  | .ok _ =>
    match sortedMatchType B true true with
    | .error e => .error e
    | .ok .yes => .ok .input
    | .ok _ => .error .err

/-- `ComposeFstOp::match_type` (compose_fst_op.rs 169-197). The flags of a `SortedMatcher` are empty, so nothing is required. -/
def composeMatchType (A B : Fst W) : R MatchT :=
  match sortedMatchType A false false, sortedMatchType B true false with
  | .error e, _ => .error e
  | _, .error e => .error e
  | .ok .yes, .ok .yes => .ok .both
  | .ok .yes, _ => .ok .output
  | _, .ok .yes => .ok .input
  | _, _ => matchTypeTested A B

/-- `match_input` (compose_fst_op.rs 199-219). A priority is a number of transitions, so it is never `REQUIRE_PRIORITY = usize::MAX`. -/
def matchInput (A B : Fst W) (mt : MatchT) (s1 s2 : StateId) : R Bool :=
  match mt with
  | .input => .ok true
  | .output => .ok false
  | .both =>
    match A.numTrsR s1 with
    | .error e => .error e
    | .ok p1 =>
      match B.numTrsR s2 with
      | .error e => .error e
      | .ok p2 => .ok (decide (p1 ≤ p2))

/-! ### Filters -/

/-- A composition filter (compose_filters/mod.rs 51-78). `filter A B s1 s2 fs` is `set_state` on a filter that was just built followed
by the function `filter_tr`; `none` stands for `new_no_state()`. No filter of the library changes transitions or final weights
(`MultiEpsFilter` is not modelled; the look-ahead filters are in Model/LookAhead). In `set_state` the comparison with the last state is always false on a
new filter, whose state is `NO_STATE_ID`. -/
structure ComposeFilter (FS : Type) (W : Type u) where
  start : FS
  filter : Fst W → Fst W → StateId → StateId → FS → R (Tr W → Tr W → Option FS)

section
variable [Zero W] [DecidableEq W]

/-- `alleps` and `noeps` of a state, from its number of transitions, of ε and whether it is final (e.g. sequence_compose_filter.rs 141-145). -/
def epsInfo (f : Fst W) (input : Bool) (s : StateId) : R (Bool × Bool) :=
  match f.numTrsR s with
  | .error e => .error e
  | .ok na =>
    match (if input then f.numIEpsR s else f.numOEpsR s) with
    | .error e => .error e
    | .ok ne =>
      match f.isFinalR s with
      | .error e => .error e
      | .ok fin => .ok (decide (na = ne) && !fin, decide (ne = 0))

/-- `filter_tr` of `SequenceComposeFilter` (sequence_compose_filter.rs 150-171). -/
def seqFilterTr (alleps1 noeps1 : Bool) (fs : Nat) (a b : Tr W) : Option Nat :=
  if a.olabel = NO_LABEL then
    if alleps1 then none else if noeps1 then some 0 else some 1
  else if b.ilabel = NO_LABEL then
    if fs ≠ 0 then none else some 0
  else if a.olabel = EPS then none
  else some 0

/-- `SequenceComposeFilter` (sequence_compose_filter.rs 130-171), also `AutoFilter` (compose_fst.rs 58-92). -/
def seqFilter : ComposeFilter Nat W where
  start := 0
  filter A _ s1 _ fs := match epsInfo A false s1 with
    | .error e => .error e
    | .ok (alleps1, noeps1) => .ok (seqFilterTr alleps1 noeps1 fs)

/-- `filter_tr` of `AltSequenceComposeFilter` (alt_sequence_compose_filter.rs 159-180). -/
def altFilterTr (alleps2 noeps2 : Bool) (fs : Nat) (a b : Tr W) : Option Nat :=
  if b.ilabel = NO_LABEL then
    if alleps2 then none else if noeps2 then some 0 else some 1
  else if a.olabel = NO_LABEL then
    if fs = 1 then none else some 0
  else if a.olabel = EPS then none
  else some 0

/-- `AltSequenceComposeFilter` (alt_sequence_compose_filter.rs 139-180). -/
def altFilter : ComposeFilter Nat W where
  start := 0
  filter _ B _ s2 fs := match epsInfo B true s2 with
    | .error e => .error e
    | .ok (alleps2, noeps2) => .ok (altFilterTr alleps2 noeps2 fs)

/-- `filter_tr` of `MatchComposeFilter` (match_compose_filter.rs 163-206). -/
def matchFilterTr (alleps1 noeps1 alleps2 noeps2 : Bool) (fs : Nat) (a b : Tr W) : Option Nat :=
  if b.ilabel = NO_LABEL then
    if fs = 0 then (if noeps2 then some 0 else if alleps2 then none else some 1)
    else if fs = 1 then some 1 else none
  else if a.olabel = NO_LABEL then
    if fs = 0 then (if noeps1 then some 0 else if alleps1 then none else some 2)
    else if fs = 2 then some 2 else none
  else if a.olabel = EPS then
    if fs = 0 then some 0 else none
  else some 0

/-- `MatchComposeFilter` (match_compose_filter.rs 132-206). -/
def matchFilter : ComposeFilter Nat W where
  start := 0
  filter A B s1 s2 fs := match epsInfo A false s1 with
    | .error e => .error e
    | .ok (alleps1, noeps1) =>
      match epsInfo B true s2 with
      | .error e => .error e
      | .ok (alleps2, noeps2) => .ok (matchFilterTr alleps1 noeps1 alleps2 noeps2 fs)

end

/-- `NullComposeFilter` (null_compose_filter.rs 114-129). `TrivialFilterState` has one state beside `new_no_state()`. -/
def nullFilter : ComposeFilter Unit W where
  start := ()
  filter _ _ _ _ _ := .ok fun a b => if a.olabel = NO_LABEL ∨ b.ilabel = NO_LABEL then none else some ()

/-- `TrivialComposeFilter` (trivial_compose_filter.rs 114-124). -/
def trivialFilter : ComposeFilter Unit W where
  start := ()
  filter _ _ _ _ _ := .ok fun _ _ => some ()

/-- `NoMatchComposeFilter` (no_match_compose_filter.rs 114-126). -/
def noMatchFilter : ComposeFilter Unit W where
  start := ()
  filter _ _ _ _ _ := .ok fun a b => if a.olabel ≠ EPS ∨ b.ilabel ≠ EPS then some () else none

/-! ### The operation -/

/-- `ComposeStateTuple` (compose_state_tuple.rs 10-15). -/
structure CTup (FS : Type) where
  fs : FS
  s1 : StateId
  s2 : StateId
  deriving DecidableEq

/-- `add_tr` (compose_fst_op.rs 267-285), the tuple not yet numbered. -/
def addTr [Mul W] (a b : Tr W) (fs : FS) : MTr (CTup FS) W := ⟨a.ilabel, b.olabel, a.weight * b.weight, ⟨fs, a.nextstate, b.nextstate⟩⟩

section
variable [One W] [Mul W]

/-- `match_tr_selected` (compose_fst_op.rs 287-322). -/
def matchTrSelected (input : Bool) (flt : Tr W → Tr W → Option FS) (sa : StateId) (tr : Tr W) (it : List (IterItem W)) :
    List (MTr (CTup FS) W) :=
  it.filterMap fun i =>
    let arca := i.intoTr sa input
    if input then (flt tr arca).map (addTr tr arca) else (flt arca tr).map (addTr arca tr)

/-- `match_tr` (compose_fst_op.rs 324-357): `ta` are the transitions of the state of the matcher. -/
def matchTr (input : Bool) (flt : Tr W → Tr W → Option FS) (sa : StateId) (ta : List (Tr W)) (tr : Tr W) : List (MTr (CTup FS) W) :=
  matchTrSelected input flt sa tr (sortedIter input ta (if input then tr.olabel else tr.ilabel))

/-- `ordered_expand` (compose_fst_op.rs 221-265): first the loop, then the transitions of the other FST. -/
def orderedExpand (A B : Fst W) (input : Bool) (flt : Tr W → Tr W → Option FS) (sa sb : StateId) : R (List (MTr (CTup FS) W)) :=
  let loop : Tr W := if input then ⟨EPS, NO_LABEL, 1, sb⟩ else ⟨NO_LABEL, EPS, 1, sb⟩
  match (if input then B else A).getTrsR sa with
  | .error e => .error e
  | .ok ta =>
    match (if input then A else B).getTrsR sb with
    | .error e => .error e
    | .ok tb => .ok ((loop :: tb).flatMap (matchTr input flt sa ta))

/-- `compute_trs` (compose_fst_op.rs 406-418). -/
def composeTrs (A B : Fst W) (F : ComposeFilter FS W) (mt : MatchT) (t : CTup FS) : R (List (MTr (CTup FS) W)) :=
  match F.filter A B t.s1 t.s2 t.fs with
  | .error e => .error e
  | .ok flt =>
    match matchInput A B mt t.s1 t.s2 with
    | .error e => .error e
    | .ok true => orderedExpand A B true flt t.s2 t.s1
    | .ok false => orderedExpand A B false flt t.s1 t.s2

/-- `compute_start` (compose_fst_op.rs 389-404). -/
def composeStart (A B : Fst W) (F : ComposeFilter FS W) : Option (CTup FS) :=
  match A.start with
  | none => none
  | some s1 =>
    match B.start with
    | none => none
    | some s2 => some ⟨F.start, s1, s2⟩

variable [Zero W] [DecidableEq W]

/-- `compute_final_weight` (compose_fst_op.rs 420-449). -/
def composeFin (A B : Fst W) (F : ComposeFilter FS W) (t : CTup FS) : R (Option W) :=
  match A.finalWeightR t.s1 with
  | .error e => .error e
  | .ok none => .ok none
  | .ok (some w1) =>
    match B.finalWeightR t.s2 with
    | .error e => .error e
    | .ok none => .ok none
    | .ok (some w2) =>
      match F.filter A B t.s1 t.s2 t.fs with
      | .error e => .error e
      | .ok _ => .ok (if w1 * w2 = 0 then none else some (w1 * w2))

/-- `ComposeFstOp` (compose_fst_op.rs 376-453) for a match type. -/
def composeOp (A B : Fst W) (F : ComposeFilter FS W) (mt : MatchT) : TupleOp (CTup FS) W where
  start := .ok (composeStart A B F)
  trs := composeTrs A B F mt
  fin := composeFin A B F
  props := Props.compose A.props B.props

/-- `ComposeFstOp::new` (compose_fst_op.rs 132-167). -/
def composeNew (A B : Fst W) (F : ComposeFilter FS W) : R (TupleOp (CTup FS) W) :=
  match composeMatchType A B with
  | .error e => .error e
  | .ok mt => .ok (composeOp A B F mt)

variable [DecidableEq FS]

/-- `compose_with_config` (compose_static.rs 166-269) with sorted matchers: the lazy FST with a `SimpleVecCache`, `compute`, then
`connect` if asked for. -/
def composeWith (F : ComposeFilter FS W) (connect : Bool) (A B : Fst W) (n : Nat) : Option (R (Fst W)) :=
  match composeNew A B F with
  | .error e => some (.error e)
  | .ok op =>
    match Lz.compute vecCache (op.withTable BiMap.findId BiMap.findTuple) n ⟨vecCache.empty, BiMap.new⟩ with
    | none => none
    | some (.error e, _) => some (.error e)
    | some (.ok C, _) => some (if connect then C.connect else .ok C)

/-- `compose` (compose_static.rs 294-306): `AutoFilter`, then `connect`. -/
def compose (A B : Fst W) (n : Nat) : Option (R (Fst W)) := composeWith seqFilter true A B n

end
end Verif
