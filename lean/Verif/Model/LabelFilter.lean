import Verif.Model.LookAhead

/-!
# Composition that pushes labels (`lookahead_filters/push_labels_compose_filter.rs`, `matchers/multi_eps_matcher.rs`)

`PushLabelsComposeFilter` is modelled around a `LookAheadComposeFilter` or a `PushWeightsComposeFilter`, both of which are given as an `LaFilter`. The methods
`matcher1_shared`, `matcher2_shared` and the `Clone` of the iterator are `unimplemented!()` in the code and are not used by `ComposeFst`.
-/

namespace Verif
universe u
variable {W : Type u} {FS : Type}

/-! ### `MultiEpsMatcher` -/

/-- `CompactSet<Label>` (multi_eps_matcher.rs 300-306). The `BTreeSet` is a list in increasing order; `no_key` is `NO_LABEL`. -/
structure LabelSet where
  set : List Label
  minKey : Label
  maxKey : Label
  deriving DecidableEq

/-- `CompactSet::new` and `clear` (multi_eps_matcher.rs 309-316, 328-332). -/
def LabelSet.empty : LabelSet := ⟨[], NO_LABEL, NO_LABEL⟩

/-- `CompactSet::insert` (multi_eps_matcher.rs 318-326). -/
def LabelSet.insert (c : LabelSet) (k : Label) : LabelSet :=
  ⟨(c.set.filter fun x => decide (x < k)) ++ k :: c.set.filter fun x => decide (k < x),
    if c.minKey = NO_LABEL ∨ k < c.minKey then k else c.minKey,
    if c.maxKey = NO_LABEL ∨ c.maxKey > k then k else c.maxKey⟩

/-- `CompactSet::contains` (multi_eps_matcher.rs 362-375). The sums do not overflow here. -/
def LabelSet.contains (c : LabelSet) (k : Label) : Bool :=
  if c.minKey = NO_LABEL ∨ k < c.minKey ∨ k > c.maxKey then false
  else if c.maxKey + 1 = c.minKey + c.set.length then true
  else decide (k ∈ c.set)

/-- The fields of a `MultiEpsMatcher` (multi_eps_matcher.rs 27-38) beside the matcher it wraps: the flags `MULTI_EPS_LIST` and `MULTI_EPS_LOOP`, and the labels. -/
structure MultiEps where
  list : Bool
  loop : Bool
  labels : LabelSet
  deriving DecidableEq

/-- `add_multi_eps_label` (multi_eps_matcher.rs 161-167). -/
def MultiEps.addLabelR (m : MultiEps) (l : Label) : R MultiEps :=
  if l = EPS then .error .err else .ok { m with labels := m.labels.insert l }

/-- The search for the first label with transitions (multi_eps_matcher.rs 91-102 and 212-222): its items and the labels after it. -/
def firstWith (it : Label → R (List (IterItem W))) : List Label → R (Option (List (IterItem W) × List Label))
  | [] => .ok none
  | l :: ls =>
    match it l with
    | .error e => .error e
    | .ok [] => firstWith it ls
    | .ok (x :: xs) => .ok (some (x :: xs, ls))

/-- What a `for` loop gets from `MultiEpsMatcher::iter` (multi_eps_matcher.rs 199-245) and `next` (81-126), `it` being `iter` of the wrapped matcher in the same state. When the
items of a label are used up and a later label has items, `next` returns `None` once (105-107), which ends the loop. -/
def MultiEps.iterR (m : MultiEps) (it : Label → R (List (IterItem W))) (l : Label) : R (List (IterItem W)) :=
  if l = EPS then it EPS
  else if l = NO_LABEL then
    if m.list then
      match firstWith it m.labels.set with
      | .error e => .error e
      | .ok none => it NO_LABEL
      | .ok (some (its, ls)) =>
        match firstWith it ls with
        | .error _ => .error .panic
        | .ok (some _) => .ok its
        | .ok none =>
          match it NO_LABEL with
          | .error _ => .error .panic
          | .ok ns => .ok (its ++ ns)
    else it NO_LABEL
  else if m.loop && m.labels.contains l then .ok [.epsLoop]
  else it l

/-! ### The filter -/

/-- `lookahead_label` of the matcher of `M` (sorted_matcher.rs 228-233, trivial_lookahead_matcher.rs 103-105, tr_lookahead_matcher.rs 243-246,
label_lookahead_matcher.rs 215-224). -/
def LaMatcher.lookLabelR (m : LaMatcher) (M : Fst W) (input : Bool) (s : StateId) (l : Label) : R Bool :=
  match m with
  | .sorted => .error .panic
  | .trivial => .ok true
  | .tr _ =>
    match sortedIterR M input s l with
    | .error e => .error e
    | .ok its => .ok !its.isEmpty
  | .label _ none => .ok true
  | .label _ (some (d, _)) => if l = EPS then .ok true else LabelReachable.reachLabel d s l

/-- What the filter says about a pair: the new state with the pushed label (`NO_LABEL`: none), and the two transitions as it leaves them. -/
abbrev LabelVerdict (FS : Type) (W : Type u) := (FS × Label) × Tr W × Tr W

section
variable [Zero W] [One W] [Add W] [Mul W] [DecidableEq W]

/-- `lookahead_tr` and `lookahead_matcher_data` (lookahead_compose_filter.rs 297-345) after the look-ahead filter has let a pair through. -/
def lookData (c : LaCfg) (A B : Fst W) (a b : Tr W) : Option (LaData W) :=
  if c.looks (if c.out then a.olabel else b.ilabel) then
    match c.look A B a.nextstate b.nextstate with
    | .ok d => d
    | .error _ => none
  else none

/-- `pushed_label_filter_tr` (push_labels_compose_filter.rs 304-354), in a state with the pushed label `fl`; `n` is `ntrsa`. -/
def pushedLabelTr (c : LaCfg) (A B : Fst W) (start : FS) (n : Nat) (fs : FS) (fl : Label) (a b : Tr W) : R (Option (LabelVerdict FS W)) :=
  let la := if c.out then a.olabel else b.ilabel
  let lb := if c.out then b.ilabel else a.olabel
  if lb ≠ NO_LABEL then .ok none
  else if la = fl then .ok (some ((start, NO_LABEL), if c.out then { a with olabel := EPS } else a, if c.out then b else { b with ilabel := EPS }))
  else if la = EPS then
    if n = 1 then .ok (some ((fs, fl), a, b))
    else
      match (if c.out then c.matcher.lookLabelR A false a.nextstate fl else c.matcher.lookLabelR B true b.nextstate fl) with
      | .error e => .error e
      | .ok true => .ok (some ((fs, fl), a, b))
      | .ok false => .ok none
  else .ok none

/-- `push_label_filter_tr` (push_labels_compose_filter.rs 357-421), and lines 221-223 if there was no look ahead. The selector says the same as
`lookahead_output`. `lookahead_prefix` is `default_lookahead_prefix` (lookahead_matchers/mod.rs 48-56). -/
def pushLabelTr (c : LaCfg) (d : Option (LaData W)) (fs : FS) (a b : Tr W) : LabelVerdict FS W :=
  match d with
  | none => ((fs, NO_LABEL), a, b)
  | some d =>
    let la := if c.out then a.olabel else b.ilabel
    let lb := if c.out then b.olabel else a.ilabel
    let t := d.prefixTr
    if lb ≠ EPS then ((fs, NO_LABEL), a, b)
    else if la ≠ EPS ∧ c.flags.nonEpsPrefix = true then ((fs, NO_LABEL), a, b)
    else if t.nextstate = NO_STATE_ID then ((fs, NO_LABEL), a, b)
    else if c.out then ((fs, t.ilabel), { a with olabel := t.ilabel }, ⟨t.ilabel, t.olabel, b.weight * t.weight, t.nextstate⟩)
    else ((fs, t.olabel), ⟨t.ilabel, t.olabel, a.weight * t.weight, t.nextstate⟩, { b with ilabel := t.olabel })

/-- `filter_tr` (push_labels_compose_filter.rs 199-230); `flt` is that of the wrapped filter. -/
def labelFilterTr (c : LaCfg) (A B : Fst W) (start : FS) (n : Nat) (fs : FS × Label) (flt : Tr W → Tr W → R (Option (FS × W × W))) (a b : Tr W) :
    R (Option (LabelVerdict FS W)) :=
  if c.flags.prefixLa = true ∧ fs.2 ≠ NO_LABEL then pushedLabelTr c A B start n fs.1 fs.2 a b
  else
    match flt a b with
    | .error e => .error e
    | .ok none => .ok none
    | .ok (some (fs', w1, w2)) =>
      .ok (some (pushLabelTr c (if c.flags.prefixLa then lookData c A B a b else none) fs' { a with weight := w1 } { b with weight := w2 }))

/-- A `PushLabelsComposeFilter` in a state: `filter_tr` and the two matchers. -/
structure LabelState (FS : Type) (W : Type u) where
  filter : Tr W → Tr W → R (Option (LabelVerdict FS W))
  m1 : MultiEps
  m2 : MultiEps

/-- `set_state` (push_labels_compose_filter.rs 171-197) on a filter as `build` (108-142) makes it. Without the prefix flag the labels are never set. -/
def labelSetState (c : LaCfg) (A B : Fst W) (I : LaFilter FS W) (s1 s2 : StateId) (fs : FS × Label) : R (LabelState FS W) :=
  match I.filter s1 s2 fs.1 with
  | .error e => .error e
  | .ok flt =>
    let m1 : MultiEps := ⟨c.out, !c.out, .empty⟩
    let m2 : MultiEps := ⟨!c.out, c.out, .empty⟩
    if c.flags.prefixLa then
      match (if c.out then A.numTrsR s1 else B.numTrsR s2) with
      | .error e => .error e
      | .ok n =>
        if fs.2 = NO_LABEL then .ok ⟨labelFilterTr c A B I.start n fs flt, m1, m2⟩
        else
          match m1.addLabelR fs.2, m2.addLabelR fs.2 with
          | .ok m1, .ok m2 => .ok ⟨labelFilterTr c A B I.start n fs flt, m1, m2⟩
          | .error e, _ => .error e
          | _, .error e => .error e
    else .ok ⟨labelFilterTr c A B I.start 0 fs flt, m1, m2⟩

/-- `filter_final` (push_labels_compose_filter.rs 232-248). -/
def labelFinal (c : LaCfg) (I : LaFilter FS W) (fs : FS × Label) (w1 w2 : W) : R (W × W) :=
  match I.final fs.1 w1 w2 with
  | .error e => .error e
  | .ok (v1, v2) => .ok (if c.flags.prefixLa = true ∧ v1 ≠ 0 ∧ fs.2 ≠ NO_LABEL then 0 else v1, v2)

/-- `properties` (push_labels_compose_filter.rs 268-275). -/
def labelProps (c : LaCfg) (I : LaFilter FS W) (p : Props) : Props :=
  (I.props p).and (if c.out then Props.oLabelInvariantMask else Props.iLabelInvariantMask)

/-! ### The operation -/

/-- `match_tr_selected` (compose_fst_op.rs 287-322), with `add_tr` (267-285). -/
def matchTrSelectedP (input : Bool) (flt : Tr W → Tr W → R (Option (LabelVerdict FS W))) (sa : StateId) (tr : Tr W) (it : List (IterItem W)) :
    R (List (MTr (CTup (FS × Label)) W)) :=
  collectR (fun i =>
    match flt (if input then tr else i.intoTr sa input) (if input then i.intoTr sa input else tr) with
    | .error e => .error e
    | .ok none => .ok []
    | .ok (some (fs, a, b)) => .ok [addTr a b fs]) it

/-- `match_tr` (compose_fst_op.rs 324-357), with a `MultiEpsMatcher` around a matcher of `M`. -/
def matchTrP (M : Fst W) (m : MultiEps) (input : Bool) (flt : Tr W → Tr W → R (Option (LabelVerdict FS W))) (sa : StateId) (tr : Tr W) :
    R (List (MTr (CTup (FS × Label)) W)) :=
  match m.iterR (sortedIterR M input sa) (if input then tr.olabel else tr.ilabel) with
  | .error e => .error e
  | .ok it => matchTrSelectedP input flt sa tr it

/-- `ordered_expand` (compose_fst_op.rs 221-265). -/
def orderedExpandP (A B : Fst W) (m : MultiEps) (input : Bool) (flt : Tr W → Tr W → R (Option (LabelVerdict FS W))) (sa sb : StateId) :
    R (List (MTr (CTup (FS × Label)) W)) :=
  let loop : Tr W := if input then ⟨EPS, NO_LABEL, 1, sb⟩ else ⟨NO_LABEL, EPS, 1, sb⟩
  let step := matchTrP (if input then B else A) m input flt sa
  match step loop with
  | .error e => .error e
  | .ok l =>
    match (if input then A else B).getTrsR sb with
    | .error e => .error e
    | .ok tb =>
      match collectR step tb with
      | .error e => .error e
      | .ok ls => .ok (l ++ ls)

/-- The rest of `compute_trs` (compose_fst_op.rs 406-418) after `set_state`: `match_input` (199-219) decides which operand is searched. -/
def expandP (A B : Fst W) (mt : MatchT) (s1 s2 : StateId) (st : LabelState FS W) : R (List (MTr (CTup (FS × Label)) W)) :=
  match matchInput A B mt s1 s2 with
  | .error e => .error e
  | .ok true => orderedExpandP A B st.m2 true st.filter s2 s1
  | .ok false => orderedExpandP A B st.m1 false st.filter s1 s2

/-- `compute_trs` (compose_fst_op.rs 406-418). -/
def composeTrsP (c : LaCfg) (A B : Fst W) (I : LaFilter FS W) (mt : MatchT) (t : CTup (FS × Label)) : R (List (MTr (CTup (FS × Label)) W)) :=
  match labelSetState c A B I t.s1 t.s2 t.fs with
  | .error e => .error e
  | .ok st => expandP A B mt t.s1 t.s2 st

/-- `compute_start` (compose_fst_op.rs 389-404), with `start` (push_labels_compose_filter.rs 167-169). -/
def composeStartP (A B : Fst W) (I : LaFilter FS W) : Option (CTup (FS × Label)) :=
  match A.start with
  | none => none
  | some s1 =>
    match B.start with
    | none => none
    | some s2 => some ⟨(I.start, NO_LABEL), s1, s2⟩

/-- `compute_final_weight` (compose_fst_op.rs 420-449). -/
def composeFinP (c : LaCfg) (A B : Fst W) (I : LaFilter FS W) (t : CTup (FS × Label)) : R (Option W) :=
  match A.finalWeightR t.s1 with
  | .error e => .error e
  | .ok none => .ok none
  | .ok (some w1) =>
    match B.finalWeightR t.s2 with
    | .error e => .error e
    | .ok none => .ok none
    | .ok (some w2) =>
      match labelSetState c A B I t.s1 t.s2 t.fs with
      | .error e => .error e
      | .ok _ =>
        match labelFinal c I t.fs w1 w2 with
        | .error e => .error e
        | .ok (v1, v2) => .ok (if v1 * v2 = 0 then none else some (v1 * v2))

/-- `ComposeFstOp` (compose_fst_op.rs 132-167, 376-453). -/
def composeOpP (c : LaCfg) (A B : Fst W) (I : LaFilter FS W) (mt : MatchT) : TupleOp (CTup (FS × Label)) W where
  start := .ok (composeStartP A B I)
  trs := composeTrsP c A B I mt
  fin := composeFinP c A B I
  props := labelProps c I (Props.compose A.props B.props)

variable [DecidableEq FS]

/-- `ComposeFst::new_with_options` with a `PushLabelsComposeFilter` (compose_fst.rs 106-129) and `compute`, with a `SimpleVecCache`. `match_type` is that of the wrapped
matchers (multi_eps_matcher.rs 251-253). -/
def composePush (c : LaCfg) (I : LaFilter FS W) (A B : Fst W) (n : Nat) : Option (R (Fst W)) :=
  match composeMatchType A B with
  | .error e => some (.error e)
  | .ok mt =>
    match Lz.compute vecCache ((composeOpP c A B I mt).withTable BiMap.findId BiMap.findTuple) n ⟨vecCache.empty, BiMap.new⟩ with
    | none => none
    | some (.error e, _) => some (.error e)
    | some (.ok C, _) => some (.ok C)

end
end Verif
