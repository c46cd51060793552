import Verif.Model.Mutate

/-!
# `VectorFst` (`fst_impls/vector_fst/*.rs`, `trs_iter_mut.rs`)

`&mut self` methods return the new FST. Every fallible method `m` comes in two parts: `m` is the effect of a successful
call (identity on missing states) and `mR : Fst W × R α` is the method: new state and result.
The `*_unchecked` variants have the same bodies as the checked ones without the existence test; they are modelled by `m`.
`Arc::make_mut` is value semantics. Symbol tables are not part of this structure.
-/

namespace Verif
universe u
variable {W : Type u}

/-- `VectorFstState` (data_structure.rs 28-34). -/
structure State (W : Type u) where
  fin : Option W
  trs : List (Tr W)
  niepsilons : Nat
  noepsilons : Nat
deriving DecidableEq, Repr

/-- `VectorFstState::new` (data_structure.rs 55-62). -/
def State.new : State W := ⟨none, [], 0, 0⟩

/-- `VectorFst` (data_structure.rs 15-22) without the two symbol table pointers. -/
structure Fst (W : Type u) where
  states : List (State W)
  start : Option StateId
  props : Props

namespace Fst

/-! ## Queries (`vector_fst/fst.rs` 37-107, `fst_traits/fst.rs`) -/

/-- `num_states` (vector_fst/expanded_fst.rs). -/
def numStates (f : Fst W) : Nat := f.states.length

/-- The transitions leaving `s`; `[]` when `s` does not exist (`get_trs_unchecked`, vector_fst/fst.rs 81-85, inside its safety condition). -/
def trsOf (f : Fst W) (s : StateId) : List (Tr W) :=
  match f.states[s]? with
  | some st => st.trs
  | none => []

/-- The final weight of `s` (`final_weight_unchecked`, vector_fst/fst.rs 52-57, inside its safety condition). -/
def finOf (f : Fst W) (s : StateId) : Option W :=
  match f.states[s]? with
  | some st => st.fin
  | none => none

/-- `get_trs` (vector_fst/fst.rs 72-79): error on missing states. -/
def getTrsR (f : Fst W) (s : StateId) : R (List (Tr W)) :=
  match f.states[s]? with
  | some st => .ok st.trs
  | none => .error .err

/-- `final_weight` (vector_fst/fst.rs 43-49): error on missing states. -/
def finalWeightR (f : Fst W) (s : StateId) : R (Option W) :=
  match f.states[s]? with
  | some st => .ok st.fin
  | none => .error .err

/-- `num_trs` (vector_fst/fst.rs 59-66): error on missing states. -/
def numTrsR (f : Fst W) (s : StateId) : R Nat :=
  match f.states[s]? with
  | some st => .ok st.trs.length
  | none => .error .err

/-- `num_input_epsilons` (vector_fst/fst.rs 91-97): returns the stored counter. -/
def numIEpsR (f : Fst W) (s : StateId) : R Nat :=
  match f.states[s]? with
  | some st => .ok st.niepsilons
  | none => .error .err

/-- `num_output_epsilons` (vector_fst/fst.rs 99-105): returns the stored counter. -/
def numOEpsR (f : Fst W) (s : StateId) : R Nat :=
  match f.states[s]? with
  | some st => .ok st.noepsilons
  | none => .error .err

/-- `is_final` (fst_traits/fst.rs 117-122): a stored zero weight does not count as final. -/
def isFinalR [Zero W] [DecidableEq W] (f : Fst W) (s : StateId) : R Bool :=
  match f.states[s]? with
  | some st => .ok (match st.fin with | some w => !isZeroW w | none => false)
  | none => .error .err

/-- `is_final_unchecked` (fst_traits/fst.rs 131-133): any stored weight counts. -/
def isFinalUnchecked (f : Fst W) (s : StateId) : Bool := (f.finOf s).isSome

/-- `PartialEq for VectorFst` (data_structure.rs 36-41): ignores the flags. -/
def eqv (f g : Fst W) : Prop := f.states = g.states ∧ f.start = g.start

/-! ## Mutators (`vector_fst/mutable_fst.rs`) -/

/-- `new` (mutable_fst.rs 25-33). -/
def new : Fst W := ⟨[], none, Props.nullMask⟩

/-- Apply `g` to state `s` if it exists (`self.states.get_mut(s)`). -/
def modifySt (f : Fst W) (s : StateId) (g : State W → State W) : Fst W :=
  { f with states := f.states.modify s g }

/-- `set_start` / `set_start_unchecked` on an existing state (mutable_fst.rs 41-42, 46-49). -/
def setStart (f : Fst W) (s : StateId) : Fst W :=
  { f with start := some s, props := Props.setStart f.props }

/-- `set_start` (mutable_fst.rs 35-44). -/
def setStartR (f : Fst W) (s : StateId) : Fst W × R Unit :=
  if s < f.states.length then (f.setStart s, .ok ()) else (f, .error .err)

section weights
variable [Zero W] [One W] [DecidableEq W]

/-- `set_final` on an existing state (mutable_fst.rs 53-60, 66-78). -/
def setFinal (f : Fst W) (s : StateId) (w : W) : Fst W :=
  { f.modifySt s (fun st => { st with fin := some w }) with
    props := Props.setFinal f.props (f.finOf s) (some w) }

/-- `set_final` (mutable_fst.rs 51-64). -/
def setFinalR (f : Fst W) (s : StateId) (w : W) : Fst W × R Unit :=
  if s < f.states.length then (f.setFinal s w, .ok ()) else (f, .error .err)

/-- `delete_final_weight`, `take_final_weight` on an existing state (mutable_fst.rs 283-297, 333-347). -/
def delFinal (f : Fst W) (s : StateId) : Fst W :=
  { f.modifySt s (fun st => { st with fin := none }) with
    props := Props.setFinal f.props (f.finOf s) none }

/-- `delete_final_weight` (mutable_fst.rs 283-291). -/
def delFinalR (f : Fst W) (s : StateId) : Fst W × R Unit :=
  if s < f.states.length then (f.delFinal s, .ok ()) else (f, .error .err)

/-- `take_final_weight` (mutable_fst.rs 333-341). -/
def takeFinalR (f : Fst W) (s : StateId) : Fst W × R (Option W) :=
  if s < f.states.length then (f.delFinal s, .ok (f.finOf s)) else (f, .error .err)

end weights

/-- `add_state` (mutable_fst.rs 80-85): new FST; the returned id is the old number of states. -/
def addState (f : Fst W) : Fst W :=
  { f with states := f.states ++ [State.new], props := Props.addState f.props }

/-- `add_state` with its result. -/
def addStateR (f : Fst W) : Fst W × StateId := (f.addState, f.states.length)

/-- `add_states` (mutable_fst.rs 87-91). -/
def addStates (f : Fst W) (n : Nat) : Fst W :=
  { f with states := f.states ++ List.replicate n State.new, props := Props.addState f.props }

/-- `increment_num_epsilons` + `trs.push` (data_structure.rs 69-76, mutable_fst.rs 241-242). -/
def State.pushTr (st : State W) (t : Tr W) : State W :=
  { st with
    trs := st.trs ++ [t]
    niepsilons := if t.ilabel = EPS then st.niepsilons + 1 else st.niepsilons
    noepsilons := if t.olabel = EPS then st.noepsilons + 1 else st.noepsilons }

section weights
variable [Zero W] [One W] [DecidableEq W]

/-- `add_tr` / `add_tr_unchecked` on an existing source (mutable_fst.rs 236-252 with
`update_properties_after_add_tr`, data_structure.rs 80-91). The target is not checked. -/
def addTr (f : Fst W) (s : StateId) (t : Tr W) : Fst W :=
  { f.modifySt s (fun st => State.pushTr st t) with
    props := Props.addTr f.props s t (f.trsOf s).getLast? }

/-- `add_tr` (mutable_fst.rs 236-245). -/
def addTrR (f : Fst W) (s : StateId) (t : Tr W) : Fst W × R Unit :=
  if s < f.states.length then (f.addTr s t, .ok ()) else (f, .error .err)

end weights

/-- `delete_trs` / the effect of `pop_trs` on an existing state (mutable_fst.rs 299-331). -/
def delTrs (f : Fst W) (s : StateId) : Fst W :=
  { f.modifySt s (fun st => { st with trs := [], niepsilons := 0, noepsilons := 0 }) with
    props := Props.deleteTrs f.props }

/-- `delete_trs` (mutable_fst.rs 299-310). -/
def delTrsR (f : Fst W) (s : StateId) : Fst W × R Unit :=
  if s < f.states.length then (f.delTrs s, .ok ()) else (f, .error .err)

/-- `pop_trs` (mutable_fst.rs 312-323). -/
def popTrsR (f : Fst W) (s : StateId) : Fst W × R (List (Tr W)) :=
  if s < f.states.length then (f.delTrs s, .ok (f.trsOf s)) else (f, .error .err)

/-- `del_all_states` (mutable_fst.rs 191-199). -/
def delAllStates (_f : Fst W) : Fst W := ⟨[], none, Props.nullMask⟩

/-! ### `del_states` (mutable_fst.rs 132-189) -/

/-- `new_id` after the marking loop, 133-137: `-1` for the states to delete. An index outside the vector panics. -/
def markDeleted (n : Nat) (ds : List StateId) : R (List Int) :=
  if ds.all (· < n) then
    .ok (ds.foldl (fun l s => l.set s (-1)) (List.replicate n 0))
  else .error .panic

/-- Loop 141-149: renumber the survivors and swap them to the front. `s` is the loop index, `ns` is `nstates`; `todo`
are the entries of `new_id` from `s` on. Returns the final `new_id` entries (for the suffix), the states and `nstates`. -/
def compactLoop : List Int → Nat → Nat → List (State W) → List Int × List (State W) × Nat
  | [], _, ns, sts => ([], sts, ns)
  | x :: todo, s, ns, sts =>
    if x ≠ -1 then
      let sts' := if s ≠ ns then swapAt sts ns s else sts
      let r := compactLoop todo (s + 1) (ns + 1) sts'
      ((ns : Int) :: r.1, r.2)
    else
      let r := compactLoop todo (s + 1) ns sts
      (x :: r.1, r.2)

/-- Body of loop 157-170 for one transition: counters and the renamed transition (or `none` when it goes to `to_delete`). An
index outside `new_id` panics. -/
def renameTr (newId : List Int) (t : Tr W) : R (Option (Tr W)) :=
  match newId[t.nextstate]? with
  | none => .error .panic
  | some x => if x ≠ -1 then .ok (some { t with nextstate := x.toNat }) else .ok none

/-- Loop 157-174 for one state: rename the kept transitions, drop the others and decrement the counters for them. -/
def renameSt (newId : List Int) : List (Tr W) → Nat → Nat → R (List (Tr W) × Nat × Nat)
  | [], ni, no => .ok ([], ni, no)
  | t :: ts, ni, no =>
    match renameTr newId t with
    | .error e => .error e
    | .ok (some t') =>
      match renameSt newId ts ni no with
      | .error e => .error e
      | .ok (ts', r) => .ok (t' :: ts', r)
    | .ok none =>
      renameSt newId ts (if t.ilabel = EPS then ni - 1 else ni) (if t.olabel = EPS then no - 1 else no)

/-- Loop 153-175 over all states. -/
def renameSts (newId : List Int) : List (State W) → R (List (State W))
  | [] => .ok []
  | st :: sts =>
    match renameSt newId st.trs st.niepsilons st.noepsilons with
    | .error e => .error e
    | .ok (ts, ni, no) =>
      match renameSts newId sts with
      | .error e => .error e
      | .ok sts' => .ok ({ st with trs := ts, niepsilons := ni, noepsilons := no } :: sts')

/-- Lines 177-184: the new start. An index outside `new_id` panics. -/
def renameStart (newId : List Int) : Option StateId → R (Option StateId)
  | none => .ok none
  | some s =>
    match newId[s]? with
    | none => .error .panic
    | some x => if x = -1 then .ok none else .ok (some x.toNat)

/-- `del_states` (mutable_fst.rs 132-189). A panic leaves an unspecified FST, so only the success value is an FST. -/
def delStates (f : Fst W) (ds : List StateId) : R (Fst W) :=
  match markDeleted f.states.length ds with
  | .error e => .error e
  | .ok marks =>
    let r := compactLoop marks 0 0 f.states
    match renameSts r.1 (r.2.1.take r.2.2) with
    | .error e => .error e
    | .ok sts =>
      match renameStart r.1 f.start with
      | .error e => .error e
      | .ok st => .ok ⟨sts, st, Props.deleteStates f.props⟩

/-- `del_state` (mutable_fst.rs 118-130). -/
def delState (f : Fst W) (s : StateId) : R (Fst W) :=
  if s < f.states.length then
    { f with props := Props.deleteStates f.props }.delStates [s]
  else .error .err

/-! ### `del_trs_id_sorted_unchecked` (mutable_fst.rs 201-234) -/

/-- Loop 204-212: remove the listed indices, last first. Each index must be in range (`trs[*i]` panics otherwise; the loop
runs from the back, so sorted distinct indices stay valid). -/
def delTrIdx (st : State W) : List Nat → R (State W)
  | [] => .ok st
  | i :: is =>
    match delTrIdx st is with
    | .error e => .error e
    | .ok st' =>
      match st'.trs[i]? with
      | none => .error .panic
      | some t => .ok { st' with
          trs := st'.trs.eraseIdx i
          niepsilons := if t.ilabel = EPS then st'.niepsilons - 1 else st'.niepsilons
          noepsilons := if t.olabel = EPS then st'.noepsilons - 1 else st'.noepsilons }

/-- `del_trs_id_sorted_unchecked` (mutable_fst.rs 201-234) on an existing state. -/
def delTrsIdSorted (f : Fst W) (s : StateId) (is : List Nat) : R (Fst W) :=
  match f.states[s]? with
  | none => .ok f
  | some st =>
    match delTrIdx st is with
    | .error e => .error e
    | .ok st' => .ok { f with
        states := f.states.set s st'
        props := if st'.trs.length = 0 then Props.deleteTrs f.props
                 else f.props.and Props.delTrsIdMask }

/-! ### Bulk updates -/

/-- Number of ε among the projected labels. -/
def countEps (l : List Nat) : Nat := l.countP (· == EPS)

section weights
variable [Zero W] [One W] [DecidableEq W]

/-- Loop 264-277 of `set_trs_unchecked`: fold `add_tr_properties` over the new transitions, starting from the *current* flags. -/
def foldAddTrProps (p : Props) (s : StateId) : Option (Tr W) → List (Tr W) → Props
  | _, [] => p
  | prev, t :: ts => foldAddTrProps (Props.addTr p s t prev) s (some t) ts

/-- `set_trs_unchecked` (mutable_fst.rs 255-281) on an existing state. -/
def setTrs (f : Fst W) (s : StateId) (ts : List (Tr W)) : Fst W :=
  { f.modifySt s (fun st => { st with
      trs := ts
      niepsilons := countEps (ts.map (·.ilabel))
      noepsilons := countEps (ts.map (·.olabel)) }) with
    props := foldAddTrProps f.props s none ts }

end weights

/-- `set_properties` (mutable_fst.rs 407-409). -/
def setProps (f : Fst W) (p : Props) : Fst W := { f with props := p }

/-- `set_properties_with_mask` (mutable_fst.rs 411-414). -/
def setPropsMask (f : Fst W) (p mask : Props) : Fst W :=
  { f with props := (f.props.and mask.not).or (p.and mask) }

/-! ### `TrsIterMut` (`trs_iter_mut.rs`): updates of one transition in place -/

/-- Counter update macros `updt_nieps!`/`updt_noeps!` (trs_iter_mut.rs 25-45). -/
def updEps (old new : Label) (n : Nat) : Nat :=
  let n := if old = EPS then n - 1 else n
  if new = EPS then n + 1 else n

section weights
variable [Zero W] [One W] [DecidableEq W]

/-- Common part of the `set_*` methods: replace transition `idx` of state `s` by `t'`, update the two counters by `gi`, `go` and
set the flags to `p`. -/
def replaceTr (f : Fst W) (s : StateId) (idx : Nat) (t' : Tr W) (gi go : Nat → Nat) (p : Props) : Fst W :=
  { f.modifySt s (fun st => { st with
      trs := st.trs.set idx t'
      niepsilons := gi st.niepsilons
      noepsilons := go st.noepsilons }) with props := p }

/-- `tr_iter_mut(s)?.set_ilabel(idx, l)` (mutable_fst.rs 93-105, trs_iter_mut.rs 83-98). -/
def setIlabelR (f : Fst W) (s : StateId) (idx : Nat) (l : Label) : Fst W × R Unit :=
  if s < f.states.length then
    match (f.trsOf s)[idx]? with
    | none => (f, .error .err)
    | some t => (f.replaceTr s idx { t with ilabel := l } (updEps t.ilabel l) id
        (Props.newLabels f.props t.ilabel t.olabel l t.olabel), .ok ())
  else (f, .error .err)

/-- `tr_iter_mut(s)?.set_olabel(idx, l)` (mutable_fst.rs 93-105, trs_iter_mut.rs 100-115). -/
def setOlabelR (f : Fst W) (s : StateId) (idx : Nat) (l : Label) : Fst W × R Unit :=
  if s < f.states.length then
    match (f.trsOf s)[idx]? with
    | none => (f, .error .err)
    | some t => (f.replaceTr s idx { t with olabel := l } id (updEps t.olabel l)
        (Props.newLabels f.props t.ilabel t.olabel t.ilabel l), .ok ())
  else (f, .error .err)

/-- `tr_iter_mut(s)?.set_weight(idx, w)` (mutable_fst.rs 93-105, trs_iter_mut.rs 117-126). -/
def setWeightR (f : Fst W) (s : StateId) (idx : Nat) (w : W) : Fst W × R Unit :=
  if s < f.states.length then
    match (f.trsOf s)[idx]? with
    | none => (f, .error .err)
    | some t => (f.replaceTr s idx { t with weight := w } id id
        (Props.newWeights f.props t.weight w), .ok ())
  else (f, .error .err)

/-- `tr_iter_mut(s)?.set_nextstate(idx, q)` (mutable_fst.rs 93-105, trs_iter_mut.rs 128-135): the flags are reduced
*before* the index is checked. -/
def setNextstateR (f : Fst W) (s : StateId) (idx : Nat) (q : StateId) : Fst W × R Unit :=
  if s < f.states.length then
    match (f.trsOf s)[idx]? with
    | none => ({ f with props := Props.keepRelevant f.props }, .error .err)
    | some t => (f.replaceTr s idx { t with nextstate := q } id id (Props.keepRelevant f.props), .ok ())
  else (f, .error .err)

/-- `tr_iter_mut(s)?.set_tr(idx, t')` (mutable_fst.rs 93-105, trs_iter_mut.rs 137-147). -/
def setTrR (f : Fst W) (s : StateId) (idx : Nat) (t' : Tr W) : Fst W × R Unit :=
  if s < f.states.length then
    match (f.trsOf s)[idx]? with
    | none => (f, .error .err)
    | some t => (f.replaceTr s idx t' (updEps t.ilabel t'.ilabel) (updEps t.olabel t'.olabel)
        (Props.newAll f.props t t'), .ok ())
  else (f, .error .err)

/-- `set_labels_unchecked` (trs_iter_mut.rs 190-203) on an existing transition. -/
def setLabels (f : Fst W) (s : StateId) (idx : Nat) (il ol : Label) : Fst W :=
  match (f.trsOf s)[idx]? with
  | none => f
  | some t => f.replaceTr s idx { t with ilabel := il, olabel := ol }
      (updEps t.ilabel il) (updEps t.olabel ol) (Props.newLabels f.props t.ilabel t.olabel il ol)

end weights
end Fst
end Verif
