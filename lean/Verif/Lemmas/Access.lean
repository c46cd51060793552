import Verif.Model.History
import Verif.Spec.Graph

/-! # What each mutator does to the observable queries -/

namespace Verif
set_option linter.unusedSectionVars false
universe u
variable {W : Type u}
namespace Fst

theorem trsOf_eq (f : Fst W) (s) : f.trsOf s = (f.states[s]?.map (·.trs)).getD [] := by
  unfold trsOf; cases f.states[s]? <;> rfl
theorem finOf_eq (f : Fst W) (s) : f.finOf s = (f.states[s]?.bind (·.fin)) := by
  unfold finOf; cases f.states[s]? <;> rfl

theorem trsOf_of_lt {f : Fst W} {s} (h : s < f.numStates) : f.trsOf s = (f.states[s]'h).trs := by
  simp [trsOf, List.getElem?_eq_getElem h]
theorem finOf_of_lt {f : Fst W} {s} (h : s < f.numStates) : f.finOf s = (f.states[s]'h).fin := by
  simp [finOf, List.getElem?_eq_getElem h]
theorem trsOf_of_ge {f : Fst W} {s} (h : f.numStates ≤ s) : f.trsOf s = [] := by
  unfold numStates at h
  simp [trsOf, List.getElem?_eq_none h]
theorem finOf_of_ge {f : Fst W} {s} (h : f.numStates ≤ s) : f.finOf s = none := by
  unfold numStates at h
  simp [finOf, List.getElem?_eq_none h]
theorem lt_of_mem_trsOf {f : Fst W} {s} {t : Tr W} (h : t ∈ f.trsOf s) : s < f.numStates := by
  by_contra hc
  rw [trsOf_of_ge (Nat.le_of_not_lt hc)] at h
  simp at h
theorem lt_of_finOf {f : Fst W} {s} {w : W} (h : f.finOf s = some w) : s < f.numStates := by
  by_contra hc
  rw [finOf_of_ge (Nat.le_of_not_lt hc)] at h
  simp at h

theorem trsOf_eq_of_get {f : Fst W} {s} {st} (h : f.states[s]? = some st) : f.trsOf s = st.trs := by
  simp [trsOf, h]
theorem finOf_eq_of_get {f : Fst W} {s} {st} (h : f.states[s]? = some st) : f.finOf s = st.fin := by
  simp [finOf, h]

@[simp] theorem modifySt_start (f : Fst W) (s g) : (f.modifySt s g).start = f.start := rfl
@[simp] theorem modifySt_props (f : Fst W) (s g) : (f.modifySt s g).props = f.props := rfl
@[simp] theorem modifySt_numStates (f : Fst W) (s g) : (f.modifySt s g).numStates = f.numStates := by
  simp [modifySt, numStates]
theorem modifySt_get (f : Fst W) (s g q) :
    (f.modifySt s g).states[q]? = if q = s then f.states[q]?.map g else f.states[q]? := by
  simp only [modifySt, List.getElem?_modify]
  by_cases h : s = q
  · subst h; simp
  · have h' : q ≠ s := fun e => h e.symm
    simp [h, h']

theorem modifySt_trsOf (f : Fst W) (s g q) :
    (f.modifySt s g).trsOf q = if q = s then (f.states[q]?.map (fun st => (g st).trs)).getD [] else f.trsOf q := by
  rw [trsOf_eq, modifySt_get]
  split
  · simp [Option.map_map, Function.comp_def]
  · rw [trsOf_eq]
theorem modifySt_finOf (f : Fst W) (s g q) :
    (f.modifySt s g).finOf q = if q = s then (f.states[q]?.bind (fun st => (g st).fin)) else f.finOf q := by
  rw [finOf_eq, modifySt_get]
  split
  · simp [Option.bind_map, Function.comp_def]
  · rw [finOf_eq]

/-- Changing the flags does not change the queries. -/
@[simp] theorem trsOf_withProps (f : Fst W) (p q) : ({ f with props := p } : Fst W).trsOf q = f.trsOf q := rfl
@[simp] theorem finOf_withProps (f : Fst W) (p q) : ({ f with props := p } : Fst W).finOf q = f.finOf q := rfl
@[simp] theorem numStates_withProps (f : Fst W) (p) : ({ f with props := p } : Fst W).numStates = f.numStates := rfl

@[simp] theorem new_trsOf (s) : (new : Fst W).trsOf s = [] := by simp [new, trsOf]
@[simp] theorem new_finOf (s) : (new : Fst W).finOf s = none := by simp [new, finOf]
@[simp] theorem new_numStates : (new : Fst W).numStates = 0 := rfl
@[simp] theorem new_start : (new : Fst W).start = none := rfl

@[simp] theorem setStart_trsOf (f : Fst W) (s q) : (f.setStart s).trsOf q = f.trsOf q := rfl
@[simp] theorem setStart_finOf (f : Fst W) (s q) : (f.setStart s).finOf q = f.finOf q := rfl
@[simp] theorem setStart_numStates (f : Fst W) (s) : (f.setStart s).numStates = f.numStates := rfl
@[simp] theorem setStart_start (f : Fst W) (s) : (f.setStart s).start = some s := rfl
@[simp] theorem setStart_states (f : Fst W) (s) : (f.setStart s).states = f.states := rfl

section
variable [Zero W] [One W] [DecidableEq W]

@[simp] theorem setFinal_trsOf (f : Fst W) (s w q) : (f.setFinal s w).trsOf q = f.trsOf q := by
  unfold setFinal; rw [trsOf_withProps, modifySt_trsOf]
  split
  · rw [trsOf_eq]
  · rfl
theorem setFinal_finOf (f : Fst W) (s w q) :
    (f.setFinal s w).finOf q = if q = s ∧ s < f.numStates then some w else f.finOf q := by
  unfold setFinal; rw [finOf_withProps, modifySt_finOf]
  by_cases h : q = s
  · subst h
    by_cases hl : q < f.numStates
    · have hl' : q < f.states.length := hl
      simp [hl, List.getElem?_eq_getElem hl']
    · have hl' : f.states.length ≤ q := Nat.le_of_not_lt hl
      simp [hl, List.getElem?_eq_none hl', finOf]
  · simp [h]
@[simp] theorem setFinal_numStates (f : Fst W) (s w) : (f.setFinal s w).numStates = f.numStates :=
  modifySt_numStates f s _
@[simp] theorem setFinal_start (f : Fst W) (s w) : (f.setFinal s w).start = f.start := rfl

@[simp] theorem delFinal_trsOf (f : Fst W) (s q) : (f.delFinal s).trsOf q = f.trsOf q := by
  unfold delFinal; rw [trsOf_withProps, modifySt_trsOf]
  split
  · rw [trsOf_eq]
  · rfl
theorem delFinal_finOf (f : Fst W) (s q) :
    (f.delFinal s).finOf q = if q = s then none else f.finOf q := by
  unfold delFinal; rw [finOf_withProps, modifySt_finOf]
  split <;> simp
@[simp] theorem delFinal_numStates (f : Fst W) (s) : (f.delFinal s).numStates = f.numStates :=
  modifySt_numStates f s _
@[simp] theorem delFinal_start (f : Fst W) (s) : (f.delFinal s).start = f.start := rfl

theorem addTr_trsOf (f : Fst W) (s t q) :
    (f.addTr s t).trsOf q = if q = s ∧ s < f.numStates then f.trsOf s ++ [t] else f.trsOf q := by
  unfold addTr; rw [trsOf_withProps, modifySt_trsOf]
  by_cases h : q = s
  · subst h
    by_cases hl : q < f.numStates
    · have hl' : q < f.states.length := hl
      simp [hl, List.getElem?_eq_getElem hl', State.pushTr, trsOf]
    · have hl' : f.states.length ≤ q := Nat.le_of_not_lt hl
      simp [hl, List.getElem?_eq_none hl', trsOf]
  · simp [h]
@[simp] theorem addTr_finOf (f : Fst W) (s t q) : (f.addTr s t).finOf q = f.finOf q := by
  unfold addTr; rw [finOf_withProps, modifySt_finOf]
  split
  · rw [finOf_eq]; rfl
  · rfl
@[simp] theorem addTr_numStates (f : Fst W) (s t) : (f.addTr s t).numStates = f.numStates :=
  modifySt_numStates f s _
@[simp] theorem addTr_start (f : Fst W) (s t) : (f.addTr s t).start = f.start := rfl

theorem setTrs_trsOf (f : Fst W) (s ts q) :
    (f.setTrs s ts).trsOf q = if q = s ∧ s < f.numStates then ts else f.trsOf q := by
  unfold setTrs; rw [trsOf_withProps, modifySt_trsOf]
  by_cases h : q = s
  · subst h
    by_cases hl : q < f.numStates
    · have hl' : q < f.states.length := hl
      simp [hl, List.getElem?_eq_getElem hl']
    · have hl' : f.states.length ≤ q := Nat.le_of_not_lt hl
      simp [hl, List.getElem?_eq_none hl', trsOf]
  · simp [h]
@[simp] theorem setTrs_finOf (f : Fst W) (s ts q) : (f.setTrs s ts).finOf q = f.finOf q := by
  unfold setTrs; rw [finOf_withProps, modifySt_finOf]
  split
  · rw [finOf_eq]
  · rfl
@[simp] theorem setTrs_numStates (f : Fst W) (s ts) : (f.setTrs s ts).numStates = f.numStates :=
  modifySt_numStates f s _
@[simp] theorem setTrs_start (f : Fst W) (s ts) : (f.setTrs s ts).start = f.start := rfl

theorem replaceTr_trsOf (f : Fst W) (s idx t' gi go p q) :
    (f.replaceTr s idx t' gi go p).trsOf q = if q = s then (f.trsOf s).set idx t' else f.trsOf q := by
  unfold replaceTr; rw [trsOf_withProps, modifySt_trsOf]
  by_cases h : q = s
  · subst h
    simp only [if_true, trsOf]
    cases f.states[q]? <;> simp
  · simp [h]
@[simp] theorem replaceTr_finOf (f : Fst W) (s idx t' gi go p q) :
    (f.replaceTr s idx t' gi go p).finOf q = f.finOf q := by
  unfold replaceTr; rw [finOf_withProps, modifySt_finOf]
  split
  · rw [finOf_eq]
  · rfl
@[simp] theorem replaceTr_numStates (f : Fst W) (s idx t' gi go p) :
    (f.replaceTr s idx t' gi go p).numStates = f.numStates := modifySt_numStates f s _
@[simp] theorem replaceTr_start (f : Fst W) (s idx t' gi go p) :
    (f.replaceTr s idx t' gi go p).start = f.start := rfl

end

@[simp] theorem addStates_trsOf (f : Fst W) (n q) : (f.addStates n).trsOf q = f.trsOf q := by
  rw [trsOf_eq, trsOf_eq]
  simp only [addStates, List.getElem?_append]
  split
  · rfl
  · rename_i h
    rw [List.getElem?_eq_none (Nat.le_of_not_lt h), List.getElem?_replicate]
    split <;> simp [State.new]
@[simp] theorem addStates_finOf (f : Fst W) (n q) : (f.addStates n).finOf q = f.finOf q := by
  rw [finOf_eq, finOf_eq]
  simp only [addStates, List.getElem?_append]
  split
  · rfl
  · rename_i h
    rw [List.getElem?_eq_none (Nat.le_of_not_lt h), List.getElem?_replicate]
    split <;> simp [State.new]
@[simp] theorem addStates_numStates (f : Fst W) (n) : (f.addStates n).numStates = f.numStates + n := by
  simp [addStates, numStates]
@[simp] theorem addStates_start (f : Fst W) (n) : (f.addStates n).start = f.start := rfl

theorem addState_eq (f : Fst W) : f.addState = f.addStates 1 := rfl
@[simp] theorem addState_trsOf (f : Fst W) (q) : f.addState.trsOf q = f.trsOf q := addStates_trsOf f 1 q
@[simp] theorem addState_finOf (f : Fst W) (q) : f.addState.finOf q = f.finOf q := addStates_finOf f 1 q
@[simp] theorem addState_numStates (f : Fst W) : f.addState.numStates = f.numStates + 1 := addStates_numStates f 1
@[simp] theorem addState_start (f : Fst W) : f.addState.start = f.start := rfl

theorem delTrs_trsOf (f : Fst W) (s q) : (f.delTrs s).trsOf q = if q = s then [] else f.trsOf q := by
  unfold delTrs; rw [trsOf_withProps, modifySt_trsOf]
  split
  · cases f.states[q]? <;> simp
  · rfl
@[simp] theorem delTrs_finOf (f : Fst W) (s q) : (f.delTrs s).finOf q = f.finOf q := by
  unfold delTrs; rw [finOf_withProps, modifySt_finOf]
  split
  · rw [finOf_eq]
  · rfl
@[simp] theorem delTrs_numStates (f : Fst W) (s) : (f.delTrs s).numStates = f.numStates :=
  modifySt_numStates f s _
@[simp] theorem delTrs_start (f : Fst W) (s) : (f.delTrs s).start = f.start := rfl

/-- Setting a state directly. -/
theorem set_trsOf (f : Fst W) (s : Nat) (st : State W) (p) (h : s < f.numStates) (q) :
    ({ f with states := f.states.set s st, props := p } : Fst W).trsOf q = if q = s then st.trs else f.trsOf q := by
  simp only [trsOf, List.getElem?_set]
  by_cases hq : s = q
  · subst hq
    have : s < f.states.length := h
    simp [this]
  · have hq' : q ≠ s := fun e => hq e.symm
    simp [hq, hq']
theorem set_finOf (f : Fst W) (s : Nat) (st : State W) (p) (h : s < f.numStates) (q) :
    ({ f with states := f.states.set s st, props := p } : Fst W).finOf q = if q = s then st.fin else f.finOf q := by
  simp only [finOf, List.getElem?_set]
  by_cases hq : s = q
  · subst hq
    have : s < f.states.length := h
    simp [this]
  · have hq' : q ≠ s := fun e => hq e.symm
    simp [hq, hq']

end Fst
end Verif
