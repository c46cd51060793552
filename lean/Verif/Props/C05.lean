import Verif.Lemmas.Access
import Verif.Lemmas.DecHist

/-! # C05: failed calls change nothing; C06: frame conditions -/

namespace Verif
set_option linter.unusedSectionVars false
universe u v
variable {W : Type u} [Zero W] [One W] [DecidableEq W]

/-- A mutating call errs exactly when `c` fails, never panics, and on error the FST is unchanged (flags included). -/
def FailsCleanly {α : Type v} (f : Fst W) (c : Prop) (r : Fst W × R α) : Prop :=
  (r.2 = .error .err ↔ ¬ c) ∧ r.2 ≠ .error .panic ∧ (r.2 = .error .err → r.1 = f)

/-- A query errs exactly when `c` fails, and never panics. -/
def QueryFailsCleanly {α : Type v} (c : Prop) (r : R α) : Prop :=
  (r = .error .err ↔ ¬ c) ∧ r ≠ .error .panic

theorem failsCleanly_ite {α : Type v} (f g : Fst W) (s : StateId) (a : α) :
    FailsCleanly f (s < f.numStates) (if s < f.states.length then (g, .ok a) else (f, .error .err)) := by
  unfold FailsCleanly Fst.numStates
  by_cases h : s < f.states.length <;> simp [h]

theorem failsCleanly_idx (f : Fst W) (s : StateId) (idx : Nat) (g : Tr W → Fst W) :
    FailsCleanly f (s < f.numStates ∧ idx < (f.trsOf s).length)
      (if s < f.states.length then
        (match (f.trsOf s)[idx]? with | none => (f, .error .err) | some t => (g t, (.ok () : R Unit)))
       else (f, .error .err)) := by
  unfold FailsCleanly Fst.numStates
  by_cases h : s < f.states.length
  · by_cases hi : idx < (f.trsOf s).length
    · simp [h, hi, List.getElem?_eq_getElem hi]
    · simp [h, hi, List.getElem?_eq_none (Nat.le_of_not_lt hi)]
  · simp [h]

theorem queryFailsCleanly_match {α : Type v} (f : Fst W) (s : StateId) (g : State W → α) :
    QueryFailsCleanly (s < f.numStates)
      (match f.states[s]? with | some st => (.ok (g st) : R α) | none => .error .err) := by
  unfold QueryFailsCleanly Fst.numStates
  by_cases h : s < f.states.length
  · simp [h]
  · simp [h]

/-- C05, mutators naming a state. -/
theorem C05_mutators_fail_cleanly (f : Fst W) (s : StateId) (w : W) (t : Tr W) :
    FailsCleanly f (s < f.numStates) (f.setStartR s) ∧
    FailsCleanly f (s < f.numStates) (f.setFinalR s w) ∧
    FailsCleanly f (s < f.numStates) (f.addTrR s t) ∧
    FailsCleanly f (s < f.numStates) (f.delFinalR s) ∧
    FailsCleanly f (s < f.numStates) (f.takeFinalR s) ∧
    FailsCleanly f (s < f.numStates) (f.delTrsR s) ∧
    FailsCleanly f (s < f.numStates) (f.popTrsR s) :=
  ⟨failsCleanly_ite f _ s _, failsCleanly_ite f _ s _, failsCleanly_ite f _ s _, failsCleanly_ite f _ s _,
   failsCleanly_ite f _ s _, failsCleanly_ite f _ s _, failsCleanly_ite f _ s _⟩

/-- C05, in-place updates of one transition through `tr_iter_mut`. -/
theorem C05_tr_iter_mut_fails_cleanly (f : Fst W) (s : StateId) (idx : Nat) (l : Label) (w : W) (t : Tr W) :
    FailsCleanly f (s < f.numStates ∧ idx < (f.trsOf s).length) (f.setIlabelR s idx l) ∧
    FailsCleanly f (s < f.numStates ∧ idx < (f.trsOf s).length) (f.setOlabelR s idx l) ∧
    FailsCleanly f (s < f.numStates ∧ idx < (f.trsOf s).length) (f.setWeightR s idx w) ∧
    FailsCleanly f (s < f.numStates ∧ idx < (f.trsOf s).length) (f.setTrR s idx t) :=
  ⟨failsCleanly_idx f s idx _, failsCleanly_idx f s idx _, failsCleanly_idx f s idx _, failsCleanly_idx f s idx _⟩

/-- C05, queries. -/
theorem C05_queries_fail_cleanly (f : Fst W) (s : StateId) :
    QueryFailsCleanly (s < f.numStates) (f.finalWeightR s) ∧ QueryFailsCleanly (s < f.numStates) (f.getTrsR s) ∧
    QueryFailsCleanly (s < f.numStates) (f.numTrsR s) ∧ QueryFailsCleanly (s < f.numStates) (f.isFinalR s) ∧
    QueryFailsCleanly (s < f.numStates) (f.numIEpsR s) ∧ QueryFailsCleanly (s < f.numStates) (f.numOEpsR s) :=
  ⟨queryFailsCleanly_match f s _, queryFailsCleanly_match f s _, queryFailsCleanly_match f s _,
   queryFailsCleanly_match f s _, queryFailsCleanly_match f s _, queryFailsCleanly_match f s _⟩

example : ((Fst.new : Fst Nat).addState.setFinalR 1 3).2 = .error .err ∧
    ((Fst.new : Fst Nat).addState.setFinalR 0 3).2 = .ok () := by decide

/-- The one method for which the flags change although the call fails: `set_nextstate` with a bad index. -/
theorem C05_set_nextstate_not_clean : ∃ (f : Fst Nat) (s idx q : Nat),
    (f.setNextstateR s idx q).2 = .error .err ∧ (f.setNextstateR s idx q).1.props ≠ f.props := by
  refine ⟨(Fst.new : Fst Nat).addState, 0, 5, 0, by decide, ?_⟩
  intro h
  have : ((Fst.new : Fst Nat).addState.setNextstateR 0 5 0).1.props .topSorted =
    (Fst.new : Fst Nat).addState.props .topSorted := by rw [h]
  revert this
  decide

/-- What remains true of `set_nextstate`: on error the states and the start are unchanged and only flags are lost. -/
theorem C05_set_nextstate_partial (f : Fst W) (s : StateId) (idx : Nat) (q : StateId) :
    ((f.setNextstateR s idx q).2 = .error .err ↔ ¬ (s < f.numStates ∧ idx < (f.trsOf s).length)) ∧
    ((f.setNextstateR s idx q).2 = .error .err → (f.setNextstateR s idx q).1.states = f.states ∧
      (f.setNextstateR s idx q).1.start = f.start ∧
      ∀ b, (f.setNextstateR s idx q).1.props b = true → f.props b = true) := by
  unfold Fst.setNextstateR Fst.numStates
  by_cases h : s < f.states.length
  · by_cases hi : idx < (f.trsOf s).length
    · simp [h, hi, List.getElem?_eq_getElem hi]
    · simp [h, hi, List.getElem?_eq_none (Nat.le_of_not_lt hi), Props.keepRelevant]
      intro b hb _; exact hb
  · simp [h]

/-! ## C06 -/

theorem sameAt_of_get {f g : Fst W} {q : StateId} (h : f.states[q]? = g.states[q]?) : f.SameAt g q := by
  simp only [Fst.SameAt, Fst.getTrsR, Fst.finalWeightR, Fst.numTrsR, Fst.numIEpsR, Fst.numOEpsR, h, and_self]

theorem sameAt_modifySt (f : Fst W) (s q : StateId) (g p) (h : q ≠ s) :
    f.SameAt { f.modifySt s g with props := p } q := by
  apply sameAt_of_get
  have := Fst.modifySt_get f s g q
  simp only [h, if_false] at this
  exact this.symm

/-- C06: `add_state` returns a fresh id, the new state is blank, everything else is as before. -/
theorem C06_add_state (f : Fst W) :
    f.addStateR.2 = f.numStates ∧ f.addStateR.1.numStates = f.numStates + 1 ∧ f.addStateR.1.start = f.start ∧
    f.addStateR.1.getTrsR f.numStates = .ok [] ∧ f.addStateR.1.finalWeightR f.numStates = .ok none ∧
    ∀ q, q < f.numStates → f.SameAt f.addStateR.1 q := by
  refine ⟨rfl, by simp [Fst.addStateR, Fst.addState, Fst.numStates], rfl, ?_, ?_, ?_⟩
  · simp [Fst.addStateR, Fst.addState, Fst.numStates, Fst.getTrsR, State.new]
  · simp [Fst.addStateR, Fst.addState, Fst.numStates, Fst.finalWeightR, State.new]
  · intro q hq
    apply sameAt_of_get
    have : q < f.states.length := hq
    simp [Fst.addStateR, Fst.addState, List.getElem?_append, this]

/-- C06: `add_states n` appends `n` blank states. -/
theorem C06_add_states (f : Fst W) (n : Nat) :
    (f.addStates n).numStates = f.numStates + n ∧ (f.addStates n).start = f.start ∧
    (∀ q, q < f.numStates → f.SameAt (f.addStates n) q) ∧
    (∀ q, f.numStates ≤ q → q < f.numStates + n →
      (f.addStates n).getTrsR q = .ok [] ∧ (f.addStates n).finalWeightR q = .ok none) := by
  refine ⟨by simp, rfl, ?_, ?_⟩
  · intro q hq
    apply sameAt_of_get
    have : q < f.states.length := hq
    simp [Fst.addStates, List.getElem?_append, this]
  · intro q h1 h2
    have h3 : ¬ q < f.states.length := Nat.not_lt.2 h1
    have h4 : q - f.states.length < n := by unfold Fst.numStates at *; omega
    simp [Fst.addStates, Fst.getTrsR, Fst.finalWeightR, List.getElem?_append, h3, h4, State.new]

/-- C06: `set_start` changes the start and nothing else. -/
theorem C06_set_start (f : Fst W) (s : StateId) (h : s < f.numStates) :
    (f.setStartR s).1.start = some s ∧ (f.setStartR s).1.numStates = f.numStates ∧
    ∀ q, f.SameAt (f.setStartR s).1 q := by
  have h' : s < f.states.length := h
  simp only [Fst.setStartR, h', if_true]
  exact ⟨rfl, rfl, fun q => sameAt_of_get rfl⟩

/-- C06: `set_final` changes the final weight of the named state and nothing else. -/
theorem C06_set_final (f : Fst W) (s : StateId) (w : W) (h : s < f.numStates) :
    let g := (f.setFinalR s w).1
    g.finalWeightR s = .ok (some w) ∧ g.getTrsR s = f.getTrsR s ∧ g.numIEpsR s = f.numIEpsR s ∧
    g.numOEpsR s = f.numOEpsR s ∧ g.start = f.start ∧ g.numStates = f.numStates ∧ ∀ q, q ≠ s → f.SameAt g q := by
  have h' : s < f.states.length := h
  simp only [Fst.setFinalR, h', if_true]
  have hg : (f.setFinal s w).states[s]? = some { f.states[s] with fin := some w } := by
    have := Fst.modifySt_get f s (fun st => { st with fin := some w }) s
    rw [if_pos rfl, List.getElem?_eq_getElem h'] at this
    exact this
  have hf : f.states[s]? = some f.states[s] := List.getElem?_eq_getElem h'
  refine ⟨?_, ?_, ?_, ?_, rfl, by simp, fun q hq => sameAt_modifySt f s q _ _ hq⟩ <;>
    simp [Fst.finalWeightR, Fst.getTrsR, Fst.numIEpsR, Fst.numOEpsR, hg, hf]

/-- C06: `delete_final_weight` and `take_final_weight` clear the final weight of the named state and nothing else; the latter
returns the old weight. -/
theorem C06_delete_final (f : Fst W) (s : StateId) (h : s < f.numStates) :
    let g := (f.delFinalR s).1
    g.finalWeightR s = .ok none ∧ g.getTrsR s = f.getTrsR s ∧ g.numIEpsR s = f.numIEpsR s ∧
    g.numOEpsR s = f.numOEpsR s ∧ g.start = f.start ∧ g.numStates = f.numStates ∧ (∀ q, q ≠ s → f.SameAt g q) ∧
    (f.takeFinalR s).1 = g ∧ (f.takeFinalR s).2 = f.finalWeightR s := by
  have h' : s < f.states.length := h
  simp only [Fst.delFinalR, Fst.takeFinalR, h', if_true]
  have hg : (f.delFinal s).states[s]? = some { f.states[s] with fin := none } := by
    have := Fst.modifySt_get f s (fun st => { st with fin := none }) s
    rw [if_pos rfl, List.getElem?_eq_getElem h'] at this
    exact this
  have hf : f.states[s]? = some f.states[s] := List.getElem?_eq_getElem h'
  refine ⟨?_, ?_, ?_, ?_, rfl, by simp, fun q hq => sameAt_modifySt f s q _ _ hq, trivial, ?_⟩ <;>
    simp [Fst.finalWeightR, Fst.getTrsR, Fst.numIEpsR, Fst.numOEpsR, Fst.finOf, hg, hf]

/-- C06: `add_tr` appends the transition to the named state's list and changes nothing else. -/
theorem C06_add_tr (f : Fst W) (s : StateId) (t : Tr W) (h : s < f.numStates) :
    let g := (f.addTrR s t).1
    g.getTrsR s = .ok (f.trsOf s ++ [t]) ∧ g.finalWeightR s = f.finalWeightR s ∧ g.start = f.start ∧
    g.numStates = f.numStates ∧ ∀ q, q ≠ s → f.SameAt g q := by
  have h' : s < f.states.length := h
  simp only [Fst.addTrR, h', if_true]
  have hg : (f.addTr s t).states[s]? = some (Fst.State.pushTr f.states[s] t) := by
    have := Fst.modifySt_get f s (fun st => Fst.State.pushTr st t) s
    rw [if_pos rfl, List.getElem?_eq_getElem h'] at this
    exact this
  have hf : f.states[s]? = some f.states[s] := List.getElem?_eq_getElem h'
  refine ⟨?_, ?_, rfl, by simp, fun q hq => sameAt_modifySt f s q _ _ hq⟩ <;>
    simp [Fst.finalWeightR, Fst.getTrsR, Fst.trsOf, Fst.State.pushTr, hg, hf]

/-- C06: `delete_trs` and `pop_trs` empty the named state's list and change nothing else; the latter returns the old list. -/
theorem C06_delete_trs (f : Fst W) (s : StateId) (h : s < f.numStates) :
    let g := (f.delTrsR s).1
    g.getTrsR s = .ok [] ∧ g.finalWeightR s = f.finalWeightR s ∧ g.start = f.start ∧
    g.numStates = f.numStates ∧ (∀ q, q ≠ s → f.SameAt g q) ∧
    (f.popTrsR s).1 = g ∧ (f.popTrsR s).2 = f.getTrsR s := by
  have h' : s < f.states.length := h
  simp only [Fst.delTrsR, Fst.popTrsR, h', if_true]
  have hg : (f.delTrs s).states[s]? = some { f.states[s] with trs := [], niepsilons := 0, noepsilons := 0 } := by
    have := Fst.modifySt_get f s (fun st => { st with trs := [], niepsilons := 0, noepsilons := 0 }) s
    rw [if_pos rfl, List.getElem?_eq_getElem h'] at this
    exact this
  have hf : f.states[s]? = some f.states[s] := List.getElem?_eq_getElem h'
  refine ⟨?_, ?_, rfl, by simp, fun q hq => sameAt_modifySt f s q _ _ hq, trivial, ?_⟩ <;>
    simp [Fst.finalWeightR, Fst.getTrsR, Fst.trsOf, hg, hf]

/-- C06: `set_trs_unchecked` replaces the named state's list and changes nothing else. -/
theorem C06_set_trs (f : Fst W) (s : StateId) (ts : List (Tr W)) (h : s < f.numStates) :
    let g := f.setTrs s ts
    g.getTrsR s = .ok ts ∧ g.finalWeightR s = f.finalWeightR s ∧ g.start = f.start ∧
    g.numStates = f.numStates ∧ ∀ q, q ≠ s → f.SameAt g q := by
  have h' : s < f.states.length := h
  have hg : (f.setTrs s ts).states[s]? = some { f.states[s] with trs := ts, niepsilons := Fst.countEps (ts.map (·.ilabel)), noepsilons := Fst.countEps (ts.map (·.olabel)) } := by
    have := Fst.modifySt_get f s (fun st => { st with trs := ts, niepsilons := Fst.countEps (ts.map (·.ilabel)), noepsilons := Fst.countEps (ts.map (·.olabel)) }) s
    rw [if_pos rfl, List.getElem?_eq_getElem h'] at this
    exact this
  have hf : f.states[s]? = some f.states[s] := List.getElem?_eq_getElem h'
  refine ⟨?_, ?_, rfl, by simp, fun q hq => sameAt_modifySt f s q _ _ hq⟩ <;>
    simp [Fst.finalWeightR, Fst.getTrsR, hg, hf]

/-- C06: a successful in-place update replaces one transition by the expected one and changes nothing else. -/
theorem C06_tr_iter_mut (f : Fst W) (s : StateId) (idx : Nat) (t : Tr W) (hs : s < f.numStates)
    (ht : (f.trsOf s)[idx]? = some t) (l : Label) (w : W) (q' : StateId) (t' : Tr W) :
    ∀ r ∈ [(f.setIlabelR s idx l, { t with ilabel := l }), (f.setOlabelR s idx l, { t with olabel := l }),
        (f.setWeightR s idx w, { t with weight := w }), (f.setNextstateR s idx q', { t with nextstate := q' }),
        (f.setTrR s idx t', t')],
      r.1.2 = .ok () ∧ r.1.1.getTrsR s = .ok ((f.trsOf s).set idx r.2) ∧
      r.1.1.finalWeightR s = f.finalWeightR s ∧ r.1.1.start = f.start ∧ r.1.1.numStates = f.numStates ∧
      ∀ q, q ≠ s → f.SameAt r.1.1 q := by
  have h' : s < f.states.length := hs
  have key : ∀ x gi go p, (f.replaceTr s idx x gi go p).getTrsR s = .ok ((f.trsOf s).set idx x) ∧
      (f.replaceTr s idx x gi go p).finalWeightR s = f.finalWeightR s ∧
      (f.replaceTr s idx x gi go p).start = f.start ∧
      (f.replaceTr s idx x gi go p).numStates = f.numStates ∧
      ∀ q, q ≠ s → f.SameAt (f.replaceTr s idx x gi go p) q := by
    intro x gi go p
    have hg : (f.replaceTr s idx x gi go p).states[s]? = some { f.states[s] with trs := f.states[s].trs.set idx x, niepsilons := gi f.states[s].niepsilons, noepsilons := go f.states[s].noepsilons } := by
      have := Fst.modifySt_get f s (fun st => { st with trs := st.trs.set idx x, niepsilons := gi st.niepsilons, noepsilons := go st.noepsilons }) s
      rw [if_pos rfl, List.getElem?_eq_getElem h'] at this
      exact this
    have hf : f.states[s]? = some f.states[s] := List.getElem?_eq_getElem h'
    refine ⟨?_, ?_, rfl, by simp, fun q hq => sameAt_modifySt f s q _ _ hq⟩ <;>
      simp [Fst.finalWeightR, Fst.getTrsR, Fst.trsOf, hg, hf]
  intro r hr
  simp only [List.mem_cons, List.not_mem_nil, or_false] at hr
  rcases hr with rfl | rfl | rfl | rfl | rfl <;>
    simp only [Fst.setIlabelR, Fst.setOlabelR, Fst.setWeightR, Fst.setNextstateR, Fst.setTrR, h', if_true, ht] <;>
    exact ⟨trivial, key _ _ _ _⟩

example : ((Fst.new : Fst Nat).addState.addTr 0 ⟨1, 2, 3, 0⟩).trsOf 0 = [⟨1, 2, 3, 0⟩] := by decide

end Verif
