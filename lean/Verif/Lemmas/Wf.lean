import Verif.Lemmas.Counters
import Verif.Spec.History

/-! # Well-formedness along histories -/

namespace Verif
set_option linter.unusedSectionVars false
universe u
variable {W : Type u}
namespace Fst

/-- Every start state is in range. -/
def StartLt (f : Fst W) : Prop := ∀ i, f.start = some i → i < f.numStates
/-- All targets are in range, stated on stored states. -/
def NextLt (f : Fst W) : Prop := ∀ (s : Nat) (st : State W), f.states[s]? = some st → ∀ t ∈ st.trs, t.nextstate < f.numStates

theorem nextLt_iff (f : Fst W) : f.NextLt ↔ ∀ s, ∀ t ∈ f.trsOf s, t.nextstate < f.numStates := by
  constructor
  · intro h s t ht
    cases hs : f.states[s]? with
    | none => simp [trsOf_eq, hs] at ht
    | some st => rw [trsOf_eq_of_get hs] at ht; exact h s st hs t ht
  · intro h s st hs t ht
    exact h s t (by rw [trsOf_eq_of_get hs]; exact ht)

theorem nextLt_modifySt {f : Fst W} (h : f.NextLt) (s g)
    (hg : ∀ st, f.states[s]? = some st → (∀ t ∈ st.trs, t.nextstate < f.numStates) →
      ∀ t ∈ (g st).trs, t.nextstate < f.numStates) (p) :
    ({ f.modifySt s g with props := p } : Fst W).NextLt := by
  intro q st hq t ht
  have hq' : (f.modifySt s g).states[q]? = some st := hq
  show t.nextstate < (f.modifySt s g).numStates
  rw [modifySt_numStates]
  rw [modifySt_get] at hq'
  split at hq'
  · rename_i e
    subst e
    cases hs : f.states[q]? with
    | none => rw [hs] at hq'; simp at hq'
    | some st' =>
      rw [hs] at hq'
      simp at hq'
      rw [← hq'] at ht
      exact hg st' hs (h q st' hs) t ht
  · exact h q st hq' t ht

theorem startLt_modifySt {f : Fst W} (h : f.StartLt) (s g p) :
    ({ f.modifySt s g with props := p } : Fst W).StartLt := by
  intro i hi
  show i < (f.modifySt s g).numStates
  rw [modifySt_numStates]
  exact h i hi

theorem startLt_delStates {f g : Fst W} {ds} (hg : f.delStates ds = .ok g) : g.StartLt := by
  intro i hi
  obtain ⟨-, hst, -⟩ := delStates_inv hg
  rw [delStates_start hg] at hi
  rw [delStates_numStates hg]
  cases hs : f.start with
  | none => rw [hs] at hi; simp at hi
  | some q =>
    rw [hs] at hi
    simp only [Option.bind_some] at hi
    split at hi
    · simp at hi
    · rename_i hd
      cases hi
      exact newNumber_lt ds (hst q hs) hd

theorem nextLt_delStates {f g : Fst W} {ds} (hg : f.delStates ds = .ok g) : g.NextLt := by
  rw [nextLt_iff]
  intro i t ht
  obtain ⟨-, -, hn⟩ := delStates_inv hg
  rw [delStates_numStates hg]
  have hi : i < newNumber ds f.numStates := by rw [← delStates_numStates hg]; exact lt_of_mem_trsOf ht
  rw [← survivors_length] at hi
  have hs : (survivors f.numStates ds)[i]? = some (survivors f.numStates ds)[i] := List.getElem?_eq_getElem hi
  rw [delStates_trsOf hg hs] at ht
  have h2 := survivors_get_inv ds hs
  simp only [survivingTrs, List.mem_map, List.mem_filter, decide_eq_true_eq] at ht
  obtain ⟨t0, ⟨ht0, hd⟩, rfl⟩ := ht
  exact newNumber_lt ds (hn _ h2.1 h2.2.1 t0 ht0) hd

theorem delTrIdx_sublist (st : State W) (is : List Nat) {st'} (he : delTrIdx st is = .ok st') :
    st'.trs.Sublist st.trs ∧ st'.fin = st.fin := by
  induction is generalizing st' with
  | nil => simp [delTrIdx] at he; rw [← he]; exact ⟨List.Sublist.refl _, rfl⟩
  | cons i is ih =>
    rw [delTrIdx] at he
    split at he
    · simp at he
    · rename_i st1 h1
      have hc := ih h1
      split at he
      · simp at he
      · cases he
        exact ⟨(List.eraseIdx_sublist _ _).trans hc.1, hc.2⟩

theorem sumAux_next [Add W] (p : Tr W) (ts ni no) :
    ∀ t ∈ (sumAux p ts ni no).1, ∃ t' ∈ p :: ts, t'.nextstate = t.nextstate := by
  induction ts generalizing p ni no with
  | nil => intro t ht; simp [sumAux] at ht; subst ht; exact ⟨t, by simp, rfl⟩
  | cons a ts ih =>
    intro t ht
    rw [sumAux] at ht
    split at ht
    · obtain ⟨t', h1, h2⟩ := ih _ _ _ t ht
      rcases List.mem_cons.1 h1 with h1 | h1
      · refine ⟨p, by simp, ?_⟩
        rw [← h2, h1]
      · exact ⟨t', by simp [h1], h2⟩
    · rcases List.mem_cons.1 ht with h1 | h1
      · exact ⟨p, by simp, by rw [h1]⟩
      · obtain ⟨t', h1, h2⟩ := ih _ _ _ t h1
        exact ⟨t', List.mem_cons_of_mem _ h1, h2⟩

theorem sumSt_next [Add W] (st : State W) : ∀ t ∈ (sumSt st).trs, ∃ t' ∈ st.trs, t'.nextstate = t.nextstate := by
  intro t ht
  have hp := sortTrsBy_perm trLe st.trs
  unfold sumSt at ht
  simp only at ht
  cases hl : sortTrsBy trLe st.trs with
  | nil => rw [hl] at ht; simp [sumLoop] at ht
  | cons a ts =>
    rw [hl] at ht
    obtain ⟨t', h1, h2⟩ := sumAux_next a ts _ _ t ht
    exact ⟨t', hp.mem_iff.1 (by rw [hl]; exact h1), h2⟩

variable [Zero W] [One W] [Add W] [DecidableEq W]

theorem step_start {f g : Fst W} {op : Op W} {b} (h : f.StartLt) (hs : step f op = some (g, b)) :
    g.StartLt := by
  cases op with
  | setStart s =>
    simp only [step, setStartR, Option.some.injEq, Prod.mk.injEq] at hs
    obtain ⟨rfl, -⟩ := hs
    split
    · intro i hi; cases hi; assumption
    · exact h
  | addState =>
    simp only [step, Option.some.injEq, Prod.mk.injEq] at hs
    obtain ⟨rfl, -⟩ := hs
    intro i hi; have := h i hi; simp [numStates, addState, addStates] at *; omega
  | addStates n =>
    simp only [step, Option.some.injEq, Prod.mk.injEq] at hs
    obtain ⟨rfl, -⟩ := hs
    intro i hi; have := h i hi; simp [numStates, addStates] at *; omega
  | delState s =>
    simp only [step] at hs
    split at hs <;> simp only [Option.some.injEq, Prod.mk.injEq, reduceCtorEq] at hs
    · obtain ⟨rfl, -⟩ := hs
      rename_i he
      unfold delState at he
      split at he
      · exact startLt_delStates he
      · simp at he
    · obtain ⟨rfl, -⟩ := hs; exact h
  | delStates ds =>
    simp only [step] at hs
    split at hs <;> simp only [Option.some.injEq, Prod.mk.injEq, reduceCtorEq] at hs
    · obtain ⟨rfl, -⟩ := hs
      rename_i he
      exact startLt_delStates he
    · obtain ⟨rfl, -⟩ := hs; exact h
  | delAllStates =>
    simp only [step, Option.some.injEq, Prod.mk.injEq] at hs
    obtain ⟨rfl, -⟩ := hs
    intro i hi
    simp [delAllStates] at hi
  | delTrsIdSorted s is =>
    simp only [step] at hs
    split at hs
    · split at hs
      · simp only [Option.some.injEq, Prod.mk.injEq] at hs
        obtain ⟨rfl, -⟩ := hs
        rename_i he
        unfold delTrsIdSorted at he
        split at he
        · cases he; exact h
        · split at he
          · simp at he
          · cases he
            intro i hi
            have := h i hi
            simpa [numStates] using this
      · simp at hs
    · simp at hs
  | setTrs s ts =>
    simp only [step] at hs
    split at hs
    · simp only [Option.some.injEq, Prod.mk.injEq] at hs
      obtain ⟨rfl, -⟩ := hs
      exact startLt_modifySt h s _ _
    · simp at hs
  | setFinal s w =>
    simp only [step, setFinalR, Option.some.injEq, Prod.mk.injEq] at hs
    obtain ⟨rfl, -⟩ := hs
    split
    · exact startLt_modifySt h s _ _
    · exact h
  | delFinal s =>
    simp only [step, delFinalR, Option.some.injEq, Prod.mk.injEq] at hs
    obtain ⟨rfl, -⟩ := hs
    split
    · exact startLt_modifySt h s _ _
    · exact h
  | takeFinal s =>
    simp only [step, takeFinalR, Option.some.injEq, Prod.mk.injEq] at hs
    obtain ⟨rfl, -⟩ := hs
    split
    · exact startLt_modifySt h s _ _
    · exact h
  | addTr s t =>
    simp only [step, addTrR, Option.some.injEq, Prod.mk.injEq] at hs
    obtain ⟨rfl, -⟩ := hs
    split
    · exact startLt_modifySt h s _ _
    · exact h
  | delTrs s =>
    simp only [step, delTrsR, Option.some.injEq, Prod.mk.injEq] at hs
    obtain ⟨rfl, -⟩ := hs
    split
    · exact startLt_modifySt h s _ _
    · exact h
  | popTrs s =>
    simp only [step, popTrsR, Option.some.injEq, Prod.mk.injEq] at hs
    obtain ⟨rfl, -⟩ := hs
    split
    · exact startLt_modifySt h s _ _
    · exact h
  | setIlabel s i l =>
    simp only [step, setIlabelR, Option.some.injEq, Prod.mk.injEq] at hs
    obtain ⟨rfl, -⟩ := hs
    split
    · split
      · exact h
      · exact startLt_modifySt h s _ _
    · exact h
  | setOlabel s i l =>
    simp only [step, setOlabelR, Option.some.injEq, Prod.mk.injEq] at hs
    obtain ⟨rfl, -⟩ := hs
    split
    · split
      · exact h
      · exact startLt_modifySt h s _ _
    · exact h
  | setWeight s i w =>
    simp only [step, setWeightR, Option.some.injEq, Prod.mk.injEq] at hs
    obtain ⟨rfl, -⟩ := hs
    split
    · split
      · exact h
      · exact startLt_modifySt h s _ _
    · exact h
  | setNextstate s i q =>
    simp only [step, setNextstateR, Option.some.injEq, Prod.mk.injEq] at hs
    obtain ⟨rfl, -⟩ := hs
    split
    · split
      · exact h
      · exact startLt_modifySt h s _ _
    · exact h
  | setTr s i t =>
    simp only [step, setTrR, Option.some.injEq, Prod.mk.injEq] at hs
    obtain ⟨rfl, -⟩ := hs
    split
    · split
      · exact h
      · exact startLt_modifySt h s _ _
    · exact h
  | sortTrs s le =>
    simp only [step] at hs
    split at hs
    · simp only [Option.some.injEq, Prod.mk.injEq] at hs
      obtain ⟨rfl, -⟩ := hs
      exact startLt_modifySt h s _ f.props
    · simp at hs
  | uniqueTrs s =>
    simp only [step] at hs
    split at hs
    · simp only [Option.some.injEq, Prod.mk.injEq] at hs
      obtain ⟨rfl, -⟩ := hs
      exact startLt_modifySt h s _ f.props
    · simp at hs
  | sumTrs s =>
    simp only [step] at hs
    split at hs
    · simp only [Option.some.injEq, Prod.mk.injEq] at hs
      obtain ⟨rfl, -⟩ := hs
      exact startLt_modifySt h s _ f.props
    · simp at hs

theorem nextLt_replaceTr {f : Fst W} (h : f.NextLt) {s idx t' gi go p} (ht' : t'.nextstate < f.numStates) :
    (f.replaceTr s idx t' gi go p).NextLt := by
  refine nextLt_modifySt h s _ ?_ _
  intro st _ hc t ht
  rcases List.mem_or_eq_of_mem_set ht with h1 | h1
  · exact hc t h1
  · rw [h1]; exact ht'

theorem step_next {f g : Fst W} {op : Op W} {b} (h : f.NextLt) (ho : op.targetsBelow f.numStates)
    (hs : step f op = some (g, b)) : g.NextLt := by
  cases op with
  | setStart s =>
    simp only [step, setStartR, Option.some.injEq, Prod.mk.injEq] at hs
    obtain ⟨rfl, -⟩ := hs
    split <;> exact h
  | addState =>
    simp only [step, Option.some.injEq, Prod.mk.injEq] at hs
    obtain ⟨rfl, -⟩ := hs
    rw [nextLt_iff] at *
    intro s t ht
    rw [addState_trsOf] at ht
    have := h s t ht
    simp [numStates, addState, addStates] at *; omega
  | addStates n =>
    simp only [step, Option.some.injEq, Prod.mk.injEq] at hs
    obtain ⟨rfl, -⟩ := hs
    rw [nextLt_iff] at *
    intro s t ht
    rw [addStates_trsOf] at ht
    have := h s t ht
    simp [numStates, addStates] at *; omega
  | delState s =>
    simp only [step] at hs
    split at hs <;> simp only [Option.some.injEq, Prod.mk.injEq, reduceCtorEq] at hs
    · obtain ⟨rfl, -⟩ := hs
      rename_i he
      unfold delState at he
      split at he
      · exact nextLt_delStates he
      · simp at he
    · obtain ⟨rfl, -⟩ := hs; exact h
  | delStates ds =>
    simp only [step] at hs
    split at hs <;> simp only [Option.some.injEq, Prod.mk.injEq, reduceCtorEq] at hs
    · obtain ⟨rfl, -⟩ := hs
      rename_i he
      exact nextLt_delStates he
    · obtain ⟨rfl, -⟩ := hs; exact h
  | delAllStates =>
    simp only [step, Option.some.injEq, Prod.mk.injEq] at hs
    obtain ⟨rfl, -⟩ := hs
    intro i st hi
    simp [delAllStates] at hi
  | delTrsIdSorted s is =>
    simp only [step] at hs
    split at hs
    · split at hs
      · simp only [Option.some.injEq, Prod.mk.injEq] at hs
        obtain ⟨rfl, -⟩ := hs
        rename_i he
        unfold delTrsIdSorted at he
        split at he
        · cases he; exact h
        · rename_i st hst
          split at he
          · simp at he
          · rename_i st' h1
            cases he
            intro q st'' hq t ht
            simp only [List.getElem?_set] at hq
            have : t.nextstate < f.numStates := by
              split at hq
              · split at hq
                · cases hq
                  exact h s st hst t ((delTrIdx_sublist st is h1).1.subset ht)
                · simp at hq
              · exact h q st'' hq t ht
            simpa [numStates] using this
      · simp at hs
    · simp at hs
  | setTrs s ts =>
    simp only [step] at hs
    split at hs
    · simp only [Option.some.injEq, Prod.mk.injEq] at hs
      obtain ⟨rfl, -⟩ := hs
      refine nextLt_modifySt h s _ ?_ _
      intro st _ _
      exact ho
    · simp at hs
  | setFinal s w =>
    simp only [step, setFinalR, Option.some.injEq, Prod.mk.injEq] at hs
    obtain ⟨rfl, -⟩ := hs
    split
    · refine nextLt_modifySt h s _ ?_ _
      intro st _ hc
      exact hc
    · exact h
  | delFinal s =>
    simp only [step, delFinalR, Option.some.injEq, Prod.mk.injEq] at hs
    obtain ⟨rfl, -⟩ := hs
    split
    · refine nextLt_modifySt h s _ ?_ _
      intro st _ hc
      exact hc
    · exact h
  | takeFinal s =>
    simp only [step, takeFinalR, Option.some.injEq, Prod.mk.injEq] at hs
    obtain ⟨rfl, -⟩ := hs
    split
    · refine nextLt_modifySt h s _ ?_ _
      intro st _ hc
      exact hc
    · exact h
  | addTr s t =>
    simp only [step, addTrR, Option.some.injEq, Prod.mk.injEq] at hs
    obtain ⟨rfl, -⟩ := hs
    split
    · refine nextLt_modifySt h s _ ?_ _
      intro st _ hc t' ht'
      simp only [State.pushTr, List.mem_append, List.mem_singleton] at ht'
      rcases ht' with h1 | h1
      · exact hc t' h1
      · rw [h1]; exact ho
    · exact h
  | delTrs s =>
    simp only [step, delTrsR, Option.some.injEq, Prod.mk.injEq] at hs
    obtain ⟨rfl, -⟩ := hs
    split
    · refine nextLt_modifySt h s _ ?_ _
      intro st _ _ t ht
      simp at ht
    · exact h
  | popTrs s =>
    simp only [step, popTrsR, Option.some.injEq, Prod.mk.injEq] at hs
    obtain ⟨rfl, -⟩ := hs
    split
    · refine nextLt_modifySt h s _ ?_ _
      intro st _ _ t ht
      simp at ht
    · exact h
  | setIlabel s i l =>
    simp only [step, setIlabelR, Option.some.injEq, Prod.mk.injEq] at hs
    obtain ⟨rfl, -⟩ := hs
    split
    · split
      · exact h
      · rename_i ht
        have := (nextLt_iff f).1 h s _ (List.mem_of_getElem? ht)
        exact nextLt_replaceTr h this
    · exact h
  | setOlabel s i l =>
    simp only [step, setOlabelR, Option.some.injEq, Prod.mk.injEq] at hs
    obtain ⟨rfl, -⟩ := hs
    split
    · split
      · exact h
      · rename_i ht
        have := (nextLt_iff f).1 h s _ (List.mem_of_getElem? ht)
        exact nextLt_replaceTr h this
    · exact h
  | setWeight s i w =>
    simp only [step, setWeightR, Option.some.injEq, Prod.mk.injEq] at hs
    obtain ⟨rfl, -⟩ := hs
    split
    · split
      · exact h
      · rename_i ht
        have := (nextLt_iff f).1 h s _ (List.mem_of_getElem? ht)
        exact nextLt_replaceTr h this
    · exact h
  | setNextstate s i q =>
    simp only [step, setNextstateR, Option.some.injEq, Prod.mk.injEq] at hs
    obtain ⟨rfl, -⟩ := hs
    split
    · split
      · exact h
      · exact nextLt_replaceTr h ho
    · exact h
  | setTr s i t =>
    simp only [step, setTrR, Option.some.injEq, Prod.mk.injEq] at hs
    obtain ⟨rfl, -⟩ := hs
    split
    · split
      · exact h
      · exact nextLt_replaceTr h ho
    · exact h
  | sortTrs s le =>
    simp only [step] at hs
    split at hs
    · simp only [Option.some.injEq, Prod.mk.injEq] at hs
      obtain ⟨rfl, -⟩ := hs
      refine nextLt_modifySt h s _ ?_ f.props
      intro st _ hc t ht
      exact hc t ((sortTrsBy_perm le st.trs).mem_iff.1 ht)
    · simp at hs
  | uniqueTrs s =>
    simp only [step] at hs
    split at hs
    · simp only [Option.some.injEq, Prod.mk.injEq] at hs
      obtain ⟨rfl, -⟩ := hs
      refine nextLt_modifySt h s _ ?_ f.props
      intro st _ hc t ht
      have : t ∈ dedupTrs (sortTrsBy trLe st.trs) := by
        unfold uniqueSt at ht
        simp only at ht
        split at ht <;> exact ht
      rw [mem_dedupTrs, (sortTrsBy_perm trLe st.trs).mem_iff] at this
      exact hc t this
    · simp at hs
  | sumTrs s =>
    simp only [step] at hs
    split at hs
    · simp only [Option.some.injEq, Prod.mk.injEq] at hs
      obtain ⟨rfl, -⟩ := hs
      refine nextLt_modifySt h s _ ?_ f.props
      intro st _ hc t ht
      obtain ⟨t', h1, h2⟩ := sumSt_next st t ht
      rw [← h2]; exact hc t' h1
    · simp at hs

/-- An invariant of every step is an invariant of every run. -/
theorem run_induct {P : Fst W → Prop} (hstep : ∀ f op g b, P f → step f op = some (g, b) → P g)
    {f g : Fst W} {ops} (hf : P f) (hr : runFrom f ops = some g) : P g := by
  induction ops generalizing f with
  | nil => simp [runFrom] at hr; rw [← hr]; exact hf
  | cons op ops ih =>
    rw [runFrom] at hr
    split at hr
    · simp at hr
    · rename_i g' b hs
      exact ih (hstep _ _ _ _ hf hs) hr

theorem run_next {f g : Fst W} {ops} (hf : f.NextLt) (ht : TargetsExist f ops) (hr : runFrom f ops = some g) :
    g.NextLt := by
  induction ops generalizing f with
  | nil => simp [runFrom] at hr; rw [← hr]; exact hf
  | cons op ops ih =>
    rw [runFrom] at hr
    rw [TargetsExist] at ht
    split at hr
    · simp at hr
    · rename_i g' b hs
      rw [hs] at ht
      exact ih (step_next hf ht.1 hs) ht.2 hr

end Fst
end Verif
