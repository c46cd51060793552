import Verif.Lemmas.Truthful
import Verif.Props.C01

/-! # C03: property flags never lie -/

namespace Verif
universe u
variable {W : Type u} [Zero W] [One W] [Add W] [DecidableEq W]

/-- One flag-safe call keeps the flags truthful. -/
theorem C03_step (f g : Fst W) (op : Op W) (b : Bool) (h : f.Truthful) (hop : op.flagSafe f)
    (hs : step f op = some (g, b)) : g.Truthful := by
  cases op with
  | setStart s =>
    simp only [step, Fst.setStartR, Option.some.injEq, Prod.mk.injEq] at hs
    obtain ⟨rfl, -⟩ := hs
    split
    · exact Fst.truthful_setStart h s
    · exact h
  | setFinal s w =>
    simp only [step, Fst.setFinalR, Option.some.injEq, Prod.mk.injEq] at hs
    obtain ⟨rfl, -⟩ := hs
    split
    · rename_i hl; exact Fst.truthful_setFinal h hl w
    · exact h
  | delFinal s =>
    simp only [step, Fst.delFinalR, Option.some.injEq, Prod.mk.injEq] at hs
    obtain ⟨rfl, -⟩ := hs
    split
    · rename_i hl; exact Fst.truthful_delFinal h hl
    · exact h
  | takeFinal s =>
    simp only [step, Fst.takeFinalR, Option.some.injEq, Prod.mk.injEq] at hs
    obtain ⟨rfl, -⟩ := hs
    split
    · rename_i hl; exact Fst.truthful_delFinal h hl
    · exact h
  | addState =>
    simp only [step, Option.some.injEq, Prod.mk.injEq] at hs
    obtain ⟨rfl, -⟩ := hs
    exact Fst.truthful_addStates h 1
  | addStates n =>
    simp only [step, Option.some.injEq, Prod.mk.injEq] at hs
    obtain ⟨rfl, -⟩ := hs
    exact Fst.truthful_addStates h n
  | addTr s t =>
    simp only [step, Fst.addTrR, Option.some.injEq, Prod.mk.injEq] at hs
    obtain ⟨rfl, -⟩ := hs
    split
    · rename_i hl; exact Fst.truthful_addTr h hl t
    · exact h
  | delTrs s =>
    simp only [step, Fst.delTrsR, Option.some.injEq, Prod.mk.injEq] at hs
    obtain ⟨rfl, -⟩ := hs
    split
    · exact Fst.truthful_delTrs h s
    · exact h
  | popTrs s =>
    simp only [step, Fst.popTrsR, Option.some.injEq, Prod.mk.injEq] at hs
    obtain ⟨rfl, -⟩ := hs
    split
    · exact Fst.truthful_delTrs h s
    · exact h
  | delState s =>
    simp only [step] at hs
    split at hs <;> simp only [Option.some.injEq, Prod.mk.injEq, reduceCtorEq] at hs
    · obtain ⟨rfl, -⟩ := hs
      rename_i he
      unfold Fst.delState at he
      split at he
      · refine Fst.truthful_delStates ?_ he
        intro b hb
        simp only [Props.deleteStates, Props.and_apply, Bool.and_eq_true] at hb
        exact h b hb.1
      · simp at he
    · obtain ⟨rfl, -⟩ := hs; exact h
  | delStates ds =>
    simp only [step] at hs
    split at hs <;> simp only [Option.some.injEq, Prod.mk.injEq, reduceCtorEq] at hs
    · obtain ⟨rfl, -⟩ := hs
      rename_i he
      exact Fst.truthful_delStates h he
    · obtain ⟨rfl, -⟩ := hs; exact h
  | delAllStates =>
    simp only [step, Option.some.injEq, Prod.mk.injEq] at hs
    obtain ⟨rfl, -⟩ := hs
    exact Fst.truthful_new
  | delTrsIdSorted s is =>
    simp only [step] at hs
    split at hs
    · split at hs
      · simp only [Option.some.injEq, Prod.mk.injEq] at hs
        obtain ⟨rfl, -⟩ := hs
        rename_i he
        exact Fst.truthful_delTrsIdSorted h he
      · simp at hs
    · simp at hs
  | setTrs s ts =>
    simp only [step] at hs
    split at hs
    · rename_i hl
      simp only [Option.some.injEq, Prod.mk.injEq] at hs
      obtain ⟨rfl, -⟩ := hs
      exact Fst.truthful_setTrs h hl hop ts
    · simp at hs
  | setIlabel s i l =>
    simp only [step, Fst.setIlabelR, Option.some.injEq, Prod.mk.injEq] at hs
    obtain ⟨rfl, -⟩ := hs
    split
    · split
      · exact h
      · rename_i ht
        exact Fst.truthful_replaceTr h ht fun b hb => Fst.updOk_newLabels h (List.mem_of_getElem? ht) _ _ b hb
    · exact h
  | setOlabel s i l =>
    simp only [step, Fst.setOlabelR, Option.some.injEq, Prod.mk.injEq] at hs
    obtain ⟨rfl, -⟩ := hs
    split
    · split
      · exact h
      · rename_i ht
        exact Fst.truthful_replaceTr h ht fun b hb => Fst.updOk_newLabels h (List.mem_of_getElem? ht) _ _ b hb
    · exact h
  | setWeight s i w =>
    simp only [step, Fst.setWeightR, Option.some.injEq, Prod.mk.injEq] at hs
    obtain ⟨rfl, -⟩ := hs
    split
    · split
      · exact h
      · rename_i ht
        exact Fst.truthful_replaceTr h ht fun b hb => Fst.updOk_newWeights h (List.mem_of_getElem? ht) _ b hb
    · exact h
  | setNextstate s i q =>
    simp only [step, Fst.setNextstateR, Option.some.injEq, Prod.mk.injEq] at hs
    obtain ⟨rfl, -⟩ := hs
    split
    · split
      · intro b hb
        simp only [Props.keepRelevant, Props.and_apply, Bool.and_eq_true] at hb
        exact h b hb.1
      · rename_i ht
        exact Fst.truthful_replaceTr h ht fun b hb => Fst.updOk_keep h (List.mem_of_getElem? ht) _ b hb
    · exact h
  | setTr s i t =>
    simp only [step, Fst.setTrR, Option.some.injEq, Prod.mk.injEq] at hs
    obtain ⟨rfl, -⟩ := hs
    split
    · split
      · exact h
      · rename_i ht
        exact Fst.truthful_replaceTr h ht fun b hb => Fst.updOk_newAll _ _ _ b hb
    · exact h
  | sortTrs s le => exact absurd hop id
  | uniqueTrs s => exact absurd hop id
  | sumTrs s => exact absurd hop id

theorem C03_runFrom (ops : List (Op W)) : ∀ (f g : Fst W), f.Truthful → FlagSafe f ops → runFrom f ops = some g → g.Truthful := by
  induction ops with
  | nil => intro f g hf _ hr; simp [runFrom] at hr; rw [← hr]; exact hf
  | cons op ops ih =>
    intro f g hf hs hr
    rw [runFrom] at hr
    rw [FlagSafe] at hs
    split at hr
    · simp at hr
    · rename_i g' b hst
      rw [hst] at hs
      exact ih g' g (C03_step f g' op b hf hs.1 hst) hs.2 hr

/-- C03: after every flag-safe history, each flag in `properties()` is true of the FST. -/
theorem C03_flags_truthful (ops : List (Op W)) (f : Fst W) (hs : FlagSafe Fst.new ops) (h : run ops = some f) :
    ∀ b, f.props b = true → f.Holds b :=
  C03_runFrom ops Fst.new f Fst.truthful_new hs h

/-- A pair of contradictory flags is never reported. -/
theorem C03_no_contradiction (ops : List (Op W)) (f : Fst W) (hs : FlagSafe Fst.new ops) (h : run ops = some f) :
    ∀ b, ¬ (f.props b = true ∧ f.props b.neg = true) := by
  intro b ⟨h1, h2⟩
  have a1 := C03_flags_truthful ops f hs h b h1
  have a2 := C03_flags_truthful ops f hs h b.neg h2
  cases b <;> simp only [PropBit.neg, Fst.Holds] at a1 a2 <;> first | exact a1 a2 | exact a2 a1

example : FlagSafe Fst.new exampleOps ∧ ((run (exampleOps.take 7)).map fun f =>
    (f.props .weighted, f.props .notAcceptor, f.props .iEpsilons, f.props .topSorted, f.props .iLabelSorted)) =
    some (true, true, true, false, true) := by
  exact ⟨by decide, by decide⟩

/-- The condition on `set_trs_unchecked` is needed: it keeps flags about the transitions it throws away. Here the FST
is flagged `NOT_ACCEPTOR` although it has no transition left. -/
theorem C03_setTrs_stale : ∃ (ops : List (Op Nat)) (f : Fst Nat), run ops = some f ∧
    f.props .notAcceptor = true ∧ ¬ f.Holds .notAcceptor := by
  refine ⟨[.addState, .addTr 0 ⟨1, 2, 1, 0⟩, .setTrs 0 []], _, rfl, by decide, ?_⟩
  intro h
  apply h
  intro s t ht
  have hs := Fst.lt_of_mem_trsOf ht
  have h0 : s = 0 := Nat.lt_one_iff.1 hs
  subst h0
  exact absurd ht (List.not_mem_nil (a := t))

end Verif
