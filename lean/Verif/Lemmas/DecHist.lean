import Verif.Spec.History
import Verif.Lemmas.Access

/-! # Deciding the history conditions (used by the concrete examples only) -/

namespace Verif
universe u
variable {W : Type u} [Zero W] [One W] [Add W] [DecidableEq W]

instance decTargetsBelow (n : Nat) (op : Op W) : Decidable (op.targetsBelow n) := by
  cases op <;> (dsimp only [Op.targetsBelow]; infer_instance)

instance decFlagSafeOp (f : Fst W) (op : Op W) : Decidable (op.flagSafe f) := by
  cases op <;> (dsimp only [Op.flagSafe]; infer_instance)

noncomputable instance decTargetsExist (ops : List (Op W)) : ∀ f : Fst W, Decidable (TargetsExist f ops) := by
  induction ops with
  | nil => intro f; exact isTrue trivial
  | cons op ops ih =>
    intro f
    rw [TargetsExist]
    cases step f op with
    | none => dsimp only; infer_instance
    | some r => obtain ⟨g, b⟩ := r; have := ih g; dsimp only; infer_instance

noncomputable instance decFlagSafe (ops : List (Op W)) : ∀ f : Fst W, Decidable (FlagSafe f ops) := by
  induction ops with
  | nil => intro f; exact isTrue trivial
  | cons op ops ih =>
    intro f
    rw [FlagSafe]
    cases step f op with
    | none => dsimp only; infer_instance
    | some r => obtain ⟨g, b⟩ := r; have := ih g; dsimp only; infer_instance

/-- Well-formedness as a computation. -/
def Fst.wfB (f : Fst W) : Bool :=
  (match f.start with
    | none => true
    | some i => decide (i < f.numStates)) &&
  (List.range f.numStates).all fun s => (f.trsOf s).all fun t => decide (t.nextstate < f.numStates)

theorem Fst.wf_of_wfB {f : Fst W} (h : f.wfB = true) : f.WF := by
  simp only [Fst.wfB, Bool.and_eq_true, List.all_eq_true, List.mem_range, decide_eq_true_eq] at h
  refine ⟨fun i hi => ?_, fun s t ht => h.2 s (Fst.lt_of_mem_trsOf ht) t ht⟩
  have := h.1
  rw [hi] at this
  simpa using this

end Verif
