import Verif.Spec.Minimize

/-! # Evaluating membership in the language of an acceptor -/

namespace Verif
universe u
variable {W : Type u}
namespace Fst

/-- Is `x` read from `s` to a final state? -/
def accB (f : Fst W) : List Label → StateId → Bool
  | [], s => (f.finOf s).isSome
  | a :: x, s => (f.trsOf s).any fun t => t.ilabel == a && accB f x t.nextstate

theorem mem_langFrom_iff {f : Fst W} : ∀ {x s}, x ∈ f.langFrom s ↔ f.accB x s = true := by
  intro x
  induction x with
  | nil =>
    intro s
    constructor
    · rintro ⟨q, h, hf⟩; cases h; exact hf
    · intro h; exact ⟨s, .nil s, h⟩
  | cons a x ih =>
    intro s
    rw [accB, List.any_eq_true]
    constructor
    · rintro ⟨q, h, hf⟩
      generalize hy : a :: x = y at h
      cases h with
      | nil => cases hy
      | @cons _ t y' _ ht h =>
        injection hy with h1 h2
        subst h1; subst h2
        exact ⟨t, ht, by rw [← ih.1 ⟨q, h, hf⟩]; simp⟩
    · rintro ⟨t, ht, h⟩
      rw [Bool.and_eq_true, beq_iff_eq] at h
      obtain ⟨h1, h2⟩ := h
      obtain ⟨q, hq, hf⟩ := ih.2 h2
      subst h1
      exact ⟨q, .cons ht hq, hf⟩

theorem mem_language_iff {f : Fst W} {x} : x ∈ f.language ↔ (f.start.elim false (f.accB x)) = true := by
  constructor
  · rintro ⟨i, hi, h⟩
    rw [hi]; exact mem_langFrom_iff.1 h
  · intro h
    cases hi : f.start with
    | none => rw [hi] at h; cases h
    | some i => rw [hi] at h; exact ⟨i, hi, mem_langFrom_iff.2 h⟩

end Fst
end Verif
