import Verif.Spec.Graph

/-! # Specification: renaming the states of an FST -/

namespace Verif
universe u
variable {W : Type u}

/-- `φ` names, for the states of `A` on which it is defined, states of `B` with the same behaviour: the start states correspond,
the final weights are the same, and the transitions are the same up to their order and to the renaming of their ends. -/
structure Renames (same : W → W → Prop) (A B : Fst W) (φ : StateId → Option StateId) : Prop where
  start : Option.Rel (fun s t => φ s = some t) A.start B.start
  fin : ∀ s t, φ s = some t → Option.Rel same (A.finOf s) (B.finOf t)
  trs : ∀ s t, φ s = some t → ∃ l, l.Perm (B.trsOf t) ∧
    List.Forall₂ (fun a b => a.ilabel = b.ilabel ∧ a.olabel = b.olabel ∧ same a.weight b.weight ∧ φ a.nextstate = some b.nextstate)
      (A.trsOf s) l

/-- The FSTs are equal up to a renaming of their accessible states: `φ` is a bijection between these. -/
def EqualUpToRenaming (A B : Fst W) : Prop :=
  ∃ φ, Renames Eq A B φ ∧ (∀ s s' t, A.Accessible s → A.Accessible s' → φ s = some t → φ s' = some t → s = s') ∧
    ∀ t, B.Accessible t → ∃ s, A.Accessible s ∧ φ s = some t

/-- No state has two transitions with the same labels and weight. -/
def UnweightedDet (A : Fst W) : Prop :=
  ∀ s, (A.trsOf s).Pairwise fun a b => ¬ (a.ilabel = b.ilabel ∧ a.olabel = b.olabel ∧ a.weight = b.weight)

/-- `lt` is a strict total order. -/
structure StrictTotal (lt : W → W → Bool) : Prop where
  irrefl : ∀ a, lt a a = false
  trans : ∀ a b c, lt a b = true → lt b c = true → lt a c = true
  total : ∀ a b, lt a b = true ∨ a = b ∨ lt b a = true

end Verif
