import Verif.Spec.Epsilon

/-! # Equivalence of weighted transducers -/

namespace Verif
universe u
variable {W : Type u} [Semiring W]

/-- Both FSTs give every pair of strings a weight, the sum over all accepting paths, and it is the same one. -/
def Fst.SameTotals (f g : Fst W) : Prop := ∀ x y, ∃ v, f.IsWeight x y v ∧ g.IsWeight x y v

end Verif
