import Verif.Spec.Path
import Verif.Spec.Distance
import Verif.Model.RmEpsilon
import Mathlib.Algebra.Ring.Defs

/-!
# Specification: epsilon removal

`isEps` tells the transitions with ε on both sides.
-/

namespace Verif
universe u
variable {W : Type u}

namespace Fst

/-- No transition has ε on both sides. -/
def NoEpsTr (f : Fst W) : Prop := ∀ s, ∀ t ∈ f.trsOf s, isEps t = false

variable [Semiring W]

/-- `v` is the weight of the pair of strings: the sum over all accepting paths that carry it. There may be infinitely many, so it is the
value at which the sums over the paths with fewer than `n` transitions become stationary. -/
def IsWeight (f : Fst W) (x y : List Label) (v : W) : Prop := ∃ N, ∀ n, N ≤ n → ∑ k ∈ Finset.range n, f.weightOf k x y = v

/-- The weights of the ε-transitions belong to a class that does not contain zero and is closed under sums and products: no collection
of ε-paths has a vanishing weight. -/
def EpsPositive (f : Fst W) : Prop :=
  ∃ P : W → Prop, P 1 ∧ ¬ P 0 ∧ (∀ a b, P a → P b → P (a + b) ∧ P (a * b)) ∧ ∀ s, ∀ t ∈ f.trsOf s, isEps t = true → P t.weight

end Fst
end Verif
