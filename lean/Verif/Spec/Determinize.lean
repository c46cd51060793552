import Verif.Model.Determinize
import Verif.Spec.Path
import Mathlib.Algebra.Ring.Defs

/-!
# Specification: weights that can be determinized

The value of a weight lies in a semiring `S`. For most weights this is the type itself and `val` the identity.
-/

namespace Verif
universe u v
variable {W : Type u} {S : Type v}

/-- The weights obtained from `ws` by adding. -/
inductive Sums (o : DetOps W) (ws : List W) : W → Prop
  | one {w} : w ∈ ws → Sums o ws w
  | more {a b c} : Sums o ws a → b ∈ ws → o.plus a b = .ok c → Sums o ws c

/-- The values of the weights form a semiring, and a sum of some of the weights `ws` can be divided by the common divisor of `ws`:
the quotient, after quantization, times the divisor is that sum. `good` is what the weights on transitions must be like. -/
structure DetLaw [Zero W] [One W] [Mul W] [Semiring S] (o : DetOps W) (val : W → S) (good : W → Prop) : Prop where
  zero : val 0 = 0
  one : val 1 = 1
  mul : ∀ a b, val (a * b) = val a * val b
  plus : ∀ a b c, o.plus a b = .ok c → val c = val a + val b
  good_one : good 1
  good_mul : ∀ a b, good a → good b → good (a * b)
  divide : ∀ ws d w q q', (∀ x ∈ ws, good x) → commonFold o 0 ws = .ok d → Sums o ws w → o.divide w d = .ok q →
    o.quantize q = .ok q' → val d * val q' = val w ∧ good q'

/-- The operations never fail on good weights. -/
structure DetTotal [Zero W] (o : DetOps W) (good : W → Prop) : Prop where
  plus : ∀ a b, ∃ c, o.plus a b = .ok c
  common : ∀ a b, ∃ c, o.common a b = .ok c
  divide : ∀ ws d w, (∀ x ∈ ws, good x) → commonFold o 0 ws = .ok d → Sums o ws w → ∃ q q', o.divide w d = .ok q ∧ o.quantize q = .ok q'

/-- The sum of the values of the paths that transduce `x` to `y`. -/
def sumVal [AddCommMonoid S] (val : W → S) (A : Multiset (PathT W)) (x y : List Label) : S :=
  ((A.filter (fun p => p.1 = x ∧ p.2.1 = y)).map (fun p => val p.2.2)).sum

end Verif
