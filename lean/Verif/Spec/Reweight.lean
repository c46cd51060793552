import Verif.Spec.Path
import Verif.Model.Core

/-!
# Specification: reweighting

Paths of weight zero are as good as absent, and reweighting leaves transitions into states from which nothing (or to which nothing)
leads as they are. So the comparison is between the paths of weight other than zero.
-/

namespace Verif
universe u
variable {W : Type u}

/-- The path with `c` in front of its weight. -/
def PathT.scale [Mul W] (c : W) (p : PathT W) : PathT W := (p.1, p.2.1, c * p.2.2)

/-- The path with `c` behind its weight. -/
def PathT.scaleR [Mul W] (c : W) (p : PathT W) : PathT W := (p.1, p.2.1, p.2.2 * c)

/-- The paths whose weight is not zero. -/
def live [Zero W] [DecidableEq W] (M : Multiset (PathT W)) : Multiset (PathT W) := M.filter fun p => p.2.2 ≠ 0

/-- A set of weights that contains zero and one and is closed under sum and product. -/
structure Closed [Zero W] [One W] [Add W] [Mul W] (P : W → Prop) : Prop where
  zero : P 0
  one : P 1
  add : ∀ a b, P a → P b → P (a + b)
  mul : ∀ a b, P a → P b → P (a * b)

/-- Weak left division on the weights in `P`, which has no zero divisors and where no sum of other weights is zero. -/
structure WeakLeft [Zero W] [One W] [Add W] [Mul W] (divL : W → W → R W) (P : W → Prop) : Prop where
  closed : Closed P
  noZeroDiv : ∀ a b, P a → P b → a * b = 0 → a = 0 ∨ b = 0
  zeroSumFree : ∀ a b, P a → P b → a + b = 0 → a = 0
  div : ∀ a b, P a → P b → a + b ≠ 0 → ∃ v, divL a (a + b) = .ok v ∧ (a + b) * v = a

/-- Weak right division. -/
structure WeakRight [Zero W] [One W] [Add W] [Mul W] (divR : W → W → R W) (P : W → Prop) : Prop where
  closed : Closed P
  noZeroDiv : ∀ a b, P a → P b → a * b = 0 → a = 0 ∨ b = 0
  zeroSumFree : ∀ a b, P a → P b → a + b = 0 → a = 0
  div : ∀ a b, P a → P b → a + b ≠ 0 → ∃ v, divR a (a + b) = .ok v ∧ v * (a + b) = a

namespace Fst
/-- Every weight of the FST belongs to `P`. -/
def WeightsIn (f : Fst W) (P : W → Prop) : Prop := (∀ s, ∀ t ∈ f.trsOf s, P t.weight) ∧ ∀ s w, f.finOf s = some w → P w

variable [Zero W] [One W] [Mul W]

/-- What a vector of potentials must satisfy to reweight towards the initial state: the divisions exist, and from a state with
potential zero every path has a weight zero. -/
structure PotInitial (divL : W → W → R W) (f : Fst W) (d : StateId → W) : Prop where
  tr : ∀ s, ∀ t ∈ f.trsOf s, d s ≠ 0 → d t.nextstate ≠ 0 →
    ∃ v, divL (t.weight * d t.nextstate) (d s) = .ok v ∧ d s * v = t.weight * d t.nextstate
  fin : ∀ s w, f.finOf s = some w → d s ≠ 0 → ∃ v, divL w (d s) = .ok v ∧ d s * v = w
  dead : ∀ s, d s = 0 → (∀ w, f.finOf s = some w → w = 0) ∧ ∀ t ∈ f.trsOf s, t.weight = 0 ∨ d t.nextstate = 0

/-- What a vector of potentials must satisfy to reweight towards the final states: the divisions exist, final weights commute with the
potentials, and a state with potential zero is only reached with weight zero. -/
structure PotFinal (divR : W → W → R W) (f : Fst W) (d : StateId → W) : Prop where
  tr : ∀ s, ∀ t ∈ f.trsOf s, d s ≠ 0 → d t.nextstate ≠ 0 →
    ∃ v, divR (d s * t.weight) (d t.nextstate) = .ok v ∧ v * d t.nextstate = d s * t.weight
  comm : ∀ s w, f.finOf s = some w → d s ≠ 0 → w * d s = d s * w
  dead : ∀ s, ∀ t ∈ f.trsOf s, d s ≠ 0 → d t.nextstate = 0 → t.weight = 0
  start : ∀ i, f.start = some i → d i ≠ 0 ∧ (d i ≠ 1 → ∃ v, divR 1 (d i) = .ok v ∧ v * d i = 1)

end Fst
end Verif
