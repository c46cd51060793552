import Verif.Spec.Path
import Verif.Spec.Legs
import Mathlib.Algebra.Ring.Defs
import Mathlib.Algebra.BigOperators.Group.Finset.Basic

/-! # Specification: the same weights, with paths that may be longer -/

namespace Verif
universe u
variable {W : Type u}

/-- `F` gives each pair of strings the weight `f` gives it, but may use more transitions: its paths are grouped by a number `n` and a
number `k` of additional transitions, `k` bounded for each `n`, such that the paths with `n` sum up, for all strings, to the weight of the paths of `n` transitions
of `f`. -/
def SameWeightsDelayed [Semiring W] (f F : Fst W) : Prop :=
  ∃ part : Nat → Nat → Multiset (PathT W), (∀ m, F.accPaths m = ∑ n ∈ Finset.range (m + 1), part n (m - n)) ∧
    ∀ n, ∃ D, (∀ k, D ≤ k → part n k = 0) ∧ ∀ x y, sumOf (∑ k ∈ Finset.range D, part n k) x y = f.weightOf n x y

/-- `F` has the accepting paths of `f`, with the same strings and weights, but may use more transitions: its paths are grouped by a number `n` and a number `k` of
additional transitions, `k` bounded for each `n`, such that the paths with `n` are those of `n` transitions of `f`. -/
def SamePathsDelayed [One W] [Mul W] (f F : Fst W) : Prop :=
  ∃ part : Nat → Nat → Multiset (PathT W), (∀ m, F.accPaths m = ∑ n ∈ Finset.range (m + 1), part n (m - n)) ∧
    ∀ n, ∃ D, (∀ k, D ≤ k → part n k = 0) ∧ ∑ k ∈ Finset.range D, part n k = f.accPaths n

/-- At most one transition for each input label, except for `ε`. -/
def Fst.InputDeterministicUpToEps (F : Fst W) : Prop := ∀ s, (((F.trsOf s).map (·.ilabel)).filter (· ≠ EPS)).Nodup

/-- No input string has two output strings. -/
def Fst.Functional [Mul W] [One W] (f : Fst W) : Prop := ∀ x y y' w w', f.Accepts x y w → f.Accepts x y' w' → y = y'

/-- No input string has two paths with different outputs or weights. -/
def Fst.Unambiguous [Mul W] [One W] (f : Fst W) : Prop := ∀ x y y' w w', f.Accepts x y w → f.Accepts x y' w' → y = y' ∧ w = w'

/-- The sum of the weights of the paths of a collection that read `x`, whatever they write. -/
def sumIn [AddCommMonoid W] (A : Multiset (PathT W)) (x : List Label) : W := ((A.filter fun p => p.1 = x).map fun p => p.2.2).sum

/-- `F` gives each input string the weight `f` gives it, where the weights of all outputs are added, but may use more transitions; compare `SameWeightsDelayed`. -/
def SameInputWeightsDelayed [Semiring W] (f F : Fst W) : Prop :=
  ∃ part : Nat → Nat → Multiset (PathT W), (∀ m, F.accPaths m = ∑ n ∈ Finset.range (m + 1), part n (m - n)) ∧
    ∀ n, ∃ D, (∀ k, D ≤ k → part n k = 0) ∧ ∀ x, sumIn (∑ k ∈ Finset.range D, part n k) x = sumIn (f.accPaths n) x

end Verif
