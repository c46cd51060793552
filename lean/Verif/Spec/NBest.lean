import Verif.Spec.Path

/-! # Specification: the best paths of an FST

`a + b = a` says that the weight `a` is at least as good as `b`. -/

namespace Verif
universe u

/-- The accepting paths of `F` are `n` of the accepting paths of `f`, or all if there are not so many, and no other path of `f` is better
than one of them. The paths of `F` have `d` more transitions, all of them ε. -/
def IsNBest {W : Type u} [AddCommMonoid W] [Mul W] (n d : Nat) (f F : Fst W) : Prop :=
  ∃ (paths : List (Nat × PathT W)) (others : Nat → Multiset (PathT W)),
    (∀ m, F.accPaths (m + d) = ((paths.filter (fun p => p.1 = m)).map (fun p => p.2) : List (PathT W))) ∧ (∀ m, m < d → F.accPaths m = 0) ∧
    (∀ m, f.accPaths m = F.accPaths (m + d) + others m) ∧
    (∀ p ∈ paths, ∀ m, ∀ q ∈ others m, p.2.2.2 + q.2.2 = p.2.2.2) ∧
    paths.length ≤ n ∧ (paths.length < n → ∀ m, others m = 0)

end Verif
