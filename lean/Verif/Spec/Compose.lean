import Verif.Spec.Legs
import Mathlib.Algebra.BigOperators.Group.Finset.Basic

/-!
# Specification: relational composition

A path of the composition is a path of the first FST and a path of the second whose middle strings agree.
-/

namespace Verif
universe u
variable {W : Type u} [Mul W]

/-- All pairs of a path of `P` and a path of `Q` such that the output of the one is the input of the other: input of the first, output
of the second, product of the weights. -/
def joinPaths (P Q : Multiset (PathT W)) : Multiset (PathT W) :=
  P.bind fun p => (Q.filter fun q => q.1 = p.2.1).map fun q => (p.1, q.2.1, p.2.2 * q.2.2)

/-- `C` is a composition of `A` and `B`: for all `n` and `m`, the paths of `C` made of `n` transitions of `A` and `m` of `B` are,
with multiplicity and paths of weight zero aside, the joined pairs of accepting paths of `n` transitions of `A` and `m` of `B`. `part N n m` are
the paths of `N` transitions among them; each transition belongs to one transition of `A`, or of `B`, or one of each. -/
def IsComposition [Zero W] [DecidableEq W] (A B C : Fst W) : Prop :=
  ∃ part : Nat → Nat → Nat → Multiset (PathT W),
    (∀ N, C.accPaths N = ∑ n ∈ Finset.range (N + 1), ∑ m ∈ Finset.range (N + 1), part N n m) ∧
    (∀ N n m, part N n m ≠ 0 → n ≤ N ∧ m ≤ N ∧ N ≤ n + m) ∧
    ∀ n m, nonzero (∑ N ∈ Finset.range (n + m + 1), part N n m) = nonzero (joinPaths (A.accPaths n) (B.accPaths m))

end Verif
