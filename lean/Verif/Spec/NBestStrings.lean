import Verif.Spec.Epsilon

/-! # Specification: the best strings of an acceptor

`a + b = a` says that the weight `a` is at least as good as `b`. The weight of a string is the sum over all its paths. -/

namespace Verif
universe u

/-- The accepting paths of `F` are one path for each of `n` strings, with the weight that the string has in `f`. No other string has a
better weight in `f` than one of them, and if they are less than `n`, then no other string has a weight different from zero. The paths of `F` have
`d` more transitions than labels, all of them ε. -/
def IsNBestStrings {W : Type u} [Semiring W] (n d : Nat) (f F : Fst W) : Prop :=
  ∃ best : List (List Label × W),
    (best.map (·.1)).Nodup ∧ best.length ≤ n ∧
    (∀ m, F.accPaths (m + d) = ((best.filter (fun p => p.1.length = m)).map (fun p => (p.1, p.1, p.2)) : List (PathT W))) ∧
    (∀ m, m < d → F.accPaths m = 0) ∧
    (∀ p ∈ best, f.IsWeight p.1 p.1 p.2) ∧
    (∀ x v, x ∉ best.map (·.1) → f.IsWeight x x v → (∀ p ∈ best, p.2 + v = p.2) ∧ (best.length < n → v = 0))

end Verif
