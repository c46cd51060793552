import Verif.Spec.Delayed

/-! # Specification: what pushing labels may change -/

namespace Verif
universe u
variable {W : Type u}

/-- The path `p` with the string `a` in front of its output and the weight `c` in front of its weight. -/
def PathT.before [Mul W] (a : List Label) (c : W) (p : PathT W) : PathT W := (p.1, a ++ p.2.1, c * p.2.2)

/-- … and behind them. -/
def PathT.behind [Mul W] (a : List Label) (c : W) (p : PathT W) : PathT W := (p.1, p.2.1 ++ a, p.2.2 * c)

/-- `f` has the accepting paths of `F` changed by `h`, but `F` may use more transitions; compare `SamePathsDelayed`. -/
def SamePathsAfter [One W] [Mul W] (h : PathT W → PathT W) (f F : Fst W) : Prop :=
  ∃ part : Nat → Nat → Multiset (PathT W), (∀ m, F.accPaths m = ∑ n ∈ Finset.range (m + 1), part n (m - n)) ∧
    ∀ n, ∃ D, (∀ k, D ≤ k → part n k = 0) ∧ (∑ k ∈ Finset.range D, part n k).map h = f.accPaths n

namespace Fst

/-- `a` is the longest common prefix of all outputs. -/
def LongestPrefix [One W] [Mul W] (f : Fst W) (a : List Label) : Prop :=
  (∀ x y w, f.Accepts x y w → a <+: y) ∧ ∀ b, (∀ x y w, f.Accepts x y w → b <+: y) → b <+: a

/-- `a` is the longest common suffix of all outputs. -/
def LongestSuffix [One W] [Mul W] (f : Fst W) (a : List Label) : Prop :=
  (∀ x y w, f.Accepts x y w → a <:+ y) ∧ ∀ b, (∀ x y w, f.Accepts x y w → b <:+ y) → b <:+ a

/-- `c` is the sum of the weights of all accepting paths. -/
def IsTotal [One W] [Mul W] [AddCommMonoid W] (f : Fst W) (c : W) : Prop :=
  ∃ N, ∀ n, N ≤ n → ∑ k ∈ Finset.range n, ((f.accPaths k).map fun p => p.2.2).sum = c

end Fst
end Verif
