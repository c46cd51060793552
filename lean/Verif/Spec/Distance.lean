import Verif.Spec.Graph
import Mathlib.Data.Multiset.Bind
import Mathlib.Algebra.BigOperators.Group.Finset.Basic

/-!
# Specification: distances

The distance from `p` to `q` is the sum of the weights of all paths from `p` to `q` that use only transitions kept by the filter.
There may be infinitely many of them, so the sum is the value at which the sums over the paths with fewer than `n` transitions
become stationary.
-/

namespace Verif
universe u
variable {W : Type u}

namespace Fst

/-- The paths with exactly `n` kept transitions that leave `p`: where they end, and the product of their weights. -/
def walks [One W] [Mul W] (f : Fst W) (keep : Tr W → Bool) : Nat → StateId → Multiset (StateId × W)
  | 0, p => {(p, 1)}
  | n + 1, p => (((f.trsOf p).filter keep : List (Tr W)) : Multiset (Tr W)).bind fun t =>
      (f.walks keep n t.nextstate).map fun e => (e.1, t.weight * e.2)

/-- There is no cycle of kept transitions. -/
def NoCycles [One W] [Mul W] (f : Fst W) (keep : Tr W → Bool) : Prop := ∀ n s c, (s, c) ∉ f.walks keep (n + 1) s

variable [AddCommMonoid W] [Monoid W]

/-- The sum of the weights of the paths from `p` to `q` with exactly `n` transitions. -/
def walkSum (f : Fst W) (keep : Tr W → Bool) (n : Nat) (p q : StateId) : W :=
  (((f.walks keep n p).filter (fun e => e.1 = q)).map (fun e => e.2)).sum

/-- `d` is the distance from `p` to `q`. -/
def IsDistance (f : Fst W) (keep : Tr W → Bool) (p q : StateId) (d : W) : Prop :=
  ∃ N, ∀ n, N ≤ n → ∑ k ∈ Finset.range n, f.walkSum keep k p q = d

/-- Going around a cycle never adds anything: there is no path whose weight an additional cycle can improve. -/
def CyclesAbsorbed (f : Fst W) (keep : Tr W → Bool) : Prop :=
  ∀ n s c, (s, c) ∈ f.walks keep (n + 1) s → ∀ a : W, a + a * c = a

/-- The same, for cycles put in front. -/
def CyclesAbsorbedLeft (f : Fst W) (keep : Tr W → Bool) : Prop :=
  ∀ n s c, (s, c) ∈ f.walks keep (n + 1) s → ∀ a : W, a + c * a = a

/-- The sum of the weights of the paths with exactly `n` transitions from `p` to a final state, including the final weight. -/
def finalSum (f : Fst W) (keep : Tr W → Bool) (n : Nat) (p : StateId) : W :=
  ((f.walks keep n p).map (fun e => e.2 * (f.finOf e.1).getD 0)).sum

/-- `d` is the distance from `p` to the final states. -/
def IsFinalDistance (f : Fst W) (keep : Tr W → Bool) (p : StateId) (d : W) : Prop :=
  ∃ N, ∀ n, N ≤ n → ∑ k ∈ Finset.range n, f.finalSum keep k p = d

end Fst

/-- The program ends with the result `x`: any number of turns from some number on is enough. -/
def EndsWith {α : Type u} (run : Nat → Option α) (x : α) : Prop := ∃ N, ∀ n, N ≤ n → run n = some x

end Verif
