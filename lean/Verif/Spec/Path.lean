import Verif.Spec.Graph
import Mathlib.Data.Multiset.Bind
import Mathlib.Algebra.BigOperators.Group.Finset.Basic

/-!
# Specification: accepting paths

The behaviour of an FST is the collection of its accepting paths. A path is seen through its input string, its output string
(both without ε) and its weight: the product of its transition weights and the final weight, in order. Collections are
multisets, so multiplicities count, and paths are grouped by their number of transitions.
-/

namespace Verif
universe u
variable {W : Type u}

/-- Input string, output string and weight of a path. -/
abbrev PathT (W : Type u) := List Label × List Label × W

/-- A label as a string: ε is the empty string. -/
def strip (l : Label) : List Label := if l = EPS then [] else [l]

variable [Mul W]

/-- Concatenation of paths. -/
def PathT.cat (p q : PathT W) : PathT W := (p.1 ++ q.1, p.2.1 ++ q.2.1, p.2.2 * q.2.2)

/-- A transition as a path. -/
def Tr.asPath (t : Tr W) : PathT W := (strip t.ilabel, strip t.olabel, t.weight)

/-- All concatenations of a path of `A` and a path of `B`. -/
def catAll (A B : Multiset (PathT W)) : Multiset (PathT W) := A.bind fun p => B.map fun q => p.cat q

/-- `A` and `B` list paths by number of transitions. The paths with `n` transitions made of a path of `A`, one ε-transition and a
path of `B`. -/
def seqPaths (A B : Nat → Multiset (PathT W)) (n : Nat) : Multiset (PathT W) :=
  ∑ i ∈ Finset.range n, catAll (A i) (B (n - 1 - i))

/-- `k + 1` paths of `A` in sequence. -/
def repeatPaths (A : Nat → Multiset (PathT W)) : Nat → Nat → Multiset (PathT W)
  | 0 => A
  | k + 1 => seqPaths A (repeatPaths A k)

/-- The paths of `A`, each preceded by `d` ε-transitions. -/
def delay {α : Type u} (d : Nat) (A : Nat → Multiset α) (n : Nat) : Multiset α := if n < d then 0 else A (n - d)

namespace Fst

/-- The paths with exactly `n` transitions from `s` to a final state, final weight included. -/
def pathsFrom (f : Fst W) : Nat → StateId → Multiset (PathT W)
  | 0, s => match f.finOf s with
    | none => 0
    | some w => {([], [], w)}
  | n + 1, s => (f.trsOf s : Multiset (Tr W)).bind fun t => (f.pathsFrom n t.nextstate).map fun p => t.asPath.cat p

/-- The accepting paths with exactly `n` transitions. -/
def accPaths (f : Fst W) (n : Nat) : Multiset (PathT W) :=
  match f.start with
  | none => 0
  | some s => f.pathsFrom n s

/-- Some accepting path transduces `x` to `y` with weight `w`. -/
def Accepts (f : Fst W) (x y : List Label) (w : W) : Prop := ∃ n, (x, y, w) ∈ f.accPaths n

/-- The sum of the weights of the accepting paths with `n` transitions that transduce `x` to `y`. -/
def weightOf [AddCommMonoid W] (f : Fst W) (n : Nat) (x y : List Label) : W :=
  (((f.accPaths n).filter (fun p => p.1 = x ∧ p.2.1 = y)).map (fun p => p.2.2)).sum

end Fst
end Verif
