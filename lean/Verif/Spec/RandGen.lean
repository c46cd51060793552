import Verif.Spec.Path
import Verif.Model.RandGen

/-!
# Specification: random paths

A successful path of an FST is given by the positions of its transitions, so that parallel transitions are told apart. A collection of samples lists
different successful paths, each with the number of times that it was drawn.
-/

namespace Verif
universe u v
variable {W : Type u} [Zero W]

namespace Fst

/-- `s` has a final weight other than zero. -/
def Ends (f : Fst W) (s : StateId) : Prop := ∃ w, f.finOf s = some w ∧ w ≠ 0

/-- The transitions at the positions `ps` lead from `s` to a state that `Ends`; their labels are `x` and `y`. -/
inductive Draws (f : Fst W) : StateId → List Nat → List Label → List Label → Prop
  | stop {s} : f.Ends s → Draws f s [] [] []
  | step {s p ps t x y} : (f.trsOf s)[p]? = some t → Draws f t.nextstate ps x y → Draws f s (p :: ps) (strip t.ilabel ++ x) (strip t.olabel ++ y)

/-- `k` transitions lead from `s` to a state. -/
inductive In (f : Fst W) (s : StateId) : Nat → StateId → Prop
  | zero : In f s 0 s
  | succ {k q t} : In f s k q → t ∈ f.trsOf q → In f s (k + 1) t.nextstate

/-- From `s`, no state is a dead end, and no state is reached by `len` transitions. -/
def NoDeadEnds (f : Fst W) (s : StateId) (len : Nat) : Prop := ∀ k q, f.In s k q → k < len ∧ (f.trsOf q ≠ [] ∨ f.Ends q)

end Fst

/-- The contract of selectors (tr_selector.rs 9-13): at a state that is no dead end, the position of a transition or, if the state is final, the number of
transitions. -/
def Legal {σ : Type v} (f : Fst W) (sel : Selector σ) : Prop :=
  ∀ g s, s < f.numStates → f.trsOf s ≠ [] ∨ f.Ends s →
    ∃ k g', sel g s = (.ok k, g') ∧ (k < (f.trsOf s).length ∨ k = (f.trsOf s).length ∧ f.Ends s)

/-- A successful path, its strings, and the number of times that it was drawn. -/
structure Sample where
  run : List Nat
  x : List Label
  y : List Label
  count : Nat

/-- `l` is the result of drawing `n` paths from `s` on, each with fewer than `len` transitions. Paths that end at a dead end or grow too long are lost. -/
structure Samples (f : Fst W) (s : StateId) (len n : Nat) (l : List Sample) : Prop where
  distinct : (l.map (·.run)).Nodup
  runs : ∀ a ∈ l, f.Draws s a.run a.x a.y ∧ a.run.length < len ∧ 0 < a.count
  total : (l.map (·.count)).sum ≤ n
  full : f.NoDeadEnds s len → (l.map (·.count)).sum = n

end Verif
