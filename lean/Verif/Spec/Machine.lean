import Verif.Spec.Path
import Verif.Spec.Distance

/-!
# Specification: weighted machines over any states

A lazy operation describes a machine whose states are tuples (pairs of states, stacks, weighted subsets, …). The machine may have
infinitely many states. Numbers given to tuples while it is explored are names without meaning.
-/

namespace Verif
universe u v
variable {W : Type u} {T : Type v}

/-- A transition to a tuple. -/
structure MTr (T : Type v) (W : Type u) where
  ilabel : Label
  olabel : Label
  weight : W
  next : T
  deriving DecidableEq

/-- A machine: a start tuple, the transitions and the final weight of each tuple. -/
structure Machine (T : Type v) (W : Type u) where
  start : Option T
  trs : T → List (MTr T W)
  fin : T → Option W

namespace Machine

/-- The tuples a machine can get to from its start. -/
inductive Reach (M : Machine T W) : T → Prop
  | start {t} : M.start = some t → M.Reach t
  | step {t} {a : MTr T W} : M.Reach t → a ∈ M.trs t → M.Reach a.next

/-- The label strings and the weight of a transition. -/
def _root_.Verif.MTr.asPath (a : MTr T W) : PathT W := (strip a.ilabel, strip a.olabel, a.weight)

variable [Mul W]

/-- The paths with exactly `n` transitions from `t` to a final tuple, final weight included. -/
def pathsFrom (M : Machine T W) : Nat → T → Multiset (PathT W)
  | 0, t => match M.fin t with
    | none => 0
    | some w => {([], [], w)}
  | n + 1, t => (M.trs t : Multiset (MTr T W)).bind fun a => (M.pathsFrom n a.next).map fun p => a.asPath.cat p

/-- The accepting paths with exactly `n` transitions. -/
def accPaths (M : Machine T W) (n : Nat) : Multiset (PathT W) :=
  match M.start with
  | none => 0
  | some t => M.pathsFrom n t

end Machine

/-- `tr` is the transition `a`, its target named by `name`. -/
def Names (name : StateId → Option T) (tr : Tr W) (a : MTr T W) : Prop :=
  tr.ilabel = a.ilabel ∧ tr.olabel = a.olabel ∧ tr.weight = a.weight ∧ name tr.nextstate = some a.next

/-- No tuple has two names. -/
def OneName (name : StateId → Option T) : Prop := ∀ a b t, name a = some t → name b = some t → a = b

/-- `F` is the part of `M` that can be reached, its tuples renamed: the names `nm` are one to one between the states of `F` and
the reachable tuples, and respect the start, the final weights, and the transitions with their order. -/
structure Machine.Presents (M : Machine T W) (nm : StateId → Option T) (F : Fst W) : Prop where
  one : OneName nm
  states : ∀ s, s < F.numStates ↔ ∃ t, nm s = some t
  tuples : ∀ t, M.Reach t ↔ ∃ s, nm s = some t
  start : Option.Rel (fun s t => nm s = some t) F.start M.start
  trs : ∀ s t, nm s = some t → List.Forall₂ (Names nm) (F.trsOf s) (M.trs t)
  fin : ∀ s t, nm s = some t → F.finOf s = M.fin t

/-- States are numbered in the order of a search: 0 is the start, and to every other state a transition leads from a state with a smaller number. -/
def Machine.InSearchOrder (M : Machine T W) (nm : StateId → Option T) : Prop :=
  ∀ q t, nm q = some t → (q = 0 ∧ M.start = some t) ∨ ∃ s u, s < q ∧ nm s = some u ∧ ∃ a ∈ M.trs u, a.next = t

end Verif
