import Verif.Spec.Lazy

/-!
# Specification: a delayed FST agrees with a static one

The delayed FST gives its states numbers of its own. It agrees with a static FST when one translation of numbers, one to one, makes every answer the answer
of the static FST.
-/

namespace Verif
universe u
variable {W : Type u}

/-- A static FST, seen as a machine whose tuples are its states. -/
def Fst.machine (F : Fst W) : Machine StateId W where
  start := F.start
  trs s := (F.trsOf s).map fun t => ⟨t.ilabel, t.olabel, t.weight, t.nextstate⟩
  fin := F.finOf

/-- The answers are those of `F`, with the states of the delayed FST translated by `ρ`. -/
def Lz.Agree (F : Fst W) (ρ : StateId → Option StateId) (answers : List (Query × Answer W)) : Prop :=
  OneName ρ ∧ (∀ s q, ρ s = some q → q < F.numStates) ∧ ∀ p ∈ answers, Lz.Correct F.machine ρ p.1 p.2

/-- `G` is `F` with every state `q` renamed to `ν q`, possibly among other states: same start, same final weights, the same transitions in the same order. -/
structure Fst.Copies (F G : Fst W) (ν : StateId → StateId) : Prop where
  inj : ∀ a b, a < F.numStates → b < F.numStates → ν a = ν b → a = b
  lt : ∀ a, a < F.numStates → ν a < G.numStates
  start : G.start = F.start.map ν
  fin : ∀ a, a < F.numStates → G.finOf (ν a) = F.finOf a
  trs : ∀ a, a < F.numStates → G.trsOf (ν a) = (F.trsOf a).map fun t => { t with nextstate := ν t.nextstate }

end Verif
