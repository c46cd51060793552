import Verif.Model.VectorFst
import Mathlib.Logic.Relation
import Mathlib.Tactic.Common

/-!
# Specification: graph structure and the meaning of the property flags

Nothing here refers to how the code computes or maintains anything: everything is stated through the observable queries
`numStates`, `start`, `trsOf`, `finOf`.
-/

namespace Verif
universe u
variable {W : Type u}

namespace Fst

/-- There is a transition from `s` to `q`. -/
def Edge (f : Fst W) (s q : StateId) : Prop := ∃ t ∈ f.trsOf s, t.nextstate = q

/-- `q` can be reached from `s` by following zero or more transitions. -/
def Reach (f : Fst W) : StateId → StateId → Prop := Relation.ReflTransGen f.Edge

/-- There is a cycle through `s`: one or more transitions lead from `s` back to `s`. -/
def OnCycle (f : Fst W) (s : StateId) : Prop := Relation.TransGen f.Edge s s

/-- `s` is a final state: it has a final weight. -/
def IsFinal (f : Fst W) (s : StateId) : Prop := (f.finOf s).isSome = true

/-- `s` can be reached from the start state. -/
def Accessible (f : Fst W) (s : StateId) : Prop := ∃ i, f.start = some i ∧ f.Reach i s

/-- A final state can be reached from `s`. -/
def Coaccessible (f : Fst W) (s : StateId) : Prop := ∃ q, f.Reach s q ∧ f.IsFinal q

/-- Well-formed: the start state and all transition targets exist. -/
structure WF (f : Fst W) : Prop where
  start_lt : ∀ i, f.start = some i → i < f.numStates
  next_lt : ∀ s, ∀ t ∈ f.trsOf s, t.nextstate < f.numStates

/-- The stored ε counters of state `st` are the numbers of transitions with input (output) label 0. -/
def CountersOk (st : State W) : Prop :=
  st.niepsilons = (st.trs.filter (fun t => t.ilabel = EPS)).length ∧
  st.noepsilons = (st.trs.filter (fun t => t.olabel = EPS)).length

/-- A weight is trivial if it is zero or one. -/
def TrivialW [Zero W] [One W] (w : W) : Prop := w = 0 ∨ w = 1

section
variable [Zero W] [One W]

/-- All transition and final weights are trivial. -/
def Unweighted (f : Fst W) : Prop :=
  (∀ s, ∀ t ∈ f.trsOf s, TrivialW t.weight) ∧ (∀ s w, f.finOf s = some w → TrivialW w)

/-- Some transition lying on a cycle has a non-trivial weight. -/
def HasWeightedCycle (f : Fst W) : Prop :=
  ∃ s, ∃ t ∈ f.trsOf s, ¬ TrivialW t.weight ∧ f.Reach t.nextstate s

/-- A linear FST: states `0 → 1 → … → n-1`, starting at `0`, only the last state final. -/
def IsLinear (f : Fst W) : Prop :=
  f.numStates > 0 → f.start = some 0 ∧
    ∀ s, s < f.numStates →
      if s + 1 = f.numStates then f.IsFinal s ∧ f.trsOf s = []
      else ¬ f.IsFinal s ∧ ∃ t, f.trsOf s = [t] ∧ t.nextstate = s + 1

/-- What each flag asserts (the doc comments of properties.rs 21-103). -/
def Holds (f : Fst W) : PropBit → Prop
  | .acceptor => ∀ s, ∀ t ∈ f.trsOf s, t.ilabel = t.olabel
  | .notAcceptor => ¬ ∀ s, ∀ t ∈ f.trsOf s, t.ilabel = t.olabel
  | .iDeterministic => ∀ s, ((f.trsOf s).map (·.ilabel)).Nodup
  | .notIDeterministic => ¬ ∀ s, ((f.trsOf s).map (·.ilabel)).Nodup
  | .oDeterministic => ∀ s, ((f.trsOf s).map (·.olabel)).Nodup
  | .notODeterministic => ¬ ∀ s, ((f.trsOf s).map (·.olabel)).Nodup
  | .epsilons => ∃ s, ∃ t ∈ f.trsOf s, t.ilabel = EPS ∧ t.olabel = EPS
  | .noEpsilons => ¬ ∃ s, ∃ t ∈ f.trsOf s, t.ilabel = EPS ∧ t.olabel = EPS
  | .iEpsilons => ∃ s, ∃ t ∈ f.trsOf s, t.ilabel = EPS
  | .noIEpsilons => ¬ ∃ s, ∃ t ∈ f.trsOf s, t.ilabel = EPS
  | .oEpsilons => ∃ s, ∃ t ∈ f.trsOf s, t.olabel = EPS
  | .noOEpsilons => ¬ ∃ s, ∃ t ∈ f.trsOf s, t.olabel = EPS
  | .iLabelSorted => ∀ s, ((f.trsOf s).map (·.ilabel)).Pairwise (· ≤ ·)
  | .notILabelSorted => ¬ ∀ s, ((f.trsOf s).map (·.ilabel)).Pairwise (· ≤ ·)
  | .oLabelSorted => ∀ s, ((f.trsOf s).map (·.olabel)).Pairwise (· ≤ ·)
  | .notOLabelSorted => ¬ ∀ s, ((f.trsOf s).map (·.olabel)).Pairwise (· ≤ ·)
  | .weighted => ¬ f.Unweighted
  | .unweighted => f.Unweighted
  | .cyclic => ∃ s, f.OnCycle s
  | .acyclic => ¬ ∃ s, f.OnCycle s
  | .initialCyclic => ∃ i, f.start = some i ∧ f.OnCycle i
  | .initialAcyclic => ¬ ∃ i, f.start = some i ∧ f.OnCycle i
  | .topSorted => ∀ s, ∀ t ∈ f.trsOf s, s < t.nextstate
  | .notTopSorted => ¬ ∀ s, ∀ t ∈ f.trsOf s, s < t.nextstate
  | .accessible => ∀ s, s < f.numStates → f.Accessible s
  | .notAccessible => ¬ ∀ s, s < f.numStates → f.Accessible s
  | .coaccessible => ∀ s, s < f.numStates → f.Coaccessible s
  | .notCoaccessible => ¬ ∀ s, s < f.numStates → f.Coaccessible s
  | .isString => f.IsLinear
  | .notString => ¬ f.IsLinear
  | .weightedCycles => f.HasWeightedCycle
  | .unweightedCycles => ¬ f.HasWeightedCycle

/-- The flags stored in an FST are all true of it. -/
def Truthful (f : Fst W) : Prop := ∀ b, f.props b = true → f.Holds b

end
end Fst
end Verif
