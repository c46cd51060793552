import Verif.Lemmas.DelStates
import Verif.Lemmas.DecHist

/-! # C04: `del_states` removes exactly the requested states -/

namespace Verif
universe u
variable {W : Type u}

/-- C04: on a well-formed FST and existing states `ds` (any order, repetitions allowed), `del_states` succeeds and the
result has exactly the states outside `ds`, in order: the `i`-th survivor `s` is now state `i`, it keeps its final weight and
its transitions to survivors, in order; the start state follows its state or is gone. -/
theorem C04_del_states (f : Fst W) (ds : List StateId) (hf : f.WF) (hd : ∀ s ∈ ds, s < f.numStates) :
    ∃ g, f.delStates ds = .ok g ∧
      g.numStates = (survivors f.numStates ds).length ∧
      (∀ i s, (survivors f.numStates ds)[i]? = some s →
        g.finOf i = f.finOf s ∧ g.trsOf i = survivingTrs ds (f.trsOf s)) ∧
      g.start = f.start.bind (fun i => if i ∈ ds then none else some (newNumber ds i)) := by
  have hok := delStates_ok f ds hd hf.start_lt (fun s _ _ => hf.next_lt s)
  refine ⟨_, hok, ?_, ?_, ?_⟩
  · rw [delStates_numStates hok, survivors_length]
  · intro i s hi
    exact ⟨delStates_finOf hok hi, delStates_trsOf hok hi⟩
  · exact delStates_start hok

/-- The new number of a surviving state is its position among the survivors, so the numbers written in the surviving
transitions and the start denote the same states as before. -/
theorem C04_numbering (n : Nat) (ds : List StateId) (s : StateId) (hs : s < n) (hd : s ∉ ds) :
    (survivors n ds)[newNumber ds s]? = some s := survivors_get ds hs hd

/-- `del_state` is `del_states` of that one state, and errs on a missing state. -/
theorem C04_del_state (f : Fst W) (s : StateId) :
    (s < f.numStates → (f.delState s).map (fun g => (g.states, g.start)) =
      (f.delStates [s]).map (fun g => (g.states, g.start))) ∧
    (¬ s < f.numStates → f.delState s = .error .err) := by
  constructor
  · intro h
    have h' : s < f.states.length := h
    simp only [Fst.delState, h', if_true]
    simp only [Fst.delStates]
    cases Fst.markDeleted f.states.length [s] with
    | error e => rfl
    | ok m =>
      simp only
      cases Fst.renameSts (Fst.compactLoop m 0 0 f.states).1
        (List.take (Fst.compactLoop m 0 0 f.states).2.2 (Fst.compactLoop m 0 0 f.states).2.1) with
      | error e => rfl
      | ok sts =>
        simp only
        cases Fst.renameStart (Fst.compactLoop m 0 0 f.states).1 f.start <;> rfl
  · intro h
    have h' : ¬ s < f.states.length := h
    simp [Fst.delState, h']

/-- A four state FST over `Nat` weights. -/
def delExample : Fst Nat :=
  ⟨[⟨none, [⟨1, 1, 1, 1⟩, ⟨0, 2, 1, 3⟩], 1, 0⟩, ⟨some 4, [⟨1, 1, 1, 3⟩], 0, 0⟩, ⟨none, [], 0, 0⟩,
    ⟨some 5, [⟨0, 0, 9, 0⟩, ⟨3, 3, 9, 2⟩, ⟨4, 4, 9, 3⟩], 1, 1⟩], some 3, Props.empty⟩

example : (∀ s ∈ [2, 1, 2], s < delExample.numStates) ∧
    ((delExample.delStates [2, 1, 2]).toOption.map fun g => (g.states, g.start)) =
    some ([⟨none, [⟨0, 2, 1, 1⟩], 1, 0⟩, ⟨some 5, [⟨0, 0, 9, 0⟩, ⟨4, 4, 9, 1⟩], 1, 1⟩], some 1) := by
  exact ⟨by decide, by decide⟩

example : delExample.WF where
  start_lt := by intro i hi; cases hi; decide
  next_lt := by
    intro s
    rcases s with _ | _ | _ | _ | s
    all_goals first | decide | (intro t ht; simp [Fst.trsOf, delExample] at ht)

/-- Naming a state that does not exist makes `del_states` panic instead of returning an error. -/
theorem C04_del_states_panics : ∃ (f : Fst Nat) (ds : List StateId), f.WF ∧
    (f.delStates ds).map (fun g => g.start) = .error .panic := by
  refine ⟨Fst.new, [0], ⟨by intro i hi; simp at hi, by intro s t ht; simp at ht⟩, by decide⟩

end Verif
