import Verif.Lemmas.Table

/-! # C37: state tables are bijections -/

namespace Verif
universe u
variable {T : Type u} [DecidableEq T]

/-- C37, `StateTable` (used by compose, replace and determinize): whatever tuples are requested, in whatever order and however often,
the table numbers them one to one from 0 without gaps and never changes an id. -/
theorem C37_state_table : NumbersTuples (T := T) BiMap.findId (fun m s => (m.findTuple s).toOption) BiMap.new := by
  have e : (fun (m : BiMap T) s => (m.findTuple s).toOption) = BiMap.tup := by
    funext m s
    unfold BiMap.findTuple BiMap.tup
    cases m.ofId[s]? <;> rfl
  rw [e]
  exact BiMap.law.numbers BiMap.ok_new rfl

/-- C37, `FactorWeightStateTable`, with or without factoring of transition weights. -/
theorem C37_factor_weight {W : Type u} [One W] [DecidableEq W] (factorTr : Bool) :
    NumbersTuples (T := FwElt W) FwTable.findState (fun m s => (m.findTuple s).toOption) (FwTable.new factorTr) := by
  have e : (fun (m : FwTable W) s => (m.findTuple s).toOption) = FwTable.tup := by
    funext m s
    unfold FwTable.findTuple FwTable.tup
    cases FwTable.byLeft m.bimap s <;> rfl
  rw [e]
  exact FwTable.law.numbers (FwTable.ok_new factorTr) rfl

/-- C37: asking for the tuple of an id that was never given panics; it is never an ordinary error. -/
theorem C37_unknown_id (m : BiMap T) (s : StateId) : m.findTuple s ≠ .error .err ∧ (m.findTuple s = .error .panic ↔ m.ofId.length ≤ s) := by
  unfold BiMap.findTuple
  cases h : m.ofId[s]? with
  | none => exact ⟨by simp, by simpa using h⟩
  | some t => exact ⟨by simp, by have := (List.getElem?_eq_some_iff.1 h).1; simp; omega⟩

/-- Requests `b a b c a` get the ids `0 1 0 2 1`. -/
example : (askAll BiMap.findId (BiMap.new : BiMap Char) ['b', 'a', 'b', 'c', 'a']).1 = [0, 1, 0, 2, 1] := by decide

/-- The element `(state 7, one)` goes through the second map and still gets a single id. -/
example : (askAll FwTable.findState (FwTable.new false : FwTable Nat)
    [⟨some 7, 1⟩, ⟨some 7, 2⟩, ⟨none, 1⟩, ⟨some 7, 1⟩, ⟨some 7, 2⟩]).1 = [0, 1, 2, 0, 1] := by decide

end Verif
