import Verif.Lemmas.Shape
import Verif.Lemmas.Path

/-! # Flags after rewriting labels in place; extensionality of FSTs -/

namespace Verif
set_option linter.unusedSectionVars false
universe u v
variable {W : Type u} {V : Type v}
namespace Fst

/-- An FST with exact counters is determined by what the queries return. -/
theorem states_ext {f g : Fst W} (hf : f.AllCounters) (hg : g.AllCounters) (hn : g.numStates = f.numStates)
    (ht : ∀ s, g.trsOf s = f.trsOf s) (hfin : ∀ s, g.finOf s = f.finOf s) : g.states = f.states := by
  apply List.ext_getElem?
  intro s
  by_cases h : s < f.states.length
  · have h' : s < g.states.length := by have := hn; unfold numStates at this; omega
    have e1 := List.getElem?_eq_getElem h
    have e2 := List.getElem?_eq_getElem h'
    have c1 := hf s _ e1
    have c2 := hg s _ e2
    have t := ht s
    have fi := hfin s
    rw [trsOf_eq_of_get e1, trsOf_eq_of_get e2] at t
    rw [finOf_eq_of_get e1, finOf_eq_of_get e2] at fi
    rw [countersOk_iff] at c1 c2
    rw [e1, e2]
    rw [t] at c2
    cases hs : f.states[s] with
    | mk a b c d =>
      cases hs' : g.states[s] with
      | mk a' b' c' d' =>
        rw [hs, hs'] at t fi
        rw [hs] at c1 c2
        rw [hs'] at c2
        simp only at *
        rw [t, fi, c1.1, c1.2, c2.1, c2.2]
  · have h' : ¬ s < g.states.length := by have := hn; unfold numStates at this; omega
    rw [List.getElem?_eq_none (by omega), List.getElem?_eq_none (by omega)]

/-- `g` is `f` with the transitions rewritten by `k`, which keeps targets and weights. -/
structure Relab (f g : Fst W) (k : Tr W → Tr W) : Prop where
  trs : ∀ s, g.trsOf s = (f.trsOf s).map k
  fin : ∀ s, g.finOf s = f.finOf s
  num : g.numStates = f.numStates
  start : g.start = f.start
  next : ∀ t, (k t).nextstate = t.nextstate

variable {f g : Fst W} {k : Tr W → Tr W}

theorem Relab.edge (h : Relab f g k) : g.Edge = f.Edge := by
  funext a b
  simp [Edge, h.trs, h.next]

theorem Relab.wf (h : Relab f g k) (hf : f.WF) : g.WF where
  start_lt i hi := by rw [h.num]; rw [h.start] at hi; exact hf.start_lt i hi
  next_lt s t ht := by
    rw [h.trs] at ht
    obtain ⟨t', ht', rfl⟩ := List.mem_map.1 ht
    rw [h.num, h.next]
    exact hf.next_lt s t' ht'

variable [Zero W] [One W]

/-- The flags that do not depend on labels. -/
def labelFree : PropBit → Bool
  | .weighted | .unweighted | .cyclic | .acyclic | .initialCyclic | .initialAcyclic | .topSorted | .notTopSorted
  | .accessible | .notAccessible | .coaccessible | .notCoaccessible | .isString | .notString | .weightedCycles
  | .unweightedCycles => true
  | _ => false

theorem Relab.holds (h : Relab f g k) (hw : ∀ t, (k t).weight = t.weight) (b) (hb : labelFree b = true) :
    g.Holds b ↔ f.Holds b := by
  have e1 : g.Reach = f.Reach := by simp [Reach, h.edge]
  have e2 : g.OnCycle = f.OnCycle := by funext a; simp [OnCycle, h.edge]
  have e3 : g.IsFinal = f.IsFinal := by funext a; simp [IsFinal, h.fin]
  have e4 : g.Accessible = f.Accessible := by funext a; simp [Accessible, h.start, e1]
  have e5 : g.Coaccessible = f.Coaccessible := by funext a; simp [Coaccessible, e1, e3]
  have e6 : g.Unweighted ↔ f.Unweighted := by simp [Unweighted, h.trs, h.fin, hw]
  have e7 : g.HasWeightedCycle ↔ f.HasWeightedCycle := by simp [HasWeightedCycle, h.trs, hw, h.next, e1]
  have e8 : g.IsLinear ↔ f.IsLinear := by
    unfold IsLinear
    rw [h.num, h.start]
    refine imp_congr_right fun _ => and_congr_right fun _ => forall_congr' fun s => imp_congr_right fun _ => ?_
    split
    · simp [e3, h.trs]
    · rw [e3]
      refine and_congr_right fun _ => ?_
      rw [h.trs]
      constructor
      · rintro ⟨t, ht, hn⟩
        cases hl : f.trsOf s with
        | nil => simp [hl] at ht
        | cons a l =>
          rw [hl] at ht
          simp only [List.map_cons, List.cons.injEq, List.map_eq_nil_iff] at ht
          obtain ⟨rfl, rfl⟩ := ht
          exact ⟨a, rfl, by rw [← h.next]; exact hn⟩
      · rintro ⟨t, ht, hn⟩
        rw [ht]
        exact ⟨k t, rfl, by rw [h.next]; exact hn⟩
  cases b <;> simp [labelFree] at hb <;>
    simp only [Holds, e2, e4, e5, e6, e7, e8, h.trs, h.start, h.num, List.mem_map, forall_exists_index, and_imp,
      forall_apply_eq_imp_iff₂, h.next]

end Fst
end Verif
