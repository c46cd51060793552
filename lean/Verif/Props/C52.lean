import Verif.Model.TrMap
import Verif.Props.C10
import Verif.Lemmas.DecHist

/-! # C52: `fst_convert` -/

namespace Verif
set_option linter.unusedSectionVars false
universe u
variable {W : Type u} [Zero W] [One W] [DecidableEq W]
open Fst

/-- `g` has the states, transitions, final weights and start state of `f`. -/
structure SameFst (f g : Fst W) : Prop where
  num : g.numStates = f.numStates
  start : g.start = f.start
  trs : ∀ s, g.trsOf s = f.trsOf s
  fin : ∀ s, g.finOf s = f.finOf s

theorem SameFst.holds {f g : Fst W} (h : SameFst f g) (b) : g.Holds b ↔ f.Holds b := by
  by_cases hb : labelFree b = true
  · exact Relab.holds (k := id) ⟨by simpa using h.trs, h.fin, h.num, h.start, fun _ => rfl⟩ (fun _ => rfl) b hb
  · cases b <;> simp only [labelFree, not_true_eq_false] at hb <;> simp only [Holds, h.trs]

theorem convert_addTrs (f o : Fst W) (s : Nat) : convertSt f o s =
    match f.finOf s with
    | none => addTrs o s (f.trsOf s)
    | some w => (addTrs o s (f.trsOf s)).setFinal s w := rfl

theorem allCounters_addTrs {s : Nat} : ∀ (ts : List (Tr W)) {f : Fst W}, f.AllCounters → (addTrs f s ts).AllCounters
  | [], _, h => h
  | t :: ts, f, h => allCounters_addTrs ts (f := f.addTr s t) (allCounters_addTr h s t)

theorem convert_spec (f : Fst W) {i} (hs : f.start = some i) : SameFst f f.convert ∧ f.convert.AllCounters ∧
    (f.Truthful → f.convert.Truthful) := by
  have loop := foldl_range_induct (fun n (g : Fst W) => g.numStates = f.numStates ∧ g.start = some i ∧
      (∀ q, g.trsOf q = if q < n then f.trsOf q else []) ∧ (∀ q, g.finOf q = if q < n then f.finOf q else none) ∧
      g.Truthful ∧ g.AllCounters) (convertSt f) f.numStates ((Fst.new.addStates f.numStates).setStart i)
    (by
      have htr := truthful_setStart (truthful_addStates (truthful_new (W := W)) f.numStates) i
      refine ⟨by simp, by simp, fun q => ?_, fun q => ?_, htr, ?_⟩
      · simp
      · simp
      · exact allCounters_setStart (allCounters_addStates allCounters_new _) _)
    (by
      rintro j g hj ⟨a, b, c, d, e, e'⟩
      obtain ⟨x1, x2, x3, x4, x5, -⟩ := addTrs_spec (f.trsOf j) g (s := j) e (by omega)
      have x6 := allCounters_addTrs (s := j) (f.trsOf j) e'
      have hg : g.trsOf j = [] := by rw [c, if_neg (by omega)]
      have hx5 : ∀ q, (addTrs g j (f.trsOf j)).trsOf q = if q < j + 1 then f.trsOf q else [] := by
        intro q
        rw [x5, hg]
        by_cases hq : q = j
        · subst hq; simp
        · have : q < j + 1 ↔ q < j := by omega
          rw [if_neg hq, c]; simp [this]
      rw [convert_addTrs]
      generalize addTrs g j (f.trsOf j) = k at *
      cases hf : f.finOf j with
      | none =>
        refine ⟨x2.trans a, x3.trans b, hx5, fun q => ?_, x1, x6⟩
        rw [x4, d]
        by_cases hq : q = j
        · subst hq; simp [hf]
        · have : q < j + 1 ↔ q < j := by omega
          simp [this]
      | some w =>
        refine ⟨by simp [x2, a], by simp [x3, b], fun q => by rw [setFinal_trsOf, hx5], fun q => ?_,
          truthful_setFinal x1 (by omega) w, allCounters_setFinal x6 _ _⟩
        rw [setFinal_finOf, x4, d]
        by_cases hq : q = j
        · subst hq
          have : q < k.numStates := by omega
          simp [hf, this]
        · have : q < j + 1 ↔ q < j := by omega
          simp [this, hq])
  obtain ⟨g, hg⟩ : ∃ g, g = (List.range f.numStates).foldl (convertSt f) ((Fst.new.addStates f.numStates).setStart i) := ⟨_, rfl⟩
  have hcon : f.convert = g.setPropsMask f.props f.props := by
    unfold Fst.convert
    rw [hs, hg]
  rw [← hg] at loop
  obtain ⟨a, b, c, d, e, e'⟩ := loop
  have same : SameFst f g := by
    refine ⟨a, b.trans hs.symm, fun s => ?_, fun s => ?_⟩
    · rw [c]
      split
      · rfl
      · exact (trsOf_of_ge (by omega)).symm
    · rw [d]
      split
      · rfl
      · exact (finOf_of_ge (by omega)).symm
  rw [hcon]
  refine ⟨⟨same.num, same.start, same.trs, same.fin⟩, allCounters_setPropsMask e' _ _, fun tf => (fun bt hb => ?_ : Fst.Truthful _)⟩
  have h0 : SameFst f (g.setPropsMask f.props f.props) := ⟨same.num, same.start, same.trs, same.fin⟩
  rw [h0.holds]
  simp only [setPropsMask, Props.or, Props.and, Props.not, Bool.or_eq_true, Bool.and_eq_true] at hb
  rcases hb with hb | hb
  · exact (same.holds bt).1 (e bt hb.1)
  · exact tf bt hb.1

/-- C52 for FSTs with a start state: `fst_convert` copies the states with their transitions and final weights, and the start state; so
all accepting paths are the same. The copy has exact ε counters, and its flags are true if those of the original are. Missing: FSTs without
a start state (`C52_no_start_defect`). -/
theorem C52_convert_partial [Mul W] (f : Fst W) (hs : f.start ≠ none) : f.convert.numStates = f.numStates ∧ f.convert.start = f.start ∧
    (∀ s, f.convert.trsOf s = f.trsOf s) ∧ (∀ s, f.convert.finOf s = f.finOf s) ∧ (∀ n, f.convert.accPaths n = f.accPaths n) ∧
    f.convert.AllCounters ∧ (f.Truthful → f.convert.Truthful) := by
  obtain ⟨i, hi⟩ := Option.ne_none_iff_exists'.1 hs
  obtain ⟨h, h1, h2⟩ := convert_spec f hi
  exact ⟨h.num, h.start, h.trs, h.fin, fun n => accPaths_congr (f := f) (g := f.convert) h.start h.trs h.fin n, h1, h2⟩

/-- Defect: without a start state transitions and final weights are dropped, yet the flags of the original are copied: here the copy
claims to be weighted. -/
theorem C52_no_start_defect : ∃ f : Fst Nat, f.WF ∧ f.Truthful ∧ f.trsOf 0 ≠ [] ∧ f.convert.trsOf 0 = [] ∧ f.finOf 0 = some 5 ∧ f.convert.finOf 0 = none ∧
    f.convert.props .weighted = true ∧ ¬ f.convert.Holds .weighted := by
  refine ⟨((Fst.new.addStates 1).setFinal 0 5).addTr 0 ⟨1, 2, 3, 0⟩, Fst.wf_of_wfB (by decide), ?_, by decide, by decide, by decide, by decide,
    by decide, ?_⟩
  · exact truthful_addTr (truthful_setFinal (truthful_addStates truthful_new 1) (by decide) 5) (by decide) _
  · intro h
    apply h
    constructor
    · intro s t ht
      have : ∀ s, (Fst.convert (((Fst.new.addStates 1).setFinal 0 5).addTr 0 ⟨1, 2, 3, 0⟩)).trsOf s = [] := by
        intro s
        cases s with
        | zero => rfl
        | succ s => rfl
      rw [this] at ht; cases ht
    · intro s w hw
      have : ∀ s, (Fst.convert (((Fst.new.addStates 1).setFinal 0 5).addTr 0 ⟨1, 2, 3, 0⟩)).finOf s = none := by
        intro s
        cases s with
        | zero => rfl
        | succ s => rfl
      rw [this] at hw; cases hw

example : exTwoTape.start ≠ none ∧ exTwoTape.convert.trsOf 0 = [⟨1, 5, 2, 1⟩, ⟨1, 0, 1, 1⟩] ∧ exTwoTape.convert.finOf 2 = some 7 := by decide

end Verif
