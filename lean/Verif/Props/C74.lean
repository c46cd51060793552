import Verif.Lemmas.ConstText

/-!
# C74: a text describes one FST, and both FST types read it as that
-/

namespace Verif
set_option linter.unusedSectionVars false
universe u
variable {W : Type u} [Zero W] [One W] [DecidableEq W]
open Fst

theorem computeProps_ok {f : Fst W} (hw : f.WF) (mask : Props) (b : Bool) : ∃ p, f.computeProps mask b = .ok p := by
  unfold Fst.computeProps
  rw [Fst.targetsOk_of_wf hw]
  split
  · exact ⟨_, rfl⟩
  · split
    · next h => simp at h
    · exact ⟨_, rfl⟩

/-- C74: whatever the rows of a text are, in any order and with repeated final weights, reading them into a `VectorFst` succeeds. The FST
has the states up to the largest one mentioned, the state of the first row as start state, for each state its transitions in the order of
the rows, and the final weight of its last row. Counters are exact. If no final weight is zero, the flags are exactly the true ones. -/
theorem C74_vector (rows : List (Row W)) :
    ∃ g, fromRows rows = .ok g ∧ g.WF ∧ g.numStates = rowsNumStates rows ∧ g.start = rowsStart rows ∧
      (∀ q, g.trsOf q = rowsTrs rows q) ∧ (∀ q, g.finOf q = rowsFin rows q) ∧ g.AllCounters ∧
      ((∀ q, rowsFin rows q ≠ some 0) → ∀ b, g.props b = true ↔ g.Holds b) := by
  obtain ⟨h, hn, hst, ht, hf, hc, htr, hw, hs, e⟩ := fromRows_build rows
  obtain ⟨⟨p, k⟩, hp⟩ := computeProps_ok hw Props.allMask true
  have e2 : h.computeAndUpdate Props.allMask = .ok (h.setPropsMask p k, p.and Props.allMask) := by
    unfold computeAndUpdate; rw [hp]
  rw [e2] at e
  refine ⟨_, e, ⟨hw.start_lt, hw.next_lt⟩, hn, hst, ht, hf, hc, fun hz => ?_⟩
  obtain ⟨g', p', h1, -, h3, h4, -, h6⟩ := C07_update h hw htr hs Props.allMask (fun _ q => by rw [hf]; exact hz q)
  rw [e2] at h1
  cases h1
  intro b
  rw [h6 b rfl]
  exact (holds_congr (f := h) (g := h.setPropsMask p k) rfl rfl (fun _ => rfl) (fun _ => rfl) b).symm

/-- C74: reading the same rows into a `ConstFst` succeeds as well and gives the same FST: all queries of the `Fst` trait get the answers that
the `VectorFst` gives, for all states, existing or not. If no final weight is zero, the flags are exactly the true ones, so equal too. -/
theorem C74_const (rows : List (Row W)) :
    ∃ g c, fromRows rows = .ok g ∧ constFromRows rows = .ok c ∧ c.numStates = g.numStates ∧ c.start = g.start ∧ c.isymt = none ∧
      c.osymt = none ∧
      (∀ s : StateId, c.getTrsR s = g.getTrsR s ∧ c.finalWeightR s = g.finalWeightR s ∧
        c.numTrsR s = g.numTrsR s ∧ c.numIEpsR s = g.numIEpsR s ∧ c.numOEpsR s = g.numOEpsR s) ∧
      ((∀ q, rowsFin rows q ≠ some 0) → ∀ b, c.props b = true ↔ g.Holds b) := by
  obtain ⟨g, hg, hgw, hn, hst, ht, hf, hc, hfl⟩ := C74_vector rows
  obtain ⟨hview, hpos⟩ := constRows_view rows g hn ht hf hc
  obtain ⟨cs, hcs⟩ : ∃ cs, cs = (rows.filterMap rowFin).foldl (fun cs p => cs.modify p.1 fun st => { st with fin := some p.2 })
    (constRows rows).1 := ⟨_, rfl⟩
  rw [← hcs] at hview hpos
  obtain ⟨c0, hc0⟩ : ∃ c0 : ConstFst W, c0 = ⟨cs, (constRows rows).2, rowsStart rows, none, none, Props.empty⟩ := ⟨_, rfl⟩
  have hv : c0.view = ⟨g.states, g.start, Props.empty⟩ := by
    rw [hc0]
    unfold ConstFst.view
    simp only
    rw [hview, hst]
  have hvw : c0.view.WF := by
    rw [hv]
    exact ⟨hgw.start_lt, hgw.next_lt⟩
  obtain ⟨⟨p, k⟩, hp⟩ := computeProps_ok hvw Props.allMask false
  have hlen : cs.length = g.numStates := by
    have := congrArg List.length hview
    rw [List.length_map] at this
    exact this
  refine ⟨g, { c0 with props := p }, hg, ?_, ?_, ?_, ?_, ?_, fun s => ?_, fun hz b => ?_⟩
  · unfold constFromRows
    simp only
    rw [← hcs, ← hc0, hp, hc0]
  · show c0.states.length = _
    rw [hc0]; exact hlen
  · show c0.start = _
    rw [hc0, hst]
  · show c0.isymt = _
    rw [hc0]
  · show c0.osymt = _
    rw [hc0]
  · have hget : g.states[s]? = (cs[s]?).map fun st => ⟨st.fin, ((constRows rows).2.drop st.pos).take st.ntrs, st.niepsilons, st.noepsilons⟩ := by
      rw [← hview, List.getElem?_map]
    simp only [ConstFst.getTrsR, ConstFst.finalWeightR, ConstFst.numTrsR, ConstFst.numIEpsR, ConstFst.numOEpsR, hc0,
      Fst.getTrsR, Fst.finalWeightR, Fst.numTrsR, Fst.numIEpsR, Fst.numOEpsR, hget]
    cases hq : cs[s]? with
    | none => simp
    | some st =>
      obtain ⟨k1, k2⟩ := hpos s st hq
      have : ((List.drop st.pos (constRows rows).2).take st.ntrs).length = st.ntrs := by
        rw [List.length_take, List.length_drop]; omega
      simp only [Option.map_some, ConstFst.slice, k1, if_true, this, and_self]
  · obtain ⟨p', h1, -, h3⟩ := C07_compute c0.view hvw (by rw [hv]; intro b hb; cases hb) (by
      rw [hv]
      show g.start ≠ none ∨ g.numStates = 0
      rw [hst, hn]
      cases rows with
      | nil => exact .inr rfl
      | cons r rs => left; cases r <;> simp [rowsStart]) Props.allMask (fun _ q => by
        have : c0.view.finOf q = g.finOf q := by rw [hv]; rfl
        rw [this, hf]; exact hz q) false
    rw [hp] at h1
    cases h1
    show p b = true ↔ _
    rw [h3 b rfl, hv]
    exact holds_congr (f := g) (g := ⟨g.states, g.start, Props.empty⟩) rfl rfl (fun _ => rfl) (fun _ => rfl) b

/-- C74 for texts: what does not parse ends the text for both types alike. -/
theorem C74_text [TextCodec W] (i : List Char) :
    ∃ (g : Fst W) (c : ConstFst W), fstOfText i = .ok g ∧ constOfText i = .ok c ∧ c.numStates = g.numStates ∧ c.start = g.start ∧
      ∀ s : StateId, c.getTrsR s = g.getTrsR s ∧ c.finalWeightR s = g.finalWeightR s ∧
        c.numTrsR s = g.numTrsR s ∧ c.numIEpsR s = g.numIEpsR s ∧ c.numOEpsR s = g.numOEpsR s := by
  obtain ⟨g, c, h1, h2, h3, h4, -, -, h5, -⟩ := C74_const (textRows (W := W) i)
  exact ⟨g, c, h1, h2, h3, h4, h5⟩

/-! ## Examples -/

/-- Rows out of order: state 3 comes first, state 1 has no transitions, state 2 gets two final weights. -/
def exRows : List (Row Nat) :=
  [.tr 3 1 0 (some 5) 2, .tr 0 0 2 none 3, .fin 2 (some 4), .tr 3 2 2 (some 6) 4, .tr 0 1 1 (some 7) 0, .fin 2 (some 9), .inf 1]

example : rowsNumStates exRows = 5 ∧ rowsStart exRows = some 3 ∧ rowsTrs exRows 0 = [⟨0, 2, 1, 3⟩, ⟨1, 1, 7, 0⟩] ∧ rowsTrs exRows 1 = [] ∧
    rowsTrs exRows 3 = [⟨1, 0, 5, 2⟩, ⟨2, 2, 6, 4⟩] ∧ rowsFin exRows 2 = some 9 ∧ rowsFin exRows 1 = none := by decide +kernel

/-- The condition on the final weights holds here. -/
example : ∀ q, rowsFin exRows q ≠ some 0 := by
  intro q h
  by_cases hq : q < 5
  · have : ∀ q < 5, rowsFin exRows q ≠ some 0 := by decide +kernel
    exact this q hq h
  · unfold rowsFin at h
    rw [List.filter_eq_nil_iff.2] at h
    · cases h
    · intro p hp
      have := (rows_lt exRows).2.1 p hp
      have e : rowsNumStates exRows = 5 := by decide +kernel
      rw [e] at this
      simp only [decide_eq_true_eq]
      omega

end Verif
