import Verif.Lemmas.ComputeProps
import Verif.Lemmas.DecHist
import Verif.Props.C14Flags

/-! # C07: `compute_fst_properties` is correct -/

namespace Verif
open Fst Scan
universe u
variable {W : Type u} [Zero W] [One W] [DecidableEq W]

theorem intersects_of {mask m : Props} {b : PropBit} (h1 : mask b = true) (h2 : m b = true) : mask.intersects m = true := by
  unfold Props.intersects
  rw [List.any_eq_true]
  exact ⟨b, PropBit.mem_all b, by rw [h1, h2]; rfl⟩

theorem containsAll_apply {p m : Props} (h : p.containsAll m = true) {b : PropBit} (hb : m b = true) : p b = true := by
  unfold Props.containsAll at h
  rw [List.all_eq_true] at h
  have := h b (PropBit.mem_all b)
  rw [hb] at this; simpa using this

/-- C07: on a well-formed FST whose stored flags are true, `compute_fst_properties` succeeds; every flag it reports is true of the
FST, and for each requested flag it reports either the flag or its negation (so, as both cannot be true, exactly one: a requested
flag is reported if and only if it holds). The FST must have a start state unless it is empty (see `C07_no_start`), and when labels
and weights are scanned no state may carry the explicit final weight zero (see `C07_zero_final`). -/
theorem C07_compute (f : Fst W) (hw : f.WF) (tf : f.Truthful) (hs : f.start ≠ none ∨ f.numStates = 0) (mask : Props)
    (hz : mask.needsScan = true → ∀ s, f.finOf s ≠ some 0) (useStored : Bool) :
    ∃ p, f.computeProps mask useStored = .ok (p, p.known) ∧ (∀ b, p b = true → f.Holds b) ∧
      ∀ b, mask b = true → (p b = true ↔ f.Holds b) := by
  -- a truthful set of flags that knows the mask
  have enough : ∀ p : Props, (∀ b, p b = true → f.Holds b) → (∀ b, mask b = true → p b = true ∨ p b.neg = true) →
      ∀ b, mask b = true → (p b = true ↔ f.Holds b) := by
    intro p h1 h2 b hb
    refine ⟨h1 b, fun h => ?_⟩
    rcases h2 b hb with h' | h'
    · exact h'
    · exact absurd h ((holds_neg f b).1 (h1 _ h'))
  unfold computeProps
  by_cases hst : (useStored && f.props.known.containsAll mask) = true
  · rw [if_pos hst]
    refine ⟨f.props, rfl, tf, enough _ tf ?_⟩
    intro b hb
    rw [Bool.and_eq_true] at hst
    have := containsAll_apply hst.2 hb
    simpa [Props.known] using this
  · rw [if_neg hst, if_neg (by simp [targetsOk_of_wf hw])]
    simp only
    have hv := visitOk f hw hs
    obtain ⟨p0, hp0⟩ : ∃ p0 : Props, p0 = (if mask.needsVisit then (f.props.and Props.binaryMask).or
      (Props.dfsMask.and (f.sccVisit fun _ => true).props) else f.props.and Props.binaryMask) := ⟨_, rfl⟩
    rw [← hp0]
    have h0 : ∀ b, p0 b = true → Props.dfsMask b = true ∧ f.Holds b := by
      intro b hb
      rw [hp0] at hb
      split at hb
      · simp only [Props.or_apply, Props.and_apply, Props.binaryMask, Props.empty_apply, Bool.and_false, Bool.false_or,
          Bool.and_eq_true] at hb
        exact ⟨hb.1, (hv.bits b hb.1).1 hb.2⟩
      · simp [Props.binaryMask] at hb
    have h1 : mask.needsVisit = true → ∀ b, Props.dfsMask b = true → f.Holds b → p0 b = true := by
      intro hn b hb hh
      rw [hp0, if_pos hn]
      simp [hb, (hv.bits b hb).2 hh]
    have hdfs : ∀ b, mask b = true → Props.dfsMask b = true → (p0 b = true ∨ p0 b.neg = true) := by
      intro b hb hd
      have hn : mask.needsVisit = true := intersects_of hb (by simp [hd])
      by_cases hh : f.Holds b
      · exact .inl (h1 hn b hd hh)
      · exact .inr (h1 hn _ (by cases b <;> simp [Props.dfsMask, Props.of, PropBit.neg] at hd ⊢) ((holds_neg f b).2 hh))
    by_cases hsc : mask.needsScan = true
    · rw [if_pos hsc]
      obtain ⟨s1, s2⟩ := scan_spec hw (hz hsc) hs hv mask p0 (by
        intro b hb
        by_contra hc
        have := (h0 b (by simpa using hc)).1
        rw [hb] at this; cases this)
      have htruth : ∀ b, f.scan mask (f.sccVisit fun _ => true).scc p0 b = true → f.Holds b := by
        intro b hb
        by_cases hw1 : wanted mask b = true
        · exact (s1 b hw1).1.1 hb
        · by_cases hw2 : wanted mask b.neg = true
          · have := (s1 _ hw2).2
            have e : b.neg.neg = b := by cases b <;> rfl
            rw [e] at this
            have h := this.1 hb
            rw [holds_neg, not_not] at h; exact h
          · rw [s2 b (by simp [offBit, hw1, hw2])] at hb
            exact (h0 b hb).2
      refine ⟨_, rfl, htruth, enough _ htruth ?_⟩
      intro b hb
      by_cases hd : Props.dfsMask b = true
      · have hoff : offBit mask b = true := by
          cases b <;> simp [Props.dfsMask, Props.of] at hd <;> simp [offBit, wanted, scanBit, PropBit.neg]
        have hoff' : offBit mask b.neg = true := by
          cases b <;> simp [Props.dfsMask, Props.of] at hd <;> simp [offBit, wanted, scanBit, PropBit.neg]
        rw [s2 b hoff, s2 _ hoff']
        exact hdfs b hb hd
      · have hcase : wanted mask b = true ∨ wanted mask b.neg = true := by
          have hi : ∀ m : Props, m b = true → mask.intersects m = true := fun m hm => intersects_of hb hm
          cases b <;> simp [Props.dfsMask, Props.of] at hd <;>
            simp only [wanted, scanBit, PropBit.neg, or_true, true_or, Bool.false_eq_true, false_or, or_false] <;>
            exact hi _ (by simp [Props.iDetMask, Props.oDetMask, Props.cycleMask, Props.of])
        rcases hcase with h | h
        · have := s1 b h
          by_cases hh : f.Holds b
          · exact .inl (this.1.2 hh)
          · exact .inr (this.2.2 hh)
        · have := s1 _ h
          have e : b.neg.neg = b := by cases b <;> rfl
          rw [Tracks, e] at this
          by_cases hh : f.Holds b.neg
          · exact .inr (this.1.2 hh)
          · exact .inl (this.2.2 hh)
    · rw [if_neg hsc]
      refine ⟨_, rfl, fun b hb => (h0 b hb).2, enough _ (fun b hb => (h0 b hb).2) ?_⟩
      intro b hb
      refine hdfs b hb ?_
      by_contra hd
      exact hsc (intersects_of hb (by simp [Props.binaryMask, hd]))

/-- C07 for `compute_and_update_properties`: the flags returned are exactly the requested flags that hold; the stored flags stay
true and now settle every requested flag; states and start state do not change. -/
theorem C07_update (f : Fst W) (hw : f.WF) (tf : f.Truthful) (hs : f.start ≠ none ∨ f.numStates = 0) (mask : Props)
    (hz : mask.needsScan = true → ∀ s, f.finOf s ≠ some 0) :
    ∃ g p, f.computeAndUpdate mask = .ok (g, p) ∧ (∀ b, p b = true ↔ mask b = true ∧ f.Holds b) ∧
      g.states = f.states ∧ g.start = f.start ∧ g.Truthful ∧ ∀ b, mask b = true → (g.props b = true ↔ f.Holds b) := by
  obtain ⟨p, h1, h2, h3⟩ := C07_compute f hw tf hs mask hz true
  unfold computeAndUpdate
  rw [h1]
  have hg : ∀ b, (f.setPropsMask p p.known).props b = true → f.Holds b := by
    intro b hb
    simp only [setPropsMask, Props.or, Props.and, Props.not] at hb
    cases hk : p.known b with
    | true => rw [hk] at hb; exact h2 b (by simpa using hb)
    | false => rw [hk] at hb; exact tf b (by simpa using hb)
  refine ⟨_, _, rfl, ?_, rfl, rfl, ?_, ?_⟩
  · intro b
    rw [Props.and_apply, Bool.and_eq_true]
    constructor
    · rintro ⟨a, b⟩; exact ⟨b, h2 _ a⟩
    · rintro ⟨a, b⟩; exact ⟨(h3 _ a).2 b, a⟩
  · intro b hb
    have := hg b hb
    cases b <;> exact this
  · intro b hb
    refine ⟨hg b, fun hh => ?_⟩
    have : p b = true := (h3 b hb).2 hh
    simp [setPropsMask, Props.known, this]

/-- C07 for `properties_check`: it returns the stored flags when they settle everything requested, and fails otherwise. -/
theorem C07_check (f : Fst W) (tf : f.Truthful) (k : Props) :
    (∀ p, f.propertiesCheck k = .ok p → ∀ b, k b = true → (p b = true ↔ f.Holds b)) ∧
    (f.propertiesCheck k = .error .err ↔ ∃ b, k b = true ∧ f.props b = false ∧ f.props b.neg = false) := by
  constructor
  · intro p hp b hb
    unfold propertiesCheck at hp
    split at hp
    · next hk =>
      cases hp
      have := containsAll_apply hk hb
      simp only [Props.known, Bool.or_eq_true] at this
      refine ⟨tf b, fun hh => ?_⟩
      rcases this with h | h
      · exact h
      · exact absurd hh ((holds_neg f b).1 (tf _ h))
    · cases hp
  · unfold propertiesCheck
    constructor
    · intro h
      split at h
      · cases h
      · next hk =>
        unfold Props.knows Props.containsAll at hk
        rw [List.all_eq_true] at hk
        push Not at hk
        obtain ⟨b, -, hb⟩ := hk
        refine ⟨b, ?_⟩
        cases hkb : k b <;> cases h1 : f.props b <;> cases h2 : f.props b.neg <;> simp_all [Props.known]
    · rintro ⟨b, h1, h2, h3⟩
      rw [if_neg]
      intro hk
      have := containsAll_apply hk h1
      simp [Props.known, h2, h3] at this

/-- Defect: without a start state no state is visited, and a self-loop is reported as ACYCLIC. -/
theorem C07_no_start : ∃ (f : Fst Nat) (p : Props), f.WF ∧ f.Truthful ∧ f.computeProps Props.allMask false = .ok (p, p.known) ∧
    p .acyclic = true ∧ ¬ f.Holds .acyclic := by
  refine ⟨{ (Fst.new.addStates 1).addTr 0 ⟨1, 1, 1, 0⟩ with props := Props.empty }, _, Fst.wf_of_wfB (by decide), ?_, rfl, by decide, ?_⟩
  · intro b hb; cases hb
  · intro h
    exact h ⟨0, .single ⟨⟨1, 1, 1, 0⟩, by decide, rfl⟩⟩

/-- Defect: a final weight stored as zero counts as final for the traversals but not for the string test: the FST `0 → 1` with
both states final is reported as STRING. -/
theorem C07_zero_final : ∃ (f : Fst Nat) (p : Props), f.WF ∧ f.Truthful ∧ f.start = some 0 ∧
    f.computeProps Props.allMask false = .ok (p, p.known) ∧ p .isString = true ∧ f.IsFinal 0 ∧ f.IsFinal 1 ∧ ¬ f.Holds .isString := by
  refine ⟨{ ((((Fst.new.addStates 2).setStart 0).setFinal 0 0).setFinal 1 1).addTr 0 ⟨1, 1, 1, 1⟩ with props := Props.empty }, _,
    Fst.wf_of_wfB (by decide), ?_, rfl, rfl, by decide, rfl, rfl, ?_⟩
  · intro b hb; cases hb
  · intro h
    have := (h (by decide)).2 0 (by decide)
    rw [if_neg (by decide)] at this
    exact this.1 rfl

/-- A non-trivial instance: two states on a cycle with a weight, plus a final state. -/
def exCyc : Fst Nat :=
  { ((((((Fst.new.addStates 3).setStart 0).setFinal 2 1).addTr 0 ⟨1, 1, 2, 1⟩).addTr 1 ⟨2, 2, 1, 0⟩).addTr 1 ⟨1, 0, 1, 2⟩) with
    props := Props.empty }
example : exCyc.WF ∧ exCyc.Truthful ∧ exCyc.start ≠ none ∧ ∀ s, exCyc.finOf s ≠ some 0 := by
  refine ⟨Fst.wf_of_wfB (by decide), (fun b hb => ?_ : Fst.Truthful _), by decide, ?_⟩
  · cases hb
  intro s
  rcases s with _ | _ | _ | s
  · decide
  · decide
  · decide
  · rw [finOf_of_ge (Nat.le_add_left 3 s)]; simp
example : ∃ p, exCyc.computeProps Props.allMask true = .ok (p, p.known) ∧ p .cyclic = true ∧ p .weightedCycles = true ∧
    p .accessible = true ∧ p .notILabelSorted = true ∧ p .iDeterministic = true ∧ p .notString = true ∧ p .iEpsilons = false :=
  ⟨_, rfl, by decide⟩

end Verif
