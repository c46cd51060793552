import Verif.Props.C14Flags

/-! # C51 for closure -/

namespace Verif
set_option linter.unusedSectionVars false
universe u
open Fst
variable {W : Type u} [Zero W] [One W] [DecidableEq W]

namespace Fst

/-- What both closures have in common. `extra s` is the back transition of a final state; the star closure has one more
state. -/
structure ClosureShape (f h : Fst W) (top : List (Tr W)) (new : Bool) : Prop where
  trs : ∀ s, s < f.numStates → h.trsOf s = f.trsOf s ++ (match f.finOf s, f.start with
    | some w, some i => [epsTr w i]
    | _, _ => [])
  fin : ∀ s, s < f.numStates → h.finOf s = f.finOf s
  num : h.numStates = if new then f.numStates + 1 else f.numStates
  trs_top : ∀ s, f.numStates ≤ s → h.trsOf s = if new ∧ s = f.numStates then top else []
  fin_top : ∀ s, f.numStates ≤ s → h.finOf s = if new ∧ s = f.numStates then some 1 else none
  top_eq : top = match f.start with
    | some i => [epsTr 1 i]
    | none => []
  start : h.start = if new then some f.numStates else f.start

theorem closure_shape (f : Fst W) (ty : ClosureType) : ClosureShape f (f.closure ty)
    (match f.start with | some i => [epsTr 1 i] | none => []) (ty == .star) := by
  have hcl : ∀ s, f.closeLoops.trsOf s = f.trsOf s ++ (match f.finOf s, f.start with
    | some w, some i => [epsTr w i]
    | _, _ => []) := by
    intro s
    cases hi : f.start with
    | none => rw [closeLoops_none hi]; cases f.finOf s <;> simp
    | some i => rw [(closeLoops_spec hi).1]; cases f.finOf s <;> rfl
  cases ty with
  | plus =>
    obtain ⟨a, b, c, d, -⟩ := closure_plus_spec (f := f)
    refine ⟨fun s _ => by rw [a, hcl], fun s _ => b s, by simp [c], ?_, ?_, rfl, by simp [d]⟩
    · intro s hs
      rw [a, trsOf_of_ge (by rw [← trsOf_numStates_closeLoops]; exact hs)]; simp
    · intro s hs; rw [b, finOf_of_ge hs]; simp
  | star =>
    obtain ⟨a, b, c, d, -⟩ := closure_star_spec (f := f)
    refine ⟨?_, ?_, by simp [c], ?_, ?_, rfl, by simp [d]⟩
    · intro s hs
      rw [a, if_neg (by omega), hcl]
    · intro s hs; rw [b, if_neg (by omega)]
    · intro s hs
      rw [a]
      by_cases h : s = f.numStates
      · simp only [h, if_true, beq_self_eq_true, and_self]; cases f.start <;> rfl
      · simp only [h, if_false, and_false]
        rw [trsOf_of_ge (by rw [← trsOf_numStates_closeLoops]; exact hs)]
    · intro s hs
      rw [b]
      by_cases h : s = f.numStates
      · simp [h]
      · simp only [h, if_false, and_false]
        rw [finOf_of_ge hs]

variable {f h : Fst W} {top : List (Tr W)} {new : Bool}

theorem ClosureShape.mem (u : ClosureShape f h top new) {s t} (ht : t ∈ h.trsOf s) :
    (s < f.numStates ∧ t ∈ f.trsOf s) ∨ (s < f.numStates ∧ ∃ w i, f.finOf s = some w ∧ f.start = some i ∧ t = epsTr w i) ∨
    (new = true ∧ s = f.numStates ∧ ∃ i, f.start = some i ∧ t = epsTr 1 i) := by
  by_cases h1 : s < f.numStates
  · rw [u.trs s h1] at ht
    rcases List.mem_append.1 ht with ht | ht
    · exact Or.inl ⟨h1, ht⟩
    · right; left
      refine ⟨h1, ?_⟩
      cases hw : f.finOf s <;> cases hi : f.start <;> simp [hw, hi] at ht
      exact ⟨_, _, rfl, rfl, ht⟩
  · rw [u.trs_top s (by omega)] at ht
    right; right
    split at ht
    · rename_i hc
      rw [u.top_eq] at ht
      cases hi : f.start <;> simp [hi] at ht
      exact ⟨hc.1, hc.2, _, rfl, ht⟩
    · simp at ht

theorem ClosureShape.emb (u : ClosureShape f h top new) : Emb f h id where
  trs s hs := by simp [u.trs s hs]

theorem ClosureShape.le (u : ClosureShape f h top new) : f.numStates ≤ h.numStates := by
  rw [u.num]; split <;> omega

theorem ClosureShape.wf (u : ClosureShape f h top new) (hf : f.WF) : h.WF where
  start_lt q hq := by
    rw [u.start] at hq
    rw [u.num]
    split at hq
    · rename_i hn; simp at hq; simp [hn]; omega
    · rename_i hn; simp [hn]; exact hf.start_lt q hq
  next_lt s t ht := by
    have := u.le
    rcases u.mem ht with ⟨_, ht⟩ | ⟨_, w, i, _, hi, rfl⟩ | ⟨_, _, i, hi, rfl⟩
    · have := hf.next_lt s t ht; omega
    · have := hf.start_lt i hi; simp [epsTr]; omega
    · have := hf.start_lt i hi; simp [epsTr]; omega

/-- Following transitions of the closure from a state of `f`: either stay in `f` or pass a final state and restart. -/
theorem ClosureShape.reach (u : ClosureShape f h top new) (hf : f.WF) {a b} (ha : a < f.numStates) (hr : h.Reach a b) :
    b < f.numStates ∧ (f.Reach a b ∨ ((∃ q, f.Reach a q ∧ f.IsFinal q) ∧ ∃ i, f.start = some i ∧ f.Reach i b)) := by
  induction hr with
  | refl => exact ⟨ha, Or.inl .refl⟩
  | @tail b c _ hbc ih =>
    obtain ⟨hb, ih⟩ := ih
    obtain ⟨t, ht, rfl⟩ := hbc
    rcases u.mem ht with ⟨_, ht⟩ | ⟨_, w, i, hw, hi, rfl⟩ | ⟨_, h2, _⟩
    · refine ⟨hf.next_lt _ _ ht, ?_⟩
      rcases ih with ih | ⟨h1, i, hi, h2⟩
      · exact Or.inl (ih.tail ⟨t, ht, rfl⟩)
      · exact Or.inr ⟨h1, i, hi, h2.tail ⟨t, ht, rfl⟩⟩
    · refine ⟨hf.start_lt i hi, Or.inr ⟨?_, i, hi, .refl⟩⟩
      rcases ih with ih | ⟨h1, _⟩
      · exact ⟨b, ih, by simp [IsFinal, hw]⟩
      · exact h1
    · omega

theorem ClosureShape.truthful (u : ClosureShape f h top new) (hf : f.WF) (tf : f.Truthful)
    (hp : h.props = Props.closure f.props false) : h.Truthful := by
  have em := u.emb
  have hle := u.le
  have hnew : ∀ s, f.numStates ≤ s → s < h.numStates → new = true ∧ s = f.numStates := by
    intro s h1 h2
    rw [u.num] at h2
    split at h2
    · rename_i hn; exact ⟨hn, by omega⟩
    · omega
  -- the start of the closure reaches the start of `f`
  have hst : ∀ i, f.start = some i → ∃ k, h.start = some k ∧ h.Reach k i := by
    intro i hi
    rw [u.start]
    cases hn : new with
    | false => exact ⟨i, by simp [hi], .refl⟩
    | true =>
      refine ⟨f.numStates, by simp, .single ⟨epsTr 1 i, ?_, rfl⟩⟩
      rw [u.trs_top _ (Nat.le_refl _), u.top_eq]
      simp [hn, hi]
  have hback : ∀ q w i, f.finOf q = some w → f.start = some i → epsTr w i ∈ h.trsOf q := by
    intro q w i hw hi
    rw [u.trs q (lt_of_finOf hw)]
    simp [hw, hi]
  intro bb hb
  rw [hp] at hb
  have cs : (f.props bb = true ∧ (bb = .acceptor ∨ bb = .unweighted ∨ bb = .accessible ∨ bb = .coaccessible ∨
        bb = .notTopSorted ∨ bb = .notString ∨ bb = .weighted ∨ existential bb = true ∨ bb = .notAccessible ∨
        bb = .notCoaccessible)) ∨
      (f.props .unweighted = true ∧ bb = .unweightedCycles) ∨
      (f.props .weighted = true ∧ f.props .accessible = true ∧ f.props .coaccessible = true ∧ bb = .weightedCycles) := by
    simp only [Props.closure, Bool.not_false, Bool.true_or, Bool.true_and] at hb
    cases bb <;> simp [Props.keep, Props.orIf_apply, Props.or_apply, Props.and_apply, Props.of_apply,
      Props.setIf_apply, Props.has_apply] at hb <;> simp_all [existential]
    tauto
  clear hb
  have huw : f.Unweighted → h.Unweighted := by
    intro hu
    constructor
    · intro s t ht
      rcases u.mem ht with ⟨_, ht⟩ | ⟨_, w, i, hw, _, rfl⟩ | ⟨_, _, i, _, rfl⟩
      · exact hu.1 s t ht
      · exact hu.2 s w hw
      · exact Or.inr rfl
    · intro s w hw
      by_cases hs : s < f.numStates
      · rw [u.fin s hs] at hw; exact hu.2 s w hw
      · rw [u.fin_top s (by omega)] at hw
        split at hw
        · cases hw; exact Or.inr rfl
        · simp at hw
  rcases cs with ⟨h1, rfl | rfl | rfl | rfl | rfl | rfl | rfl | h2 | rfl | rfl⟩ | ⟨h1, rfl⟩ | ⟨h1, h2, h3, rfl⟩
  · intro s t ht
    rcases u.mem ht with ⟨_, ht⟩ | ⟨_, w, i, hw, _, rfl⟩ | ⟨_, _, i, _, rfl⟩
    · exact tf _ h1 s t ht
    · rfl
    · rfl
  · exact huw (tf _ h1)
  · intro s hs
    by_cases hsl : s < f.numStates
    · obtain ⟨i, hi, hr⟩ := tf _ h1 s hsl
      obtain ⟨k, hk, hki⟩ := hst i hi
      exact ⟨k, hk, hki.trans (em.reach hr)⟩
    · obtain ⟨hn, rfl⟩ := hnew s (by omega) hs
      exact ⟨f.numStates, by simp [u.start, hn], .refl⟩
  · intro s hs
    by_cases hsl : s < f.numStates
    · obtain ⟨q, hr, hq⟩ := tf _ h1 s hsl
      obtain ⟨w, hw⟩ := Option.isSome_iff_exists.1 hq
      exact ⟨q, em.reach hr, by rw [IsFinal, u.fin q (lt_of_finOf hw)]; exact hq⟩
    · obtain ⟨hn, rfl⟩ := hnew s (by omega) hs
      exact ⟨f.numStates, .refl, by simp [IsFinal, u.fin_top, hn]⟩
  · exact em.notTopSorted (fun _ _ h => h) (tf _ h1)
  · -- a linear closure
    intro hl
    refine tf _ h1 ?_
    intro hpos
    obtain ⟨h0, hlin⟩ := hl (by omega)
    rw [u.start] at h0
    cases hn : new with
    | true => rw [hn] at h0; simp at h0; omega
    | false =>
      rw [hn] at h0
      simp at h0
      have hnum : h.numStates = f.numStates := by rw [u.num, hn]; simp
      exfalso
      have := hlin (f.numStates - 1) (by omega)
      rw [if_pos (by omega), IsFinal, u.fin _ (by omega), u.trs _ (by omega)] at this
      obtain ⟨w, hw⟩ := Option.isSome_iff_exists.1 this.1
      simp [hw, h0] at this
  · intro hc
    rcases unweighted_or (tf _ h1) with ⟨s, t, ht, hn⟩ | ⟨s, w, hw, hn⟩
    · exact hn (hc.1 _ _ (em.mem ht))
    · exact hn (hc.2 s w (by rw [u.fin s (lt_of_finOf hw)]; exact hw))
  · exact em.holds bb h2 (tf bb h1)
  · intro hc
    refine tf _ h1 fun s hs => ?_
    obtain ⟨k, hk, hr⟩ := hc s (by omega)
    rw [u.start] at hk
    cases hn : new with
    | false =>
      rw [hn] at hk
      simp at hk
      refine ⟨k, hk, ?_⟩
      rcases (u.reach hf (hf.start_lt k hk) hr).2 with h2 | ⟨_, i, hi, h2⟩
      · exact h2
      · rw [hk] at hi; cases hi; exact h2
    | true =>
      rw [hn] at hk
      simp at hk
      subst hk
      rcases Relation.ReflTransGen.cases_head hr with e | ⟨b, ⟨t, ht, rfl⟩, hb⟩
      · omega
      · rcases u.mem ht with ⟨h2, _⟩ | ⟨h2, _⟩ | ⟨_, _, i, hi, rfl⟩
        · omega
        · omega
        · refine ⟨i, hi, ?_⟩
          rcases (u.reach hf (hf.start_lt i hi) hb).2 with h2 | ⟨_, k, hk, h2⟩
          · exact h2
          · rw [hi] at hk; cases hk; exact h2
  · intro hc
    refine tf _ h1 fun s hs => ?_
    obtain ⟨q, hr, hq⟩ := hc s (by omega)
    obtain ⟨hql, h2⟩ := u.reach hf hs hr
    rcases h2 with h2 | ⟨h2, _⟩
    · exact ⟨q, h2, by rw [IsFinal, ← u.fin q hql]; exact hq⟩
    · exact h2
  · rintro ⟨s, t, ht, hn, _⟩
    exact hn ((huw (tf _ h1)).1 s t ht)
  · -- in a trim FST every transition ends up on a cycle
    have loop : ∀ s q, s < f.numStates → q < f.numStates → h.Reach q s := by
      intro s q hs hq
      obtain ⟨i, hi, hr⟩ := tf _ h2 s hs
      obtain ⟨c, hqc, hc⟩ := tf _ h3 q hq
      obtain ⟨w, hw⟩ := Option.isSome_iff_exists.1 hc
      exact (em.reach hqc).trans (Relation.ReflTransGen.head ⟨_, hback c w i hw hi, rfl⟩ (em.reach hr))
    rcases unweighted_or (tf _ h1) with ⟨s, t, ht, hn⟩ | ⟨s, w, hw, hn⟩
    · exact ⟨s, t, em.mem ht, hn, loop s _ (lt_of_mem_trsOf ht) (hf.next_lt _ _ ht)⟩
    · obtain ⟨i, hi, hr⟩ := tf _ h2 s (lt_of_finOf hw)
      exact ⟨s, _, hback s w i hw hi, hn, em.reach hr⟩

end Fst

/-- C51 for `closure`: the flags of the result are true of it. -/
theorem C16_flags (f : Fst W) (ty : ClosureType) (hf : f.WF) (tf : f.Truthful) : (f.closure ty).Truthful :=
  (closure_shape f ty).truthful hf tf (Fst.setPropsMask_all _ _)

/-- The closure is well-formed. -/
theorem C16_wf (f : Fst W) (ty : ClosureType) (hf : f.WF) : (f.closure ty).WF := (closure_shape f ty).wf hf

end Verif
