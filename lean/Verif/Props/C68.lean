import Verif.Lemmas.LookRelabel
import Verif.Props.C59
import Verif.Lemmas.SortEval
import Verif.Lemmas.Reach

/-!
# C68: composing with look-ahead gives the composition
-/

namespace Verif
universe u
open LabelReachable LabelReachableData

section
variable {W : Type u} [CommMonoidWithZero W] [Add W] [DecidableEq W] {A B : Fst W} {smt : SMatch} {m1 m2 : LaMatcher} {c : LaCfg}

/-- The matchers that do not use tables. -/
def LaMatcher.Plain (m : LaMatcher) : Prop := m = .trivial ∨ ∃ fl, m = .tr fl

theorem laBuild_plain (hb : laBuild smt A B m1 m2 = .ok c) (h1 : m1.Plain) (h2 : m2.Plain) : c.matcher.Plain := by
  have hi : ∀ {m : LaMatcher} {M L : Fst W} {i : Bool} {m'}, m.Plain → m.init M i L = .ok m' → m'.Plain := by
    rintro m M L i m' (rfl | ⟨fl, rfl⟩) h <;> simp only [LaMatcher.init, Except.ok.injEq] at h <;> subst h
    · exact .inl rfl
    · exact .inr ⟨_, rfl⟩
  unfold laBuild at hb
  split at hb
  · cases hb
  · cases hb
  · split at hb
    · cases hb
    · next h => injection hb with hb; subst hb; exact hi h1 h
  · split at hb
    · cases hb
    · next h => injection hb with hb; subst hb; exact hi h2 h

/-- A `TrLookAheadMatcher` that looks ahead has an FST flagged as sorted. -/
def Flagged (c : LaCfg) (A B : Fst W) : Prop := (∃ fl, c.matcher = .tr fl) → if c.out then A.props .oLabelSorted = true else B.props .iLabelSorted = true

theorem plain_look (h : Operands A B) (hp : c.matcher.Plain) (hf : Flagged c A B) {s1 s2 : StateId} (h1 : s1 < A.numStates) (h2 : s2 < B.numStates) :
    ∃ r, c.look A B s1 s2 = .ok r ∧ (r = none → NoJoin A B s1 s2) ∧ ∀ G, GoodW G → GoodFst G A → GoodFst G B → ∀ d, r = some d → G d.weight := by
  have hdef : ∀ G : W → Prop, GoodW G → GoodFst G A → GoodFst G B → ∀ d, some (LaData.default : LaData W) = some d → G d.weight := by
    intro G hG _ _ d e
    rw [Option.some.injEq] at e
    subst e; exact hG.one
  rcases hp with e | ⟨fl, e⟩
  · refine ⟨some .default, ?_, fun e => (by cases e), hdef⟩
    cases ho : c.out <;> simp [LaCfg.look, ho, e, LaMatcher.look]
  · have hfl := hf ⟨fl, e⟩
    cases ho : c.out with
    | true =>
      rw [ho, if_pos rfl] at hfl
      have hM : Searchable A false := ⟨hfl, h.true1 hfl⟩
      obtain ⟨r, hr, -, hG⟩ := trLook_spec (fl := fl) (L := B) hM h1 h2
      have el : c.look A B s1 s2 = trLook fl A false s1 B s2 := by simp [LaCfg.look, ho, e, LaMatcher.look]
      exact ⟨r, by rw [el, hr], fun e' => trLook_join_out hM h.noLabel2 h1 h2 (by rw [hr, e']), hG⟩
    | false =>
      rw [ho] at hfl
      have hfl : B.props .iLabelSorted = true := by simpa using hfl
      have hM : Searchable B true := ⟨hfl, h.true2 hfl⟩
      obtain ⟨r, hr, -, hG⟩ := trLook_spec (fl := fl) (L := A) hM h2 h1
      have el : c.look A B s1 s2 = trLook fl B true s2 A s1 := by simp [LaCfg.look, ho, e, LaMatcher.look]
      exact ⟨r, by rw [el, hr], fun e' => trLook_join_in hM h.noLabel1 h1 h2 (by rw [hr, e']), fun G g1 g2 g3 => hG G g1 g3 g2⟩

/-- C68, `LookAheadComposeFilter` over `TrivialLookAheadMatcher` or `TrLookAheadMatcher`, with any flags and on either side: the composition ends
without error, and what the filter cuts off is on no accepting path, so that the result is the relational composition. The `TrLookAheadMatcher` that is used must
search in an FST flagged as sorted. -/
theorem C68_lookahead (h : Operands A B) (hb : laBuild smt A B m1 m2 = .ok c) (h1 : m1.Plain) (h2 : m2.Plain) (hf : Flagged c A B)
    (F : ComposeFilter Nat W) (hF : F = seqFilter ∨ F = altFilter ∨ F = matchFilter) :
    ∃ C, EndsWith (composeLook (lookFilter c A B F) A B) (.ok C) ∧ C.WF ∧ C.AllCounters ∧ IsComposition A B C := by
  obtain ⟨mt, hm, hc⟩ := h.composable
  have hj := hc.toJoinable
  have hp := laBuild_plain hb h1 h2
  have hT : LookTotal c A B := fun s1 s2 l1 l2 => by
    obtain ⟨r, hr, -⟩ := plain_look h hp hf l1 l2
    exact ⟨r, hr⟩
  have hN : ∀ s1 s2, s1 < A.numStates → s2 < B.numStates → c.look A B s1 s2 = .ok none → NoJoin A B s1 s2 := fun s1 s2 l1 l2 e => by
    obtain ⟨r, hr, hn, -⟩ := plain_look h hp hf l1 l2
    rw [e] at hr
    injection hr with hr
    exact hn hr.symm
  rcases hF with rfl | rfl | rfl
  · have L := seqFilter_law hj h.counters1
    exact (lookFilter_follows hj L hT (LookCuts.of_noJoin hj L hN)).static hc L (CTup.ok_finite (Set.finite_Iic 1)) hm
  · have L := altFilter_law hj h.counters2
    exact (lookFilter_follows hj L hT (LookCuts.of_noJoin hj L hN)).static hc L (CTup.ok_finite (Set.finite_Iic 1)) hm
  · have L := matchFilter_law hj h.counters1 h.counters2
    exact (lookFilter_follows hj L hT (LookCuts.of_noJoin hj L hN)).static hc L (CTup.ok_finite (Set.finite_Iic 2)) hm

end

/-- Weights that can be pushed: closed under the operations, one can divide by them, and `quantize` leaves them alone. -/
structure PushWeights {W : Type} [CommMonoidWithZero W] [Add W] (div quant : W → W → R W) (delta : W) (G : W → Prop) : Prop where
  good : GoodW G
  push : ∀ w, G w → Pushable div quant delta w

section
variable {W : Type} [CommMonoidWithZero W] [Add W] [DecidableEq W] {A B : Fst W} {smt : SMatch} {m1 m2 : LaMatcher} {c : LaCfg}

/-- C68, `PushWeightsComposeFilter` over the same: moving the weights found ahead to the front does not change the weights of the paths. -/
theorem C68_push_weights (h : Operands A B) (hb : laBuild smt A B m1 m2 = .ok c) (h1 : m1.Plain) (h2 : m2.Plain) (hf : Flagged c A B)
    {div quant : W → W → R W} {delta : W} {G : W → Prop} (hG : PushWeights div quant delta G) (hA : GoodFst G A) (hB : GoodFst G B)
    (F : ComposeFilter Nat W) (hF : F = seqFilter ∨ F = altFilter ∨ F = matchFilter) :
    ∃ C, EndsWith (composeLook (pushFilter div quant delta c A B F) A B) (.ok C) ∧ C.WF ∧ C.AllCounters ∧ IsComposition A B C := by
  obtain ⟨mt, hm, hc⟩ := h.composable
  have hj := hc.toJoinable
  have hp := laBuild_plain hb h1 h2
  have hT : LookTotal c A B := fun s1 s2 l1 l2 => by
    obtain ⟨r, hr, -⟩ := plain_look h hp hf l1 l2
    exact ⟨r, hr⟩
  have hN : ∀ s1 s2, s1 < A.numStates → s2 < B.numStates → c.look A B s1 s2 = .ok none → NoJoin A B s1 s2 := fun s1 s2 l1 l2 e => by
    obtain ⟨r, hr, hn, -⟩ := plain_look h hp hf l1 l2
    rw [e] at hr
    injection hr with hr
    exact hn hr.symm
  have hW : c.flags.weight = true → ∀ s1 s2 d, s1 < A.numStates → s2 < B.numStates → c.look A B s1 s2 = .ok (some d) → Pushable div quant delta d.weight := by
    intro _ s1 s2 d l1 l2 e
    obtain ⟨r, hr, -, hg⟩ := plain_look h hp hf l1 l2
    rw [e] at hr
    injection hr with hr
    exact hG.push _ (hg G hG.good hA hB d hr.symm)
  have hO := hG.push _ hG.good.one
  rcases hF with rfl | rfl | rfl
  · have L := seqFilter_law hj h.counters1
    exact (pushFilter_follows hj L hT (LookCuts.of_noJoin hj L hN) hO hW).static hc L (pushed_finite c (Set.finite_Iic 1)) hm
  · have L := altFilter_law hj h.counters2
    exact (pushFilter_follows hj L hT (LookCuts.of_noJoin hj L hN) hO hW).static hc L (pushed_finite c (Set.finite_Iic 1)) hm
  · have L := matchFilter_law hj h.counters1 h.counters2
    exact (pushFilter_follows hj L hT (LookCuts.of_noJoin hj L hN) hO hW).static hc L (pushed_finite c (Set.finite_Iic 2)) hm

end

/-! ### Label look-ahead -/

section
variable {W : Type u} [CommMonoidWithZero W] [Add W] [DecidableEq W] {f g f' g' : Fst W} {D : LabelReachableData} {num : Label → Label}

theorem Relabelled.operands_out (h : Relabelled false f g f' g' D num) (hw1 : f.WF) (hw2 : g.WF) : Operands f' g' :=
  ⟨h.fst1.wf hw1, h.fst2.wf hw2, h.counters1, h.counters2, h.noLabel1, h.noLabel2, fun e => h.true1 _ e, fun e => h.true2 _ e, .inl h.flag1⟩

theorem Relabelled.operands_in (h : Relabelled true f g f' g' D num) (hw1 : f.WF) (hw2 : g.WF) : Operands g' f' :=
  ⟨h.fst2.wf hw2, h.fst1.wf hw1, h.counters2, h.counters1, h.noLabel2, h.noLabel1, fun e => h.true2 _ e, fun e => h.true1 _ e, .inl h.flag2⟩

theorem labelLook_good {M L f : Fst W} {side : Bool} (hT : Tabled M side f D) (hL : LookedAt L (!side)) {fl : LaFlags} (h0 : ∀ a : W, 0 + a = a) {G : W → Prop}
    (hG : GoodW G) (hg : GoodFst G L) (hw : fl.weight = true) {s ls : StateId} (hs : s < M.numStates) (hls : ls < L.numStates) {d : LaData W}
    (e : labelLook fl (some (D, !side)) s L ls = .ok (some d)) : G d.weight := by
  obtain ⟨r, hr, -, h⟩ := labelLook_spec hT hL fl hs hls
  rw [e] at hr
  injection hr with hr
  exact h G hG.one hG.add h0 (hg.1 ls) (fun w => hg.2 ls w) hw d hr.symm

/-- A matcher for the output of the first FST. -/
theorem labelBuild_out (h : Relabelled false f g f' g' D num) {fl : LaFlags} {smt : SMatch} (hs : smt = .output ∨ smt = .both) (m2 : LaMatcher) :
    laBuild smt f' g' (.label fl (some (D, false))) m2 = .ok ⟨true, .label fl (some (D, true)), { fl with outputLa := true }⟩ := by
  have e1 : sortedMatchType f' false false = .ok .yes := by
    have := h.flag1
    simp only [Bool.false_eq_true, if_false] at this
    simp [sortedMatchType, this]
  have e2 : ∃ x, sortedMatchType g' true false = .ok x := by
    have := h.flag2
    simp only [Bool.false_eq_true, if_false] at this
    simp [sortedMatchType, this]
  have efl : (LaMatcher.label fl (some (D, false))).flags = { fl with outputLa := true } := by simp [LaMatcher.flags, h.reachSide]
  have ei : (LaMatcher.label fl (some (D, false))).init f' false g' = .ok (.label fl (some (D, true))) := by
    have := h.init
    rw [Bool.not_false] at this
    simp [LaMatcher.init, e1, this]
  obtain ⟨x, e2⟩ := e2
  have : (if smt = .both then lookaheadMatchType f' g' (.label fl (some (D, false))) m2 else .ok smt) = .ok .output := by
    rcases hs with rfl | rfl
    · rfl
    · simp [lookaheadMatchType, e1, e2, efl]
  simp only [laBuild, this, ei, efl]

/-- A matcher for the input of the second FST. -/
theorem labelBuild_in (h : Relabelled true f g f' g' D num) {fl : LaFlags} {smt : SMatch} {m1 : LaMatcher} (hs : smt = .input ∨ smt = .both ∧ m1.flags.outputLa = false) :
    laBuild smt g' f' m1 (.label fl (some (D, false))) = .ok ⟨false, .label fl (some (D, false)), { fl with inputLa := true }⟩ := by
  have e1 : sortedMatchType f' true false = .ok .yes := by
    have := h.flag1
    simp only [if_true] at this
    simp [sortedMatchType, this]
  have e2 : ∃ x, sortedMatchType g' false false = .ok x := by
    have := h.flag2
    simp only [if_true] at this
    simp [sortedMatchType, this]
  have efl : (LaMatcher.label fl (some (D, false))).flags = { fl with inputLa := true } := by simp [LaMatcher.flags, h.reachSide]
  have ei : (LaMatcher.label fl (some (D, false))).init f' true g' = .ok (.label fl (some (D, false))) := by
    have := h.init
    rw [Bool.not_true] at this
    simp [LaMatcher.init, e1, this]
  obtain ⟨x, e2⟩ := e2
  have : (if smt = .both then lookaheadMatchType g' f' m1 (.label fl (some (D, false))) else .ok smt) = .ok .input := by
    rcases hs with rfl | ⟨rfl, hs⟩
    · rfl
    · simp [lookaheadMatchType, e1, e2, efl, hs]
  simp only [laBuild, this, ei, efl]

theorem out_look (h : Relabelled false f g f' g' D num) (fl fl' : LaFlags) :
    LookTotal ⟨true, .label fl (some (D, true)), fl'⟩ f' g' ∧
    ∀ s1 s2, s1 < f'.numStates → s2 < g'.numStates → (⟨true, .label fl (some (D, true)), fl'⟩ : LaCfg).look f' g' s1 s2 = .ok none →
      ∀ n m, nonzero (joinPaths (f'.pathsFrom n s1) (pathsC Tr.ilabel g' false m s2)) = 0 := by
  have hL := h.lookedAt
  refine ⟨fun s1 s2 l1 l2 => ?_, fun s1 s2 l1 l2 e => labelLook_join_out (fl := fl) h.tabled hL l1 l2 e⟩
  obtain ⟨r, hr, -⟩ := labelLook_spec h.tabled hL fl l1 l2
  exact ⟨r, hr⟩

theorem in_look (h : Relabelled true f g f' g' D num) (fl fl' : LaFlags) :
    LookTotal ⟨false, .label fl (some (D, false)), fl'⟩ g' f' ∧
    ∀ s1 s2, s1 < g'.numStates → s2 < f'.numStates → (⟨false, .label fl (some (D, false)), fl'⟩ : LaCfg).look g' f' s1 s2 = .ok none →
      ∀ n m, nonzero (joinPaths (pathsC Tr.olabel g' false n s1) (f'.pathsFrom m s2)) = 0 := by
  have hL := h.lookedAt
  refine ⟨fun s1 s2 l1 l2 => ?_, fun s1 s2 l1 l2 e => labelLook_join_in (fl := fl) h.tabled hL l1 l2 e⟩
  obtain ⟨r, hr, -⟩ := labelLook_spec h.tabled hL fl l2 l1
  exact ⟨r, hr⟩

/-- C68, label look-ahead on the output of the first FST: `MatcherFst::new_with_relabeling` for a matcher type with the flags of `OLABEL_LOOKAHEAD_FLAGS` succeeds and
relabels both FSTs; the look-ahead filter over `AltSequenceComposeFilter` on what it returns computes the composition of the two FSTs as they were before. -/
theorem C68_label_output (h : LookOperands false f g) (hz : ∀ x y, f.finOf x = some 0 → f.Silent false x y → f.Silent false y x → x = y)
    (fl : LaFlags) (hi : fl.inputLa = false) (ho : fl.outputLa = true) (hne : fl.nonEpsilons = false) :
    ∃ m, matcherFstNew fl f g true = .ok m ∧
      (∀ smt m2, smt = .output ∨ smt = .both → ∃ m1 c, laLabelNew fl m.fst false m.odata = .ok m1 ∧ laBuild smt m.fst m.other m1 m2 = .ok c ∧
          ∃ C, EndsWith (composeLook (lookFilter c m.fst m.other altFilter) m.fst m.other) (.ok C) ∧ C.WF ∧ C.AllCounters ∧ IsComposition f g C) := by
  obtain ⟨m, hm⟩ := matcherFst_ok (side := false) h hi ho hz
  refine ⟨m, hm, fun smt m2 hs => ?_⟩
  obtain ⟨D, num, hD, hr⟩ := matcherFst_out h hi ho hm
  refine ⟨.label fl (some (D, false)), _, ?_, labelBuild_out hr hs m2, ?_⟩
  · rw [hD]; simp [laLabelNew, ho, hr.reachSide]
  have hop := hr.operands_out h.wf1 h.wf2
  obtain ⟨mt, hmt, hc⟩ := hop.composable
  have hj := hc.toJoinable
  have L := altFilter_law hj hop.counters2
  obtain ⟨hT, hN⟩ := out_look hr fl { fl with outputLa := true }
  obtain ⟨C, c1, c2, c3, c4⟩ := (lookFilter_follows hj L hT (LookCuts.of_alt hj hop.counters2 rfl hne hN)).static hc L (CTup.ok_finite (Set.finite_Iic 1)) hmt
  exact ⟨C, c1, c2, c3, hr.fst1.composition hr.fst2 (fun s a ha s' b hb e => (hr.inj s a ha s' b hb e.symm).symm) c4⟩

/-- C68, label look-ahead on the input of the second FST, `f`, with the flags of `ILABEL_LOOKAHEAD_FLAGS`, over `SequenceComposeFilter`. -/
theorem C68_label_input (h : LookOperands true f g) (hz : ∀ x y, f.finOf x = some 0 → f.Silent true x y → f.Silent true y x → x = y)
    (fl : LaFlags) (hi : fl.inputLa = true) (ho : fl.outputLa = false) (hne : fl.nonEpsilons = false) :
    ∃ m, matcherFstNew fl f g false = .ok m ∧
      (∀ smt m1, (smt = .input ∨ smt = .both ∧ m1.flags.outputLa = false) → ∃ m2 c, laLabelNew fl m.fst true m.idata = .ok m2 ∧ laBuild smt m.other m.fst m1 m2 = .ok c ∧
          ∃ C, EndsWith (composeLook (lookFilter c m.other m.fst seqFilter) m.other m.fst) (.ok C) ∧ C.WF ∧ C.AllCounters ∧ IsComposition g f C) := by
  obtain ⟨m, hm⟩ := matcherFst_ok (side := true) h hi ho hz
  refine ⟨m, hm, fun smt m1 hs => ?_⟩
  obtain ⟨D, num, hD, hr⟩ := matcherFst_in h hi ho hm
  refine ⟨.label fl (some (D, false)), _, ?_, labelBuild_in hr hs, ?_⟩
  · rw [hD]; simp [laLabelNew, hi, hr.reachSide]
  have hop := hr.operands_in h.wf1 h.wf2
  obtain ⟨mt, hmt, hc⟩ := hop.composable
  have hj := hc.toJoinable
  have L := seqFilter_law hj hop.counters1
  obtain ⟨hT, hN⟩ := in_look hr fl { fl with inputLa := true }
  obtain ⟨C, c1, c2, c3, c4⟩ := (lookFilter_follows hj L hT (LookCuts.of_seq hj hop.counters1 rfl hne hN)).static hc L (CTup.ok_finite (Set.finite_Iic 1)) hmt
  exact ⟨C, c1, c2, c3, hr.fst2.composition hr.fst1 (fun s a ha s' b hb e => hr.inj s' b hb s a ha e) c4⟩

end

section
variable {W : Type} [CommMonoidWithZero W] [Add W] [DecidableEq W] {f g : Fst W}

theorem Renumbered.good {side : Bool} {num : Label → Label} {f f' : Fst W} (h : Renumbered side num f f') {G : W → Prop} (hg : GoodFst G f) : GoodFst G f' := by
  refine ⟨fun s t ht => ?_, fun s w hw => hg.2 s w (h.fin s ▸ hw)⟩
  obtain ⟨t', ht', -, -, e⟩ := h.mem ht
  rw [e]; exact hg.1 s t' ht'

/-- C68, label look-ahead with pushed weights: as `C68_label_output`, with `PushWeightsComposeFilter` around the look-ahead filter, if the weights of the second FST can be pushed. -/
theorem C68_label_push_output (h : LookOperands false f g) (hz : ∀ x y, f.finOf x = some 0 → f.Silent false x y → f.Silent false y x → x = y)
    (fl : LaFlags) (hi : fl.inputLa = false) (ho : fl.outputLa = true) (hne : fl.nonEpsilons = false) (h0 : ∀ a : W, 0 + a = a)
    {div quant : W → W → R W} {delta : W} {G : W → Prop} (hG : PushWeights div quant delta G) (hg : GoodFst G g) :
    ∃ m, matcherFstNew fl f g true = .ok m ∧
      (∀ smt m2, smt = .output ∨ smt = .both → ∃ m1 c, laLabelNew fl m.fst false m.odata = .ok m1 ∧ laBuild smt m.fst m.other m1 m2 = .ok c ∧
          ∃ C, EndsWith (composeLook (pushFilter div quant delta c m.fst m.other altFilter) m.fst m.other) (.ok C) ∧ C.WF ∧ C.AllCounters ∧ IsComposition f g C) := by
  obtain ⟨m, hm⟩ := matcherFst_ok (side := false) h hi ho hz
  refine ⟨m, hm, fun smt m2 hs => ?_⟩
  obtain ⟨D, num, hD, hr⟩ := matcherFst_out h hi ho hm
  refine ⟨.label fl (some (D, false)), _, ?_, labelBuild_out hr hs m2, ?_⟩
  · rw [hD]; simp [laLabelNew, ho, hr.reachSide]
  have hop := hr.operands_out h.wf1 h.wf2
  obtain ⟨mt, hmt, hc⟩ := hop.composable
  have hj := hc.toJoinable
  have L := altFilter_law hj hop.counters2
  obtain ⟨hT, hN⟩ := out_look hr fl { fl with outputLa := true }
  obtain ⟨C, c1, c2, c3, c4⟩ := (pushFilter_follows hj L hT (LookCuts.of_alt hj hop.counters2 rfl hne hN) (hG.push _ hG.good.one) (fun hw s1 s2 d l1 l2 e =>
    hG.push _ (labelLook_good hr.tabled hr.lookedAt h0 hG.good (hr.fst2.good hg) hw l1 l2 e))).static hc L (pushed_finite _ (Set.finite_Iic 1)) hmt
  exact ⟨C, c1, c2, c3, hr.fst1.composition hr.fst2 (fun s a ha s' b hb e => (hr.inj s a ha s' b hb e.symm).symm) c4⟩

/-- The same on the input of the second FST. -/
theorem C68_label_push_input (h : LookOperands true f g) (hz : ∀ x y, f.finOf x = some 0 → f.Silent true x y → f.Silent true y x → x = y)
    (fl : LaFlags) (hi : fl.inputLa = true) (ho : fl.outputLa = false) (hne : fl.nonEpsilons = false) (h0 : ∀ a : W, 0 + a = a)
    {div quant : W → W → R W} {delta : W} {G : W → Prop} (hG : PushWeights div quant delta G) (hg : GoodFst G g) :
    ∃ m, matcherFstNew fl f g false = .ok m ∧
      (∀ smt m1, (smt = .input ∨ smt = .both ∧ m1.flags.outputLa = false) → ∃ m2 c, laLabelNew fl m.fst true m.idata = .ok m2 ∧ laBuild smt m.other m.fst m1 m2 = .ok c ∧
          ∃ C, EndsWith (composeLook (pushFilter div quant delta c m.other m.fst seqFilter) m.other m.fst) (.ok C) ∧ C.WF ∧ C.AllCounters ∧ IsComposition g f C) := by
  obtain ⟨m, hm⟩ := matcherFst_ok (side := true) h hi ho hz
  refine ⟨m, hm, fun smt m1 hs => ?_⟩
  obtain ⟨D, num, hD, hr⟩ := matcherFst_in h hi ho hm
  refine ⟨.label fl (some (D, false)), _, ?_, labelBuild_in hr hs, ?_⟩
  · rw [hD]; simp [laLabelNew, hi, hr.reachSide]
  have hop := hr.operands_in h.wf1 h.wf2
  obtain ⟨mt, hmt, hc⟩ := hop.composable
  have hj := hc.toJoinable
  have L := seqFilter_law hj hop.counters1
  obtain ⟨hT, hN⟩ := in_look hr fl { fl with inputLa := true }
  obtain ⟨C, c1, c2, c3, c4⟩ := (pushFilter_follows hj L hT (LookCuts.of_seq hj hop.counters1 rfl hne hN) (hG.push _ hG.good.one) (fun hw s1 s2 d l1 l2 e =>
    hG.push _ (labelLook_good hr.tabled hr.lookedAt h0 hG.good (hr.fst2.good hg) hw l2 l1 e))).static hc L (pushed_finite _ (Set.finite_Iic 1)) hmt
  exact ⟨C, c1, c2, c3, hr.fst2.composition hr.fst1 (fun s a ha s' b hb e => hr.inj s' b hb s a ha e) c4⟩

end

/-! ### Tropical weights -/

/-- Finite multiples of `delta` can be pushed. -/
theorem tropical_push {K : Type} [Field K] [LinearOrder K] [IsStrictOrderedRing K] [FloorRing K] {delta : K} (hd : delta ≠ 0) (w : TW K) :
    PushWeights TW.divE (fun v _ => .ok (TW.quantize delta v)) w (FinIn (AddSubgroup.zmultiples delta)) where
  good := ⟨⟨0, AddSubgroup.zero_mem _, rfl⟩, by
      rintro _ _ ⟨x, hx, rfl⟩ ⟨y, hy, rfl⟩
      show FinIn _ (TW.plus _ _)
      rw [TW.plus_fin]
      rcases min_choice x y with h | h
      · rw [h]; exact ⟨x, hx, rfl⟩
      · rw [h]; exact ⟨y, hy, rfl⟩, by
      rintro _ _ ⟨x, hx, rfl⟩ ⟨y, hy, rfl⟩
      exact ⟨x + y, AddSubgroup.add_mem _ hx hy, rfl⟩⟩
  push := by
    rintro _ ⟨x, hx, rfl⟩
    refine ⟨fun h => (by cases h), by simp only [TW.quantize, quantize_multiple hd x hx], fun a => ?_⟩
    cases a with
    | fin y =>
      refine ⟨.fin (y - x), rfl, ?_⟩
      show TW.times (.fin x) (.fin (y - x)) = .fin y
      simp [TW.times]
    | inf => exact ⟨.inf, rfl, rfl⟩
    | negInf => exact ⟨.negInf, rfl, rfl⟩

/-! ### Concrete cases -/

/-- All flags of a `TrLookAheadMatcher`. -/
def exTrFlags : LaFlags := ⟨true, true, true, true, true, true, true⟩

/-- Two ways to read `1`, of which one ends in a state that can only go on with `6`. -/
def exLaFirst : Fst Nat := ⟨[⟨none, [⟨1, 0, 2, 1⟩, ⟨1, 0, 3, 2⟩], 0, 2⟩, ⟨none, [⟨2, 5, 1, 3⟩], 0, 0⟩, ⟨none, [⟨2, 6, 1, 3⟩], 0, 0⟩, ⟨some 1, [], 0, 0⟩], some 0,
  Props.of [.oLabelSorted]⟩

/-- Reads `6`. -/
def exLaSecond : Fst Nat := ⟨[⟨none, [⟨6, 9, 5, 1⟩], 0, 0⟩, ⟨some 1, [], 0, 0⟩], some 0, Props.of [.iLabelSorted]⟩

theorem exLaOperands : Operands exLaFirst exLaSecond := by
  have b1 : ∀ s, s < 4 → ∀ t ∈ exLaFirst.trsOf s, t.olabel ≠ NO_LABEL := by decide
  have b2 : ∀ s, s < 2 → ∀ t ∈ exLaSecond.trsOf s, t.ilabel ≠ NO_LABEL := by decide
  have c1 : ∀ s, s < 4 → ((exLaFirst.trsOf s).map (·.olabel)).Pairwise (· ≤ ·) := by decide
  have c2 : ∀ s, s < 2 → ((exLaSecond.trsOf s).map (·.ilabel)).Pairwise (· ≤ ·) := by decide
  refine ⟨Fst.wf_of_wfB (by decide), Fst.wf_of_wfB (by decide), ?_, ?_, fun s t ht => b1 s (Fst.lt_of_mem_trsOf ht) t ht, fun s t ht => b2 s (Fst.lt_of_mem_trsOf ht) t ht,
    fun _ s => ?_, fun _ s => ?_, .inl rfl⟩
  · intro s st hst
    rcases s with _ | _ | _ | _ | s <;> simp [exLaFirst] at hst <;> subst hst <;> exact ⟨rfl, rfl⟩
  · intro s st hst
    rcases s with _ | _ | s <;> simp [exLaSecond] at hst <;> subst hst <;> exact ⟨rfl, rfl⟩
  · by_cases h : s < 4
    · exact c1 s h
    · rw [Fst.trsOf_of_ge (show exLaFirst.numStates ≤ s from Nat.le_of_not_lt h)]; exact List.Pairwise.nil
  · by_cases h : s < 2
    · exact c2 s h
    · rw [Fst.trsOf_of_ge (show exLaSecond.numStates ≤ s from Nat.le_of_not_lt h)]; exact List.Pairwise.nil

/-- Looking ahead from the first FST saves the useless state. -/
example : ∃ c, laBuild .both exLaFirst exLaSecond (.tr exTrFlags) .trivial = .ok c ∧
    ((composeLook (lookFilter c exLaFirst exLaSecond seqFilter) exLaFirst exLaSecond 10).map fun r => r.toOption.map fun C => C.numStates) = some (some 3) ∧
    ((composeWith seqFilter false exLaFirst exLaSecond 10).map fun r => r.toOption.map fun C => C.numStates) = some (some 4) ∧
    ∃ C, EndsWith (composeLook (lookFilter c exLaFirst exLaSecond seqFilter) exLaFirst exLaSecond) (.ok C) ∧ C.Accepts [1, 2] [9] 15 := by
  refine ⟨⟨true, .tr exTrFlags, exTrFlags⟩, rfl, by rfl, by rfl, ?_⟩
  obtain ⟨C, h1, -, -, h2⟩ := C68_lookahead (smt := .both) (m1 := .tr exTrFlags) (m2 := .trivial) exLaOperands rfl (.inr ⟨_, rfl⟩) (.inl rfl) (fun _ => by rfl) seqFilter (.inl rfl)
  refine ⟨C, h1, (C39_relation h2 _ _ _ (by decide)).2 ⟨[6], 3, 5, ⟨2, ?_⟩, ⟨1, ?_⟩, rfl⟩⟩
  · decide
  · decide

/-- `OLABEL_LOOKAHEAD_FLAGS` (matchers/mod.rs 47-52). -/
def olabelLookaheadFlags : LaFlags := ⟨false, true, true, true, false, true, true⟩

/-- `ILABEL_LOOKAHEAD_FLAGS` (matchers/mod.rs 41-46). -/
def ilabelLookaheadFlags : LaFlags := ⟨true, false, true, true, false, true, true⟩

theorem exLaLook : LookOperands false exLaFirst exLaSecond := by
  have h := exLaOperands
  have b1 : ∀ s, s < 4 → ∀ t ∈ exLaFirst.trsOf s, t.olabel < NO_LABEL := by decide
  have l1 : ∀ s, s < 4 → ∀ t ∈ exLaFirst.trsOf s, t.olabel ∈ [0, 5, 6] := by decide
  have l2 : ∀ s, s < 2 → ∀ t ∈ exLaSecond.trsOf s, t.ilabel ∈ [0, 5, 6] := by decide
  refine ⟨h.wf1, h.wf2, h.counters1, h.counters2, fun b hb => ?_, fun b hb => ?_, by decide, by decide, fun s t ht => b1 s (Fst.lt_of_mem_trsOf ht) t ht, h.noLabel2,
    [0, 5, 6], by decide, fun s t ht => l1 s (Fst.lt_of_mem_trsOf ht) t ht, fun s t ht => l2 s (Fst.lt_of_mem_trsOf ht) t ht⟩
  · cases b <;> first | exact absurd hb (by decide) | exact h.true1 rfl
  · cases b <;> first | exact absurd hb (by decide) | exact h.true2 rfl

/-- The theorem applies to the two FSTs with the flags the library defines: after relabelling, composition with label look-ahead takes `1 2` to `9`. -/
example : ∃ m m1 c C, matcherFstNew olabelLookaheadFlags exLaFirst exLaSecond true = .ok m ∧ laLabelNew olabelLookaheadFlags m.fst false m.odata = .ok m1 ∧
    laBuild .output m.fst m.other m1 .sorted = .ok c ∧ EndsWith (composeLook (lookFilter c m.fst m.other altFilter) m.fst m.other) (.ok C) ∧ C.Accepts [1, 2] [9] 15 := by
  obtain ⟨m, hm, h⟩ := C68_label_output exLaLook (fun x y h => absurd h (by
    intro h
    have b : ∀ s, s < 4 → exLaFirst.finOf s ≠ some 0 := by decide
    exact b x (Fst.lt_of_finOf h) h)) olabelLookaheadFlags rfl rfl rfl
  obtain ⟨m1, c, e1, e2, C, e3, -, -, e4⟩ := h .output .sorted (.inl rfl)
  refine ⟨m, m1, c, C, hm, e1, e2, e3, (C39_relation e4 _ _ _ (by decide)).2 ⟨[6], 3, 5, ⟨2, ?_⟩, ⟨1, ?_⟩, rfl⟩⟩
  · decide
  · decide

/-- The same on the input side: the FST whose input is looked at is the second operand. -/
def exLaThird : Fst Nat := ⟨[⟨none, [⟨0, 1, 2, 1⟩, ⟨0, 1, 3, 2⟩], 2, 0⟩, ⟨none, [⟨5, 2, 1, 3⟩], 0, 0⟩, ⟨none, [⟨6, 2, 1, 3⟩], 0, 0⟩, ⟨some 1, [], 0, 0⟩], some 0,
  Props.of [.iLabelSorted]⟩

/-- Writes `6`. -/
def exLaFourth : Fst Nat := ⟨[⟨none, [⟨9, 6, 5, 1⟩], 0, 0⟩, ⟨some 1, [], 0, 0⟩], some 0, Props.of [.oLabelSorted]⟩

theorem exLaLookIn : LookOperands true exLaThird exLaFourth := by
  have b1 : ∀ s, s < 4 → ∀ t ∈ exLaThird.trsOf s, t.ilabel < NO_LABEL := by decide
  have b2 : ∀ s, s < 2 → ∀ t ∈ exLaFourth.trsOf s, t.olabel ≠ NO_LABEL := by decide
  have l1 : ∀ s, s < 4 → ∀ t ∈ exLaThird.trsOf s, t.ilabel ∈ [0, 5, 6] := by decide
  have l2 : ∀ s, s < 2 → ∀ t ∈ exLaFourth.trsOf s, t.olabel ∈ [0, 5, 6] := by decide
  have c1 : ∀ s, s < 4 → ((exLaThird.trsOf s).map (·.ilabel)).Pairwise (· ≤ ·) := by decide
  have c2 : ∀ s, s < 2 → ((exLaFourth.trsOf s).map (·.olabel)).Pairwise (· ≤ ·) := by decide
  refine ⟨Fst.wf_of_wfB (by decide), Fst.wf_of_wfB (by decide), ?_, ?_, fun b hb => ?_, fun b hb => ?_, by decide, by decide,
    fun s t ht => b1 s (Fst.lt_of_mem_trsOf ht) t ht, fun s t ht => b2 s (Fst.lt_of_mem_trsOf ht) t ht,
    [0, 5, 6], by decide, fun s t ht => l1 s (Fst.lt_of_mem_trsOf ht) t ht, fun s t ht => l2 s (Fst.lt_of_mem_trsOf ht) t ht⟩
  · intro s st hst
    rcases s with _ | _ | _ | _ | s <;> simp [exLaThird] at hst <;> subst hst <;> exact ⟨rfl, rfl⟩
  · intro s st hst
    rcases s with _ | _ | s <;> simp [exLaFourth] at hst <;> subst hst <;> exact ⟨rfl, rfl⟩
  · cases b <;> first | exact absurd hb (by decide) | skip
    intro s
    by_cases h : s < 4
    · exact c1 s h
    · rw [Fst.trsOf_of_ge (show exLaThird.numStates ≤ s from Nat.le_of_not_lt h)]; exact List.Pairwise.nil
  · cases b <;> first | exact absurd hb (by decide) | skip
    intro s
    by_cases h : s < 2
    · exact c2 s h
    · rw [Fst.trsOf_of_ge (show exLaFourth.numStates ≤ s from Nat.le_of_not_lt h)]; exact List.Pairwise.nil

example : ∃ m m2 c C, matcherFstNew ilabelLookaheadFlags exLaThird exLaFourth false = .ok m ∧ laLabelNew ilabelLookaheadFlags m.fst true m.idata = .ok m2 ∧
    laBuild .input m.other m.fst .sorted m2 = .ok c ∧ EndsWith (composeLook (lookFilter c m.other m.fst seqFilter) m.other m.fst) (.ok C) ∧ C.Accepts [9] [1, 2] 15 := by
  obtain ⟨m, hm, h⟩ := C68_label_input exLaLookIn (fun x y h => absurd h (by
    intro h
    have b : ∀ s, s < 4 → exLaThird.finOf s ≠ some 0 := by decide
    exact b x (Fst.lt_of_finOf h) h)) ilabelLookaheadFlags rfl rfl rfl
  obtain ⟨m2, c, e1, e2, C, e3, -, -, e4⟩ := h .input .sorted (.inl rfl)
  refine ⟨m, m2, c, C, hm, e1, e2, e3, (C39_relation e4 _ _ _ (by decide)).2 ⟨[6], 5, 3, ⟨1, ?_⟩, ⟨2, ?_⟩, rfl⟩⟩
  · decide
  · decide

/-! ### What goes wrong -/

theorem mergeSort_ints (l : List IntInterval) : l.mergeSort (fun a b => !b.lt a) = insSort (fun a b : IntInterval => !b.lt a) l :=
  mergeSort_ins (le := fun a b : IntInterval => !b.lt a) (fun _ _ _ => lt_trans_interval) (fun a b => by simpa using lt_total_interval a b) l

/-- The steps of look-ahead composition with a label matcher on the first FST: with `new_with_relabeling`, or with a matcher made by `LabelLookAheadMatcher::new`
for the FST as it is. The result is the list of states of the composition: whether it is final and how many transitions it has. -/
def labelRun (relabel : Bool) (fl : LaFlags) (F : ComposeFilter Nat Nat) (f g : Fst Nat) (n : Nat) : Option (R (List (Bool × Nat))) :=
  match (if relabel then matcherFstNew fl f g true else .ok ⟨f, none, none, g⟩) with
  | .error e => some (.error e)
  | .ok m =>
    match laLabelNew fl m.fst false m.odata with
    | .error e => some (.error e)
    | .ok m1 =>
      match laBuild .output m.fst m.other m1 .sorted with
      | .error e => some (.error e)
      | .ok c => (composeLook (lookFilter c m.fst m.other F) m.fst m.other n).map fun r => r.map fun C => C.states.map fun st => (st.fin.isSome, st.trs.length)

/-- Reads `1 2`, writes `5` with the second. -/
def exLaA : Fst Nat := ⟨[⟨none, [⟨1, 0, 1, 1⟩], 0, 1⟩, ⟨none, [⟨2, 5, 1, 2⟩], 0, 0⟩, ⟨some 1, [], 0, 0⟩], some 0, Props.of [.oLabelSorted]⟩

/-- Reads `5`. -/
def exLaB : Fst Nat := ⟨[⟨none, [⟨5, 9, 1, 1⟩], 0, 0⟩, ⟨some 1, [], 0, 0⟩], some 0, Props.of [.iLabelSorted]⟩

/-- Reads `5` after writing `7`. -/
def exLaE : Fst Nat := ⟨[⟨none, [⟨0, 7, 1, 1⟩], 1, 0⟩, ⟨none, [⟨5, 9, 1, 2⟩], 0, 0⟩, ⟨some 1, [], 0, 0⟩], some 0, Props.of [.iLabelSorted]⟩

/-- A label look-ahead matcher made with `new` for FSTs that have not been relabelled looks up the labels of the other FST among the numbers of its own table, and the
composition loses its paths; after relabelling it does not. -/
theorem C68_needs_relabeling : exLaA.Accepts [1, 2] [5] 1 ∧ exLaB.Accepts [5] [9] 1 ∧
    (labelRun false olabelLookaheadFlags altFilter exLaA exLaB 10).map (·.toOption) = some (some [(false, 0)]) ∧
    (labelRun true olabelLookaheadFlags altFilter exLaA exLaB 10).map (·.toOption) = some (some [(false, 1), (false, 1), (true, 0)]) := by
  refine ⟨⟨2, by decide⟩, ⟨1, by decide⟩, ?_, ?_⟩
  · unfold labelRun matcherFstNew laLabelNew laCreateData computeData StateReachable.new StateReachable.newCyclic StateReachable.newAcyclic ReachV.visitor
      ReachV.finishState ReachV.finishOwn IntervalSet.normalize relabelFst
    simp only [mergeSort_ints, Fst.trSort_eval]
    decide +kernel
  · unfold labelRun matcherFstNew laLabelNew laCreateData computeData StateReachable.new StateReachable.newCyclic StateReachable.newAcyclic ReachV.visitor
      ReachV.finishState ReachV.finishOwn IntervalSet.normalize relabelFst
    simp only [mergeSort_ints, Fst.trSort_eval]
    decide +kernel

/-- `SequenceComposeFilter` takes the ε-transitions of the first FST before those of the second; the output look-ahead then sees a state of the second FST whose
ε-transition has not been taken, and does not look through it. -/
theorem C68_sequence_output_fails : exLaA.Accepts [1, 2] [5] 1 ∧ exLaE.Accepts [5] [7, 9] 1 ∧
    (labelRun true olabelLookaheadFlags seqFilter exLaA exLaE 10).map (·.toOption) = some (some [(false, 0)]) ∧
    (labelRun true olabelLookaheadFlags altFilter exLaA exLaE 10).map (·.toOption) = some (some [(false, 1), (false, 1), (false, 1), (true, 0)]) := by
  refine ⟨⟨2, by decide⟩, ⟨2, by decide⟩, ?_, ?_⟩
  · unfold labelRun matcherFstNew laLabelNew laCreateData computeData StateReachable.new StateReachable.newCyclic StateReachable.newAcyclic ReachV.visitor
      ReachV.finishState ReachV.finishOwn IntervalSet.normalize relabelFst
    simp only [mergeSort_ints, Fst.trSort_eval]
    decide +kernel
  · unfold labelRun matcherFstNew laLabelNew laCreateData computeData StateReachable.new StateReachable.newCyclic StateReachable.newAcyclic ReachV.visitor
      ReachV.finishState ReachV.finishOwn IntervalSet.normalize relabelFst
    simp only [mergeSort_ints, Fst.trSort_eval]
    decide +kernel

/-- Writes `4 5`. -/
def exLaN : Fst Nat := ⟨[⟨none, [⟨1, 4, 1, 1⟩], 0, 0⟩, ⟨none, [⟨2, 5, 1, 2⟩], 0, 0⟩, ⟨some 1, [], 0, 0⟩], some 0, Props.of [.oLabelSorted]⟩

/-- Reads `4 5` and writes `7` in between. -/
def exLaM : Fst Nat := ⟨[⟨none, [⟨4, 8, 1, 1⟩], 0, 0⟩, ⟨none, [⟨0, 7, 1, 2⟩], 1, 0⟩, ⟨none, [⟨5, 9, 1, 3⟩], 0, 0⟩, ⟨some 1, [], 0, 0⟩], some 0, Props.of [.iLabelSorted]⟩

/-- With `LOOKAHEAD_NON_EPSILONS` even `AltSequenceComposeFilter` looks at a state whose ε-transitions have not been taken. -/
theorem C68_non_epsilons_fails : exLaN.Accepts [1, 2] [4, 5] 1 ∧ exLaM.Accepts [4, 5] [8, 7, 9] 1 ∧
    (labelRun true { olabelLookaheadFlags with nonEpsilons := true } altFilter exLaN exLaM 10).map (·.toOption) = some (some [(false, 0)]) ∧
    (labelRun true olabelLookaheadFlags altFilter exLaN exLaM 10).map (·.toOption) = some (some [(false, 1), (false, 1), (false, 1), (true, 0)]) := by
  refine ⟨⟨2, by decide⟩, ⟨3, by decide⟩, ?_, ?_⟩
  · unfold labelRun matcherFstNew laLabelNew laCreateData computeData StateReachable.new StateReachable.newCyclic StateReachable.newAcyclic ReachV.visitor
      ReachV.finishState ReachV.finishOwn IntervalSet.normalize relabelFst
    simp only [mergeSort_ints, Fst.trSort_eval]
    decide +kernel
  · unfold labelRun matcherFstNew laLabelNew laCreateData computeData StateReachable.new StateReachable.newCyclic StateReachable.newAcyclic ReachV.visitor
      ReachV.finishState ReachV.finishOwn IntervalSet.normalize relabelFst
    simp only [mergeSort_ints, Fst.trSort_eval]
    decide +kernel

/-- A `SortedMatcher` can be given to a look-ahead filter, which panics if it is the one to look ahead with. -/
theorem C68_sorted_panics {W : Type u} [Zero W] [One W] [Add W] [DecidableEq W] (A B : Fst W) (m1 m2 : LaMatcher) :
    laBuild .output A B .sorted m2 = .error .panic ∧ laBuild .input A B m1 .sorted = .error .panic := ⟨rfl, rfl⟩

/-! ### Pushed weights -/

/-- Two ways on after `1`. -/
def exLaP (w : TW ℚ) : Fst (TW ℚ) := ⟨[⟨none, [⟨5, 8, w, 1⟩, ⟨5, 9, w, 1⟩], 0, 0⟩, ⟨some 1, [], 0, 0⟩], some 0, Props.of [.iLabelSorted]⟩

/-- `exLaA` with tropical weights. -/
def exLaT : Fst (TW ℚ) := ⟨[⟨none, [⟨1, 0, .fin 0, 1⟩], 0, 1⟩, ⟨none, [⟨2, 5, .fin 0, 2⟩], 0, 0⟩, ⟨some (.fin 0), [], 0, 0⟩], some 0, Props.of [.oLabelSorted]⟩

/-- The weights of the transitions of the composition with pushed weights. -/
def pushRun (delta : ℚ) (w : TW ℚ) (n : Nat) : Option (R (List (List (TW ℚ)))) :=
  (composeLook (pushFilter TW.divE (fun v _ => .ok (TW.quantize delta v)) (.fin delta) ⟨true, .tr exTrFlags, exTrFlags⟩ exLaT (exLaP w) seqFilter) exLaT (exLaP w) n).map
    fun r => r.map fun C => C.states.map fun st => st.trs.map (·.weight)

theorem exLaPush (w : TW ℚ) : Operands exLaT (exLaP w) := by
  have b1 : ∀ s, s < 3 → ∀ t ∈ exLaT.trsOf s, t.olabel ≠ NO_LABEL := by decide
  have b2 : ∀ s, s < 2 → ∀ t ∈ (exLaP w).trsOf s, t.ilabel ≠ NO_LABEL := by
    intro s hs
    rcases s with _ | _ | s
    · intro t ht
      simp [exLaP, Fst.trsOf] at ht
      rcases ht with rfl | rfl <;> exact (by decide : (5 : Nat) ≠ NO_LABEL)
    · simp [exLaP, Fst.trsOf]
    · omega
  have c1 : ∀ s, s < 3 → ((exLaT.trsOf s).map (·.olabel)).Pairwise (· ≤ ·) := by decide
  refine ⟨Fst.wf_of_wfB (by decide), Fst.wf_of_wfB rfl, ?_, ?_, fun s t ht => b1 s (Fst.lt_of_mem_trsOf ht) t ht, fun s t ht => b2 s (Fst.lt_of_mem_trsOf ht) t ht,
    fun _ s => ?_, fun _ s => ?_, .inl rfl⟩
  · intro s st hst
    rcases s with _ | _ | _ | s <;> simp [exLaT] at hst <;> subst hst <;> exact ⟨rfl, rfl⟩
  · intro s st hst
    rcases s with _ | _ | s <;> simp [exLaP] at hst <;> subst hst <;> exact ⟨rfl, rfl⟩
  · by_cases h : s < 3
    · exact c1 s h
    · rw [Fst.trsOf_of_ge (show exLaT.numStates ≤ s from Nat.le_of_not_lt h)]; exact List.Pairwise.nil
  · rcases s with _ | _ | s
    · exact List.Pairwise.cons (fun a ha => by simp at ha; subst ha; exact le_refl 5) (List.pairwise_singleton _ _)
    · exact List.Pairwise.nil
    · exact List.Pairwise.nil

/-- The theorem applies to weights that are multiples of `delta`: `-1` is moved to the front. -/
example : (pushRun 1 (.fin (-1)) 10).map (·.toOption) = some (some [[.fin (-1)], [.fin 0, .fin 0], []]) ∧
    ∃ C, EndsWith (composeLook (pushFilter TW.divE (fun v _ => .ok (TW.quantize 1 v)) (.fin 1) ⟨true, .tr exTrFlags, exTrFlags⟩ exLaT (exLaP (.fin (-1))) seqFilter)
      exLaT (exLaP (.fin (-1)))) (.ok C) ∧ IsComposition exLaT (exLaP (.fin (-1))) C := by
  refine ⟨by decide +kernel, ?_⟩
  have g0 : FinIn (AddSubgroup.zmultiples (1 : ℚ)) (.fin 0) := ⟨0, by simp, rfl⟩
  have g1 : FinIn (AddSubgroup.zmultiples (1 : ℚ)) (.fin (-1)) := ⟨-1, by simp, rfl⟩
  obtain ⟨C, h1, -, -, h2⟩ := C68_push_weights (smt := .output) (m1 := .tr exTrFlags) (m2 := .trivial) (exLaPush (.fin (-1))) rfl (.inr ⟨_, rfl⟩) (.inl rfl) (fun _ => by rfl)
    (tropical_push (one_ne_zero (α := ℚ)) (.fin 1))
    ⟨fun s t ht => by
      rcases s with _ | _ | _ | s <;> simp [exLaT, Fst.trsOf] at ht <;> subst ht <;> exact g0, fun s w hw => by
      rcases s with _ | _ | _ | s <;> simp [exLaT, Fst.finOf] at hw <;> subst hw <;> exact fun _ => g0⟩
    ⟨fun s t ht => by
      rcases s with _ | _ | s <;> simp [exLaP, Fst.trsOf] at ht
      rcases ht with rfl | rfl <;> exact g1, fun s w hw => by
      rcases s with _ | _ | s <;> simp [exLaP, Fst.finOf] at hw <;> subst hw <;> exact fun _ => g0⟩ seqFilter (.inl rfl)
  exact ⟨C, h1, h2⟩

/-- `quantize` is applied to the weight in the state of the filter but not to the weight that is multiplied to the transition, so that the two do not cancel: with
`delta = 1/1024` both transitions of each path carry the weight `-1/4096` although only one of the operands does. -/
theorem C68_push_quantized : (pushRun (1 / 1024) (.fin (-1 / 4096)) 10).map (·.toOption) = some (some [[.fin (-1 / 4096)], [.fin (-1 / 4096), .fin (-1 / 4096)], []]) := by
  decide +kernel

end Verif
