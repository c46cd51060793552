import Verif.Lemmas.LabelPrefix
import Verif.Lemmas.LabelPrefixIn
import Verif.Lemmas.LabelTr
import Verif.Props.C68

/-!
# C79: composing with look-ahead and pushed labels gives the composition
-/

namespace Verif
universe u

section
variable {W : Type u} [CommMonoidWithZero W] [Add W] [DecidableEq W] {f g : Fst W}

/-- C79, output of the first FST: `MatcherFst::new_with_relabeling` succeeds for a matcher type with the flags of `OLABEL_LOOKAHEAD_FLAGS`; `PushLabelsComposeFilter` around
the look-ahead filter over `AltSequenceComposeFilter`, on the two FSTs it returns, computes the composition of the two FSTs as they were before. -/
theorem C79_label_output (h : LookOperands false f g) (hz : ∀ x y, f.finOf x = some 0 → f.Silent false x y → f.Silent false y x → x = y)
    (fl : LaFlags) (hi : fl.inputLa = false) (ho : fl.outputLa = true) (hne : fl.nonEpsilons = false) :
    ∃ m, matcherFstNew fl f g true = .ok m ∧
      (∀ smt m2, smt = .output ∨ smt = .both → ∃ m1 c, laLabelNew fl m.fst false m.odata = .ok m1 ∧ laBuild smt m.fst m.other m1 m2 = .ok c ∧
          ∃ C, EndsWith (composePush c (lookFilter c m.fst m.other altFilter) m.fst m.other) (.ok C) ∧ C.WF ∧ C.AllCounters ∧ IsComposition f g C) := by
  obtain ⟨m, hm⟩ := matcherFst_ok (side := false) h hi ho hz
  refine ⟨m, hm, fun smt m2 hs => ?_⟩
  obtain ⟨D, num, hD, hr⟩ := matcherFst_out h hi ho hm
  refine ⟨.label fl (some (D, false)), _, ?_, labelBuild_out hr hs m2, ?_⟩
  · rw [hD]; simp [laLabelNew, ho, hr.reachSide]
  have hop := hr.operands_out h.wf1 h.wf2
  obtain ⟨mt, hmt, hc⟩ := hop.composable
  have hj := hc.toJoinable
  have L := altFilter_law hj hop.counters2
  obtain ⟨hT, hN⟩ := out_look hr fl { fl with outputLa := true }
  obtain ⟨C, c1, c2, c3, c4⟩ := (lookFilter_pushesLabels hj hop.counters2 hr.tabled hr.lookedAt fl { fl with outputLa := true } hne).static hc L
    (lookFilter_follows hj L hT (LookCuts.of_alt hj hop.counters2 rfl hne hN)) (CTup.ok_finite (Set.finite_Iic 1)) hmt
  exact ⟨C, c1, c2, c3, hr.fst1.composition hr.fst2 (fun s a ha s' b hb e => (hr.inj s a ha s' b hb e.symm).symm) c4⟩

/-- C79, input of the second FST: the same with the flags of `ILABEL_LOOKAHEAD_FLAGS` and `SequenceComposeFilter`. -/
theorem C79_label_input (h : LookOperands true f g) (hz : ∀ x y, f.finOf x = some 0 → f.Silent true x y → f.Silent true y x → x = y)
    (fl : LaFlags) (hi : fl.inputLa = true) (ho : fl.outputLa = false) (hne : fl.nonEpsilons = false) :
    ∃ m, matcherFstNew fl f g false = .ok m ∧
      (∀ smt m1, (smt = .input ∨ smt = .both ∧ m1.flags.outputLa = false) → ∃ m2 c, laLabelNew fl m.fst true m.idata = .ok m2 ∧ laBuild smt m.other m.fst m1 m2 = .ok c ∧
          ∃ C, EndsWith (composePush c (lookFilter c m.other m.fst seqFilter) m.other m.fst) (.ok C) ∧ C.WF ∧ C.AllCounters ∧ IsComposition g f C) := by
  obtain ⟨m, hm⟩ := matcherFst_ok (side := true) h hi ho hz
  refine ⟨m, hm, fun smt m1 hs => ?_⟩
  obtain ⟨D, num, hD, hr⟩ := matcherFst_in h hi ho hm
  refine ⟨.label fl (some (D, false)), _, ?_, labelBuild_in hr hs, ?_⟩
  · rw [hD]; simp [laLabelNew, hi, hr.reachSide]
  have hop := hr.operands_in h.wf1 h.wf2
  obtain ⟨mt, hmt, hc⟩ := hop.composable
  have hj := hc.toJoinable
  have L := seqFilter_law hj hop.counters1
  obtain ⟨hT, hN⟩ := in_look hr fl { fl with inputLa := true }
  obtain ⟨C, c1, c2, c3, c4⟩ := (lookFilter_pushesLabels_in hj hop.counters1 hr.tabled hr.lookedAt fl { fl with inputLa := true } hne).static hc L
    (lookFilter_follows hj L hT (LookCuts.of_seq hj hop.counters1 rfl hne hN)) (CTup.ok_finite (Set.finite_Iic 1)) hmt
  exact ⟨C, c1, c2, c3, hr.fst2.composition hr.fst1 (fun s a ha s' b hb e => hr.inj s' b hb s a ha e) c4⟩

end

section
variable {W : Type} [CommMonoidWithZero W] [Add W] [DecidableEq W] {f g : Fst W}

/-- C79, labels and weights pushed: as `C79_label_output`, with `PushLabelsComposeFilter` around `PushWeightsComposeFilter`, if the weights of the second FST can be pushed. -/
theorem C79_label_push_output (h : LookOperands false f g) (hz : ∀ x y, f.finOf x = some 0 → f.Silent false x y → f.Silent false y x → x = y)
    (fl : LaFlags) (hi : fl.inputLa = false) (ho : fl.outputLa = true) (hne : fl.nonEpsilons = false) (h0 : ∀ a : W, 0 + a = a)
    {div quant : W → W → R W} {delta : W} {G : W → Prop} (hG : PushWeights div quant delta G) (hg : GoodFst G g) :
    ∃ m, matcherFstNew fl f g true = .ok m ∧
      (∀ smt m2, smt = .output ∨ smt = .both → ∃ m1 c, laLabelNew fl m.fst false m.odata = .ok m1 ∧ laBuild smt m.fst m.other m1 m2 = .ok c ∧
          ∃ C, EndsWith (composePush c (pushFilter div quant delta c m.fst m.other altFilter) m.fst m.other) (.ok C) ∧ C.WF ∧ C.AllCounters ∧ IsComposition f g C) := by
  obtain ⟨m, hm⟩ := matcherFst_ok (side := false) h hi ho hz
  refine ⟨m, hm, fun smt m2 hs => ?_⟩
  obtain ⟨D, num, hD, hr⟩ := matcherFst_out h hi ho hm
  refine ⟨.label fl (some (D, false)), _, ?_, labelBuild_out hr hs m2, ?_⟩
  · rw [hD]; simp [laLabelNew, ho, hr.reachSide]
  have hop := hr.operands_out h.wf1 h.wf2
  obtain ⟨mt, hmt, hc⟩ := hop.composable
  have hj := hc.toJoinable
  have L := altFilter_law hj hop.counters2
  obtain ⟨hT, hN⟩ := out_look hr fl { fl with outputLa := true }
  obtain ⟨C, c1, c2, c3, c4⟩ := (pushFilter_pushesLabels hj hop.counters2 hr.tabled hr.lookedAt fl { fl with outputLa := true } hne (hG.push _ hG.good.one)).static hc L
    (pushFilter_follows hj L hT (LookCuts.of_alt hj hop.counters2 rfl hne hN) (hG.push _ hG.good.one) (fun hw s1 s2 d l1 l2 e =>
    hG.push _ (labelLook_good hr.tabled hr.lookedAt h0 hG.good (hr.fst2.good hg) hw l1 l2 e))) (pushed_finite _ (Set.finite_Iic 1)) hmt
  exact ⟨C, c1, c2, c3, hr.fst1.composition hr.fst2 (fun s a ha s' b hb e => (hr.inj s a ha s' b hb e.symm).symm) c4⟩

/-- The same on the input of the second FST. -/
theorem C79_label_push_input (h : LookOperands true f g) (hz : ∀ x y, f.finOf x = some 0 → f.Silent true x y → f.Silent true y x → x = y)
    (fl : LaFlags) (hi : fl.inputLa = true) (ho : fl.outputLa = false) (hne : fl.nonEpsilons = false) (h0 : ∀ a : W, 0 + a = a)
    {div quant : W → W → R W} {delta : W} {G : W → Prop} (hG : PushWeights div quant delta G) (hg : GoodFst G g) :
    ∃ m, matcherFstNew fl f g false = .ok m ∧
      (∀ smt m1, (smt = .input ∨ smt = .both ∧ m1.flags.outputLa = false) → ∃ m2 c, laLabelNew fl m.fst true m.idata = .ok m2 ∧ laBuild smt m.other m.fst m1 m2 = .ok c ∧
          ∃ C, EndsWith (composePush c (pushFilter div quant delta c m.other m.fst seqFilter) m.other m.fst) (.ok C) ∧ C.WF ∧ C.AllCounters ∧ IsComposition g f C) := by
  obtain ⟨m, hm⟩ := matcherFst_ok (side := true) h hi ho hz
  refine ⟨m, hm, fun smt m1 hs => ?_⟩
  obtain ⟨D, num, hD, hr⟩ := matcherFst_in h hi ho hm
  refine ⟨.label fl (some (D, false)), _, ?_, labelBuild_in hr hs, ?_⟩
  · rw [hD]; simp [laLabelNew, hi, hr.reachSide]
  have hop := hr.operands_in h.wf1 h.wf2
  obtain ⟨mt, hmt, hc⟩ := hop.composable
  have hj := hc.toJoinable
  have L := seqFilter_law hj hop.counters1
  obtain ⟨hT, hN⟩ := in_look hr fl { fl with inputLa := true }
  obtain ⟨C, c1, c2, c3, c4⟩ := (pushFilter_pushesLabels_in hj hop.counters1 hr.tabled hr.lookedAt fl { fl with inputLa := true } hne (hG.push _ hG.good.one)).static hc L
    (pushFilter_follows hj L hT (LookCuts.of_seq hj hop.counters1 rfl hne hN) (hG.push _ hG.good.one) (fun hw s1 s2 d l1 l2 e =>
    hG.push _ (labelLook_good hr.tabled hr.lookedAt h0 hG.good (hr.fst2.good hg) hw l2 l1 e))) (pushed_finite _ (Set.finite_Iic 1)) hmt
  exact ⟨C, c1, c2, c3, hr.fst2.composition hr.fst1 (fun s a ha s' b hb e => hr.inj s' b hb s a ha e) c4⟩

end

section
variable {W : Type u} [CommMonoidWithZero W] [Add W] [DecidableEq W] {A B : Fst W} {smt : SMatch} {m1 m2 : LaMatcher} {c : LaCfg}

/-- C79, `TrLookAheadMatcher` or `TrivialLookAheadMatcher`: `PushLabelsComposeFilter` around the look-ahead filter computes the composition, with flags that do not look ahead
after other labels than ε or, as in `LOOKAHEAD_FLAGS`, do not push after them. The inner filter is `AltSequenceComposeFilter` if the first FST looks ahead, and `SequenceComposeFilter` if the second does. -/
theorem C79_transitions (h : Operands A B) (hb : laBuild smt A B m1 m2 = .ok c) (h1 : m1.Plain) (h2 : m2.Plain) (hf : Flagged c A B) (hne : c.flags.nonEpsilons = false ∨ c.flags.nonEpsPrefix = true) :
    ∃ C, EndsWith (composePush c (lookFilter c A B (if c.out then altFilter else seqFilter)) A B) (.ok C) ∧ C.WF ∧ C.AllCounters ∧ IsComposition A B C := by
  obtain ⟨mt, hm, hc⟩ := h.composable
  have hj := hc.toJoinable
  have hp := laBuild_plain hb h1 h2
  have hT : LookTotal c A B := fun s1 s2 l1 l2 => by
    obtain ⟨r, hr, -⟩ := plain_look h hp hf l1 l2
    exact ⟨r, hr⟩
  have hN : ∀ s1 s2, s1 < A.numStates → s2 < B.numStates → c.look A B s1 s2 = .ok none → NoJoin A B s1 s2 := fun s1 s2 l1 l2 e => by
    obtain ⟨r, hr, hn, -⟩ := plain_look h hp hf l1 l2
    rw [e] at hr
    injection hr with hr
    exact hn hr.symm
  obtain ⟨out, m, fl'⟩ := c
  cases out with
  | true =>
    have L := altFilter_law hj h.counters2
    rw [if_pos rfl]
    rcases hp with e | ⟨fl, e⟩ <;> dsimp only at e <;> subst e
    · exact (lookFilter_pushesTrivial hj h.counters2 fl').static hc L (lookFilter_follows hj L hT (LookCuts.of_noJoin hj L hN)) (CTup.ok_finite (Set.finite_Iic 1)) hm
    · have hs : A.props .oLabelSorted = true := hf ⟨fl, rfl⟩
      exact (lookFilter_pushesTr hj h.counters2 ⟨hs, h.true1 hs⟩ h.noLabel2 fl fl' hne).static hc L (lookFilter_follows hj L hT (LookCuts.of_noJoin hj L hN)) (CTup.ok_finite (Set.finite_Iic 1)) hm
  | false =>
    have L := seqFilter_law hj h.counters1
    rw [if_neg (by simp)]
    rcases hp with e | ⟨fl, e⟩ <;> dsimp only at e <;> subst e
    · exact (lookFilter_pushesTrivial_in hj h.counters1 fl').static hc L (lookFilter_follows hj L hT (LookCuts.of_noJoin hj L hN)) (CTup.ok_finite (Set.finite_Iic 1)) hm
    · have hs : B.props .iLabelSorted = true := hf ⟨fl, rfl⟩
      exact (lookFilter_pushesTr_in hj h.counters1 ⟨hs, h.true2 hs⟩ h.noLabel1 fl fl' hne).static hc L (lookFilter_follows hj L hT (LookCuts.of_noJoin hj L hN)) (CTup.ok_finite (Set.finite_Iic 1)) hm

end

section
variable {W : Type} [CommMonoidWithZero W] [Add W] [DecidableEq W] {A B : Fst W} {smt : SMatch} {m1 m2 : LaMatcher} {c : LaCfg}

/-- The same with labels and weights pushed. -/
theorem C79_transitions_push (h : Operands A B) (hb : laBuild smt A B m1 m2 = .ok c) (h1 : m1.Plain) (h2 : m2.Plain) (hf : Flagged c A B) (hne : c.flags.nonEpsilons = false ∨ c.flags.nonEpsPrefix = true)
    {div quant : W → W → R W} {delta : W} {G : W → Prop} (hG : PushWeights div quant delta G) (hA : GoodFst G A) (hB : GoodFst G B) :
    ∃ C, EndsWith (composePush c (pushFilter div quant delta c A B (if c.out then altFilter else seqFilter)) A B) (.ok C) ∧ C.WF ∧ C.AllCounters ∧ IsComposition A B C := by
  obtain ⟨mt, hm, hc⟩ := h.composable
  have hj := hc.toJoinable
  have hp := laBuild_plain hb h1 h2
  have hT : LookTotal c A B := fun s1 s2 l1 l2 => by
    obtain ⟨r, hr, -⟩ := plain_look h hp hf l1 l2
    exact ⟨r, hr⟩
  have hN : ∀ s1 s2, s1 < A.numStates → s2 < B.numStates → c.look A B s1 s2 = .ok none → NoJoin A B s1 s2 := fun s1 s2 l1 l2 e => by
    obtain ⟨r, hr, hn, -⟩ := plain_look h hp hf l1 l2
    rw [e] at hr
    injection hr with hr
    exact hn hr.symm
  have hW : c.flags.weight = true → ∀ s1 s2 d, s1 < A.numStates → s2 < B.numStates → c.look A B s1 s2 = .ok (some d) → Pushable div quant delta d.weight := by
    intro _ s1 s2 d l1 l2 e
    obtain ⟨r, hr, -, hg⟩ := plain_look h hp hf l1 l2
    rw [e] at hr
    injection hr with hr
    exact hG.push _ (hg G hG.good hA hB d hr.symm)
  have hO := hG.push _ hG.good.one
  obtain ⟨out, m, fl'⟩ := c
  cases out with
  | true =>
    have L := altFilter_law hj h.counters2
    rw [if_pos rfl]
    rcases hp with e | ⟨fl, e⟩ <;> dsimp only at e <;> subst e
    · exact (pushFilter_pushesTrivial hj h.counters2 fl' hO).static hc L (pushFilter_follows hj L hT (LookCuts.of_noJoin hj L hN) hO hW) (pushed_finite _ (Set.finite_Iic 1)) hm
    · have hs : A.props .oLabelSorted = true := hf ⟨fl, rfl⟩
      exact (pushFilter_pushesTr hj h.counters2 ⟨hs, h.true1 hs⟩ h.noLabel2 fl fl' hne hO).static hc L (pushFilter_follows hj L hT (LookCuts.of_noJoin hj L hN) hO hW) (pushed_finite _ (Set.finite_Iic 1)) hm
  | false =>
    have L := seqFilter_law hj h.counters1
    rw [if_neg (by simp)]
    rcases hp with e | ⟨fl, e⟩ <;> dsimp only at e <;> subst e
    · exact (pushFilter_pushesTrivial_in hj h.counters1 fl' hO).static hc L (pushFilter_follows hj L hT (LookCuts.of_noJoin hj L hN) hO hW) (pushed_finite _ (Set.finite_Iic 1)) hm
    · have hs : B.props .iLabelSorted = true := hf ⟨fl, rfl⟩
      exact (pushFilter_pushesTr_in hj h.counters1 ⟨hs, h.true2 hs⟩ h.noLabel1 fl fl' hne hO).static hc L (pushFilter_follows hj L hT (LookCuts.of_noJoin hj L hN) hO hW) (pushed_finite _ (Set.finite_Iic 1)) hm

end

/-- C79, `MultiEpsMatcher` with one label `l` over a matcher that does not fail: without labels it is the matcher it wraps; with `MULTI_EPS_LIST` asking for `NO_LABEL` gives the
transitions with `l` and then the ε-transitions; with `MULTI_EPS_LOOP` asking for `l` gives the loop; any other question goes to the wrapped matcher. -/
theorem C79_multi_eps_one {W : Type u} {l : Label} (h0 : l ≠ EPS) (h1 : l ≠ NO_LABEL) {it : Label → R (List (IterItem W))} {x : Label → List (IterItem W)} (hx : ∀ k, it k = .ok (x k)) (k : Label) :
    (∀ ls lp, (⟨ls, lp, .empty⟩ : MultiEps).iterR it k = .ok (x k)) ∧
    (∃ m, (⟨true, false, .empty⟩ : MultiEps).addLabelR l = .ok m ∧ m.iterR it k = .ok (if k = NO_LABEL then x l ++ x NO_LABEL else x k)) ∧
    (∃ m, (⟨false, true, .empty⟩ : MultiEps).addLabelR l = .ok m ∧ m.iterR it k = .ok (if k = l then [.epsLoop] else x k)) ∧
    ∀ m : MultiEps, m.addLabelR EPS = .error .err := by
  refine ⟨fun ls lp => by rw [MultiEps.iterR_empty, hx], ⟨_, by simp only [MultiEps.addLabelR, if_neg h0]; rfl, ?_⟩,
    ⟨_, by simp only [MultiEps.addLabelR, if_neg h0]; rfl, ?_⟩, fun m => by simp [MultiEps.addLabelR]⟩
  · rw [MultiEps.iterR_list hx]; split <;> rfl
  · rw [MultiEps.iterR_loop h1 h0, hx]; split <;> rfl

/-- The theorem applies to the matcher of an FST. -/
example : ∃ m, (⟨true, false, .empty⟩ : MultiEps).addLabelR 5 = .ok m ∧
    m.iterR (sortedIterR exLaFirst false 1) NO_LABEL = .ok [.tr ⟨2, 5, 1, 3⟩] := by
  obtain ⟨-, ⟨m, h1, h2⟩, -⟩ := C79_multi_eps_one (l := 5) (by decide) (by decide) (it := sortedIterR exLaFirst false 1) (x := sortedIter false (exLaFirst.trsOf 1))
    (sortedIterR_ok (show 1 < exLaFirst.numStates by decide)) NO_LABEL
  exact ⟨m, h1, by rw [h2]; rfl⟩

/-! ### Concrete cases -/

/-- The theorem applies to the two FSTs with the flags the library defines, which ask for pushed labels. -/
example : olabelLookaheadFlags.prefixLa = true ∧ ∃ m m1 c C, matcherFstNew olabelLookaheadFlags exLaFirst exLaSecond true = .ok m ∧
    laLabelNew olabelLookaheadFlags m.fst false m.odata = .ok m1 ∧ laBuild .output m.fst m.other m1 .sorted = .ok c ∧
    EndsWith (composePush c (lookFilter c m.fst m.other altFilter) m.fst m.other) (.ok C) ∧ C.Accepts [1, 2] [9] 15 := by
  obtain ⟨m, hm, h⟩ := C79_label_output exLaLook (fun x y h => absurd h (by
    intro h
    have b : ∀ s, s < 4 → exLaFirst.finOf s ≠ some 0 := by decide
    exact b x (Fst.lt_of_finOf h) h)) olabelLookaheadFlags rfl rfl rfl
  obtain ⟨m1, c, e1, e2, C, e3, -, -, e4⟩ := h .output .sorted (.inl rfl)
  refine ⟨rfl, m, m1, c, C, hm, e1, e2, e3, (C39_relation e4 _ _ _ (by decide)).2 ⟨[6], 3, 5, ⟨2, ?_⟩, ⟨1, ?_⟩, rfl⟩⟩
  · decide
  · decide

/-- As `labelRun`, with pushed labels. The result is the list of states of the composition, with the labels of their transitions. -/
def labelPushRun (push : Bool) (fl : LaFlags) (f g : Fst Nat) (n : Nat) : Option (R (List (Bool × List (Label × Label)))) :=
  match matcherFstNew fl f g true with
  | .error e => some (.error e)
  | .ok m =>
    match laLabelNew fl m.fst false m.odata with
    | .error e => some (.error e)
    | .ok m1 =>
      match laBuild .output m.fst m.other m1 .sorted with
      | .error e => some (.error e)
      | .ok c => (if push then composePush c (lookFilter c m.fst m.other altFilter) m.fst m.other n else composeLook (lookFilter c m.fst m.other altFilter) m.fst m.other n).map
          fun r => r.map fun C => C.states.map fun st => (st.fin.isSome, st.trs.map fun t => (t.ilabel, t.olabel))

/-- The label `9` really comes earlier: it is written with the ε-transition of the first FST. -/
example : (labelPushRun false olabelLookaheadFlags exLaFirst exLaSecond 10).map (·.toOption) = some (some [(false, [(1, 0)]), (false, [(2, 9)]), (true, [])]) ∧
    (labelPushRun true olabelLookaheadFlags exLaFirst exLaSecond 10).map (·.toOption) = some (some [(false, [(1, 9)]), (false, [(2, 0)]), (true, [])]) := by
  constructor
  · unfold labelPushRun matcherFstNew laLabelNew laCreateData LabelReachable.computeData StateReachable.new StateReachable.newCyclic StateReachable.newAcyclic ReachV.visitor
      ReachV.finishState ReachV.finishOwn IntervalSet.normalize LabelReachableData.relabelFst
    simp only [mergeSort_ints, Fst.trSort_eval]
    decide +kernel
  · unfold labelPushRun matcherFstNew laLabelNew laCreateData LabelReachable.computeData StateReachable.new StateReachable.newCyclic StateReachable.newAcyclic ReachV.visitor
      ReachV.finishState ReachV.finishOwn IntervalSet.normalize LabelReachableData.relabelFst
    simp only [mergeSort_ints, Fst.trSort_eval]
    decide +kernel

/-- The theorem on the input side applies to the two FSTs with the flags the library defines. -/
example : ilabelLookaheadFlags.prefixLa = true ∧ ∃ m m2 c C, matcherFstNew ilabelLookaheadFlags exLaThird exLaFourth false = .ok m ∧
    laLabelNew ilabelLookaheadFlags m.fst true m.idata = .ok m2 ∧ laBuild .input m.other m.fst .sorted m2 = .ok c ∧
    EndsWith (composePush c (lookFilter c m.other m.fst seqFilter) m.other m.fst) (.ok C) ∧ C.Accepts [9] [1, 2] 15 := by
  obtain ⟨m, hm, h⟩ := C79_label_input exLaLookIn (fun x y h => absurd h (by
    intro h
    have b : ∀ s, s < 4 → exLaThird.finOf s ≠ some 0 := by decide
    exact b x (Fst.lt_of_finOf h) h)) ilabelLookaheadFlags rfl rfl rfl
  obtain ⟨m2, c, e1, e2, C, e3, -, -, e4⟩ := h .input .sorted (.inl rfl)
  refine ⟨rfl, m, m2, c, C, hm, e1, e2, e3, (C39_relation e4 _ _ _ (by decide)).2 ⟨[6], 5, 3, ⟨1, ?_⟩, ⟨2, ?_⟩, rfl⟩⟩
  · decide
  · decide

/-- As `labelPushRun`, with the matcher on the input of the second FST. -/
def labelPushRunIn (push : Bool) (fl : LaFlags) (f g : Fst Nat) (n : Nat) : Option (R (List (Bool × List (Label × Label)))) :=
  match matcherFstNew fl f g false with
  | .error e => some (.error e)
  | .ok m =>
    match laLabelNew fl m.fst true m.idata with
    | .error e => some (.error e)
    | .ok m2 =>
      match laBuild .input m.other m.fst .sorted m2 with
      | .error e => some (.error e)
      | .ok c => (if push then composePush c (lookFilter c m.other m.fst seqFilter) m.other m.fst n else composeLook (lookFilter c m.other m.fst seqFilter) m.other m.fst n).map
          fun r => r.map fun C => C.states.map fun st => (st.fin.isSome, st.trs.map fun t => (t.ilabel, t.olabel))

/-- The label `9` is read earlier. -/
example : (labelPushRunIn false ilabelLookaheadFlags exLaThird exLaFourth 10).map (·.toOption) = some (some [(false, [(0, 1)]), (false, [(9, 2)]), (true, [])]) ∧
    (labelPushRunIn true ilabelLookaheadFlags exLaThird exLaFourth 10).map (·.toOption) = some (some [(false, [(9, 1)]), (false, [(0, 2)]), (true, [])]) := by
  constructor
  · unfold labelPushRunIn matcherFstNew laLabelNew laCreateData LabelReachable.computeData StateReachable.new StateReachable.newCyclic StateReachable.newAcyclic ReachV.visitor
      ReachV.finishState ReachV.finishOwn IntervalSet.normalize LabelReachableData.relabelFst
    simp only [mergeSort_ints, Fst.trSort_eval]
    decide +kernel
  · unfold labelPushRunIn matcherFstNew laLabelNew laCreateData LabelReachable.computeData StateReachable.new StateReachable.newCyclic StateReachable.newAcyclic ReachV.visitor
      ReachV.finishState ReachV.finishOwn IntervalSet.normalize LabelReachableData.relabelFst
    simp only [mergeSort_ints, Fst.trSort_eval]
    decide +kernel

/-- The theorem for `TrLookAheadMatcher` applies to the two FSTs with all flags, and the label `9` comes earlier. -/
example : ∃ c C, laBuild .both exLaFirst exLaSecond (.tr exTrFlags) .trivial = .ok c ∧ c.out = true ∧
    (composePush c (lookFilter c exLaFirst exLaSecond altFilter) exLaFirst exLaSecond 10).map (fun r => r.toOption.map fun C => C.states.map fun st => st.trs.map fun t => (t.ilabel, t.olabel)) =
      some (some [[(1, 9)], [(2, 0)], []]) ∧
    EndsWith (composePush c (lookFilter c exLaFirst exLaSecond altFilter) exLaFirst exLaSecond) (.ok C) ∧ C.Accepts [1, 2] [9] 15 := by
  obtain ⟨C, h1, -, -, h2⟩ := C79_transitions (smt := .both) (m1 := .tr exTrFlags) (m2 := .trivial) exLaOperands rfl (.inr ⟨_, rfl⟩) (.inl rfl) (fun _ => by rfl) (.inr rfl)
  refine ⟨⟨true, .tr exTrFlags, exTrFlags⟩, C, rfl, rfl, by rfl, h1, (C39_relation h2 _ _ _ (by decide)).2 ⟨[6], 3, 5, ⟨2, ?_⟩, ⟨1, ?_⟩, rfl⟩⟩
  · decide
  · decide

/-- The same on the input side. -/
example : ∃ c C, laBuild .input exLaFourth exLaThird .trivial (.tr exTrFlags) = .ok c ∧ c.out = false ∧
    (composePush c (lookFilter c exLaFourth exLaThird seqFilter) exLaFourth exLaThird 10).map (fun r => r.toOption.map fun C => C.states.map fun st => st.trs.map fun t => (t.ilabel, t.olabel)) =
      some (some [[(9, 1)], [(0, 2)], []]) ∧
    EndsWith (composePush c (lookFilter c exLaFourth exLaThird seqFilter) exLaFourth exLaThird) (.ok C) ∧ C.Accepts [9] [1, 2] 15 := by
  have ho : Operands exLaFourth exLaThird := ⟨exLaLookIn.wf2, exLaLookIn.wf1, exLaLookIn.counters2, exLaLookIn.counters1, exLaLookIn.noLabel2,
    fun s t ht => Nat.ne_of_lt (exLaLookIn.noLabel1 s t ht), fun e => exLaLookIn.true2 _ e, fun e => exLaLookIn.true1 _ e, .inl rfl⟩
  obtain ⟨C, h1, -, -, h2⟩ := C79_transitions (smt := .input) (m1 := .trivial) (m2 := .tr exTrFlags) ho rfl (.inl rfl) (.inr ⟨_, rfl⟩) (fun _ => by rfl) (.inr rfl)
  refine ⟨⟨false, .tr exTrFlags, exTrFlags⟩, C, rfl, rfl, by rfl, h1, (C39_relation h2 _ _ _ (by decide)).2 ⟨[6], 5, 3, ⟨1, ?_⟩, ⟨2, ?_⟩, rfl⟩⟩
  · decide
  · decide

theorem exPushLook : LookOperands false exLaT (exLaP (.fin (-1))) := by
  have h := exLaPush (.fin (-1))
  have b1 : ∀ s, s < 3 → ∀ t ∈ exLaT.trsOf s, t.olabel < NO_LABEL := by decide
  have l1 : ∀ s, s < 3 → ∀ t ∈ exLaT.trsOf s, t.olabel ∈ [0, 5] := by decide
  have l2 : ∀ s, s < 2 → ∀ t ∈ (exLaP (.fin (-1))).trsOf s, t.ilabel ∈ [0, 5] := by decide
  refine ⟨h.wf1, h.wf2, h.counters1, h.counters2, fun b hb => ?_, fun b hb => ?_, by decide, by decide, fun s t ht => b1 s (Fst.lt_of_mem_trsOf ht) t ht, h.noLabel2,
    [0, 5], by decide, fun s t ht => l1 s (Fst.lt_of_mem_trsOf ht) t ht, fun s t ht => l2 s (Fst.lt_of_mem_trsOf ht) t ht⟩
  · cases b <;> first | exact absurd hb (by decide) | exact h.true1 rfl
  · cases b <;> first | exact absurd hb (by decide) | exact h.true2 rfl

/-- The theorem with pushed weights applies to tropical weights that are multiples of `delta`. -/
example : ∃ m m1 c C, matcherFstNew olabelLookaheadFlags exLaT (exLaP (.fin (-1))) true = .ok m ∧ laLabelNew olabelLookaheadFlags m.fst false m.odata = .ok m1 ∧
    laBuild .output m.fst m.other m1 .sorted = .ok c ∧
    EndsWith (composePush c (pushFilter TW.divE (fun v _ => .ok (TW.quantize 1 v)) (.fin 1) c m.fst m.other altFilter) m.fst m.other) (.ok C) ∧
    IsComposition exLaT (exLaP (.fin (-1))) C := by
  have g0 : FinIn (AddSubgroup.zmultiples (1 : ℚ)) (.fin 0) := ⟨0, by simp, rfl⟩
  have g1 : FinIn (AddSubgroup.zmultiples (1 : ℚ)) (.fin (-1)) := ⟨-1, by simp, rfl⟩
  obtain ⟨m, hm, h⟩ := C79_label_push_output exPushLook (fun x y h => absurd h (by
    intro h
    have b : ∀ s, s < 3 → exLaT.finOf s ≠ some 0 := by decide
    exact b x (Fst.lt_of_finOf h) h)) olabelLookaheadFlags rfl rfl rfl (fun a => by cases a <;> rfl) (tropical_push (one_ne_zero (α := ℚ)) (.fin 1))
    ⟨fun s t ht => by
      rcases s with _ | _ | s <;> simp [exLaP, Fst.trsOf] at ht
      rcases ht with rfl | rfl <;> exact g1, fun s w hw => by
      rcases s with _ | _ | s <;> simp [exLaP, Fst.finOf] at hw <;> subst hw <;> exact fun _ => g0⟩
  obtain ⟨m1, c, e1, e2, C, e3, -, -, e4⟩ := h .output .sorted (.inl rfl)
  exact ⟨m, m1, c, C, hm, e1, e2, e3, e4⟩

/-- The theorem with pushed weights and `TrLookAheadMatcher` applies to the same weights. -/
example : ∃ c C, laBuild .output exLaT (exLaP (.fin (-1))) (.tr exTrFlags) .trivial = .ok c ∧
    EndsWith (composePush c (pushFilter TW.divE (fun v _ => .ok (TW.quantize 1 v)) (.fin 1) c exLaT (exLaP (.fin (-1))) altFilter) exLaT (exLaP (.fin (-1)))) (.ok C) ∧
    IsComposition exLaT (exLaP (.fin (-1))) C := by
  have g0 : FinIn (AddSubgroup.zmultiples (1 : ℚ)) (.fin 0) := ⟨0, by simp, rfl⟩
  have g1 : FinIn (AddSubgroup.zmultiples (1 : ℚ)) (.fin (-1)) := ⟨-1, by simp, rfl⟩
  obtain ⟨C, h1, -, -, h2⟩ := C79_transitions_push (smt := .output) (m1 := .tr exTrFlags) (m2 := .trivial) (exLaPush (.fin (-1))) rfl (.inr ⟨_, rfl⟩) (.inl rfl) (fun _ => by rfl) (.inr rfl)
    (tropical_push (one_ne_zero (α := ℚ)) (.fin 1))
    ⟨fun s t ht => by
      rcases s with _ | _ | _ | s <;> simp [exLaT, Fst.trsOf] at ht <;> subst ht <;> exact g0, fun s w hw => by
      rcases s with _ | _ | _ | s <;> simp [exLaT, Fst.finOf] at hw <;> subst hw <;> exact fun _ => g0⟩
    ⟨fun s t ht => by
      rcases s with _ | _ | s <;> simp [exLaP, Fst.trsOf] at ht
      rcases ht with rfl | rfl <;> exact g1, fun s w hw => by
      rcases s with _ | _ | s <;> simp [exLaP, Fst.finOf] at hw <;> subst hw <;> exact fun _ => g0⟩
  exact ⟨_, C, rfl, h1, h2⟩

/-- `exLaT` turned around: an ε-transition, then one that reads `5`. -/
def exLaTIn : Fst (TW ℚ) := ⟨[⟨none, [⟨0, 1, .fin 0, 1⟩], 1, 0⟩, ⟨none, [⟨5, 2, .fin 0, 2⟩], 0, 0⟩, ⟨some (.fin 0), [], 0, 0⟩], some 0, Props.of [.iLabelSorted]⟩

/-- Writes `5`, with the weight `-1`. -/
def exLaPIn : Fst (TW ℚ) := ⟨[⟨none, [⟨8, 5, .fin (-1), 1⟩, ⟨9, 5, .fin (-1), 1⟩], 0, 0⟩, ⟨some (.fin 0), [], 0, 0⟩], some 0, Props.of [.oLabelSorted]⟩

theorem exPushLookIn : LookOperands true exLaTIn exLaPIn := by
  have b1 : ∀ s, s < 3 → ∀ t ∈ exLaTIn.trsOf s, t.ilabel < NO_LABEL := by decide
  have b2 : ∀ s, s < 2 → ∀ t ∈ exLaPIn.trsOf s, t.olabel ≠ NO_LABEL := by decide
  have l1 : ∀ s, s < 3 → ∀ t ∈ exLaTIn.trsOf s, t.ilabel ∈ [0, 5] := by decide
  have l2 : ∀ s, s < 2 → ∀ t ∈ exLaPIn.trsOf s, t.olabel ∈ [0, 5] := by decide
  have c1 : ∀ s, s < 3 → ((exLaTIn.trsOf s).map (·.ilabel)).Pairwise (· ≤ ·) := by decide
  have c2 : ∀ s, s < 2 → ((exLaPIn.trsOf s).map (·.olabel)).Pairwise (· ≤ ·) := by decide
  refine ⟨Fst.wf_of_wfB (by decide), Fst.wf_of_wfB (by decide), ?_, ?_, fun b hb => ?_, fun b hb => ?_, by decide, by decide,
    fun s t ht => b1 s (Fst.lt_of_mem_trsOf ht) t ht, fun s t ht => b2 s (Fst.lt_of_mem_trsOf ht) t ht,
    [0, 5], by decide, fun s t ht => l1 s (Fst.lt_of_mem_trsOf ht) t ht, fun s t ht => l2 s (Fst.lt_of_mem_trsOf ht) t ht⟩
  · intro s st hst
    rcases s with _ | _ | _ | s <;> simp [exLaTIn] at hst <;> subst hst <;> exact ⟨rfl, rfl⟩
  · intro s st hst
    rcases s with _ | _ | s <;> simp [exLaPIn] at hst <;> subst hst <;> exact ⟨rfl, rfl⟩
  · cases b <;> first | exact absurd hb (by decide) | skip
    intro s
    by_cases h : s < 3
    · exact c1 s h
    · rw [Fst.trsOf_of_ge (show exLaTIn.numStates ≤ s from Nat.le_of_not_lt h)]; exact List.Pairwise.nil
  · cases b <;> first | exact absurd hb (by decide) | skip
    intro s
    by_cases h : s < 2
    · exact c2 s h
    · rw [Fst.trsOf_of_ge (show exLaPIn.numStates ≤ s from Nat.le_of_not_lt h)]; exact List.Pairwise.nil

/-- The same on the input side. -/
example : ∃ m m2 c C, matcherFstNew ilabelLookaheadFlags exLaTIn exLaPIn false = .ok m ∧ laLabelNew ilabelLookaheadFlags m.fst true m.idata = .ok m2 ∧
    laBuild .input m.other m.fst .sorted m2 = .ok c ∧
    EndsWith (composePush c (pushFilter TW.divE (fun v _ => .ok (TW.quantize 1 v)) (.fin 1) c m.other m.fst seqFilter) m.other m.fst) (.ok C) ∧
    IsComposition exLaPIn exLaTIn C := by
  have g0 : FinIn (AddSubgroup.zmultiples (1 : ℚ)) (.fin 0) := ⟨0, by simp, rfl⟩
  have g1 : FinIn (AddSubgroup.zmultiples (1 : ℚ)) (.fin (-1)) := ⟨-1, by simp, rfl⟩
  obtain ⟨m, hm, h⟩ := C79_label_push_input exPushLookIn (fun x y h => absurd h (by
    intro h
    have b : ∀ s, s < 3 → exLaTIn.finOf s ≠ some 0 := by decide
    exact b x (Fst.lt_of_finOf h) h)) ilabelLookaheadFlags rfl rfl rfl (fun a => by cases a <;> rfl) (tropical_push (one_ne_zero (α := ℚ)) (.fin 1))
    ⟨fun s t ht => by
      rcases s with _ | _ | s <;> simp [exLaPIn, Fst.trsOf] at ht
      rcases ht with rfl | rfl <;> exact g1, fun s w hw => by
      rcases s with _ | _ | s <;> simp [exLaPIn, Fst.finOf] at hw <;> subst hw <;> exact fun _ => g0⟩
  obtain ⟨m2, c, e1, e2, C, e3, -, -, e4⟩ := h .input .sorted (.inl rfl)
  exact ⟨m, m2, c, C, hm, e1, e2, e3, e4⟩

/-! ### What goes wrong -/

/-- A state with an ε-transition and transitions that write `1` and `2`. -/
def exMultiEps : Fst Nat := ⟨[⟨none, [⟨7, 0, 1, 0⟩, ⟨7, 1, 1, 0⟩, ⟨7, 2, 1, 0⟩], 0, 1⟩], some 0, Props.of [.oLabelSorted]⟩

/-- C79 fails with two labels: of the transitions with `1` or `2` and the ε-transition only the first comes, since the iterator returns `None` between two labels. -/
theorem C79_multi_eps_list_defect : ∃ m1 m2, (⟨true, false, .empty⟩ : MultiEps).addLabelR 1 = .ok m1 ∧ m1.addLabelR 2 = .ok m2 ∧
    m2.iterR (sortedIterR exMultiEps false 0) NO_LABEL = .ok [.tr ⟨7, 1, 1, 0⟩] ∧
    sortedIterR exMultiEps false 0 2 = .ok [.tr ⟨7, 2, 1, 0⟩] ∧ sortedIterR exMultiEps false 0 NO_LABEL = .ok [.tr ⟨7, 0, 1, 0⟩] :=
  ⟨_, _, rfl, rfl, rfl, rfl, rfl⟩

/-- C79 fails with two labels: the set holds `1` and `2` but `contains` denies `2`, since `insert` keeps the least label as the greatest; so the loop is not given for `2`. -/
theorem C79_multi_eps_contains_defect : ∃ m1 m2, (⟨false, true, .empty⟩ : MultiEps).addLabelR 1 = .ok m1 ∧ m1.addLabelR 2 = .ok m2 ∧ m2.labels.set = [1, 2] ∧
    m2.labels.contains 2 = false ∧ m2.iterR (sortedIterR exMultiEps false 0) 1 = .ok [.epsLoop] ∧
    m2.iterR (sortedIterR exMultiEps false 0) 2 = .ok [.tr ⟨7, 2, 1, 0⟩] :=
  ⟨_, _, rfl, rfl, rfl, rfl, rfl, rfl⟩

end Verif
