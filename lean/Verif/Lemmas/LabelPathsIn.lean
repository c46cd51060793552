import Verif.Lemmas.LabelPaths
import Verif.Lemmas.LabelOpIn

/-!
# The paths of a composition that pushes labels on the input side
-/

namespace Verif
universe u
variable {W : Type u} {FS FS' : Type}

section
variable [CommMonoidWithZero W] [Add W] [DecidableEq W]

/-- The label of a verdict is really pushed. -/
def pushesNowIn (c : LaCfg) (A B : Fst W) (a b : Tr W) : Option (Tr W) :=
  if c.flags.prefixLa then
    match lookData c A B a b with
    | none => none
    | some d =>
      if a.ilabel ≠ EPS then none
      else if b.ilabel ≠ EPS ∧ c.flags.nonEpsPrefix = true then none
      else if d.prefixTr.nextstate = NO_STATE_ID then none
      else some d.prefixTr
  else none

/-- What the verdict is, on the input side. -/
theorem pushLabelTr_eq_in {c : LaCfg} (hout : c.out = false) (A B : Fst W) (fs : FS) (a b : Tr W) (w1 w2 : W) :
    pushLabelTr c (if c.flags.prefixLa then lookData c A B a b else none) fs { a with weight := w1 } { b with weight := w2 } =
      match pushesNowIn c A B a b with
      | none => ((fs, NO_LABEL), { a with weight := w1 }, { b with weight := w2 })
      | some t => ((fs, t.olabel), ⟨t.ilabel, t.olabel, w1 * t.weight, t.nextstate⟩, { b with weight := w2, ilabel := t.olabel }) := by
  unfold pushLabelTr pushesNowIn
  cases c.flags.prefixLa with
  | false => rfl
  | true =>
    simp only [if_true, hout, Bool.false_eq_true, if_false]
    cases lookData c A B a b with
    | none => rfl
    | some d =>
      dsimp only
      by_cases h1 : a.ilabel = EPS
      · by_cases h2 : b.ilabel ≠ EPS ∧ c.flags.nonEpsPrefix = true
        · simp [h1, h2]
        · by_cases h3 : d.prefixTr.nextstate = NO_STATE_ID
          · simp only [h1, ne_eq, not_true_eq_false, if_false, h2, h3, if_true]
          · simp only [h1, ne_eq, not_true_eq_false, if_false, h2, h3]
      · simp [h1]

/-- What makes pushing labels right, for a filter `I` that follows `F`. `Q` holds of the states and labels that can come with a pushed label. -/
structure PushesLabelsIn (c : LaCfg) (A B : Fst W) (F : ComposeFilter FS W) (I : LaFilter FS' W) (ok : FS → Bool → Bool → Bool) (base : FS' → FS) (given : FS' → W)
    (P : CTup FS' → Prop) (Q : StateId → Label → Prop) : Prop where
  out : c.out = false
  /-- any pair of states can come with the start state of the filter -/
  start : ∀ s1 s2, s1 < A.numStates → s2 < B.numStates → P ⟨I.start, s1, s2⟩
  /-- in any state of the filter `set_state` and `filter_final` go through -/
  set : ∀ t, P t → given t.fs = 1 → ∀ s1 s2, s1 < A.numStates → s2 < B.numStates → (∃ flt, I.filter s1 s2 t.fs = .ok flt) ∧ ∀ w1 w2, ∃ v, I.final t.fs w1 w2 = .ok v
  /-- a transition is only pushed if the rest cannot begin otherwise -/
  push : ∀ t, P t → ∀ flt flt', F.filter A B t.s1 t.s2 (base t.fs) = .ok flt → I.filter t.s1 t.s2 t.fs = .ok flt' → ∀ a b, (a, b) ∈ pairsU A B t.s1 t.s2 →
    ∀ fs fs' w1 w2, flt a b = some fs → flt' a b = .ok (some (fs', w1, w2)) → ∀ tr, pushesNowIn c A B a b = some tr →
      b ∈ B.trsOf t.s2 ∧ a = loop1 t.s1 ∧ tr ∈ A.trsOf t.s1 ∧ tr.olabel ≠ EPS ∧ given fs' = 1 ∧ Q b.nextstate tr.olabel ∧
      ∀ n m, nonzero (blocks A B (ok fs) n m t.s1 b.nextstate) = nonzero (joinPaths (begins A tr n) (B.pathsFrom m b.nextstate))
  /-- a pushed label that cannot be read is recognised -/
  label : ∀ s l, s < B.numStates → l ≠ EPS → l ≠ NO_LABEL → Q s l → ∀ b ∈ B.trsOf s, b.ilabel = EPS → Q b.nextstate l ∧
    ∃ r, c.matcher.lookLabelR B true b.nextstate l = .ok r ∧ (r = false → ∀ n, readsIn B l n b.nextstate = 0)

/-- The tuples that can arise. -/
def LabelTupIn (c : LaCfg) (A B : Fst W) (given : FS' → W) (P : CTup FS' → Prop) (Q : StateId → Label → Prop) (t : CTup (FS' × Label)) : Prop :=
  (t.fs.2 = NO_LABEL ∧ P ⟨t.fs.1, t.s1, t.s2⟩) ∨
  (t.fs.2 ≠ NO_LABEL ∧ c.flags.prefixLa = true ∧ t.s1 < A.numStates ∧ t.s2 < B.numStates ∧ t.fs.2 ≠ EPS ∧ Q t.s2 t.fs.2 ∧ (∃ q, q < A.numStates ∧ ∃ tr ∈ A.trsOf q, tr.olabel = t.fs.2) ∧
    ∃ u, P u ∧ u.fs = t.fs.1 ∧ given u.fs = 1)

/-- What becomes of a pair when nothing is pushed yet, with how far it gets in each operand. -/
def plainTagIn (c : LaCfg) (A B : Fst W) (flt : Tr W → Tr W → R (Option (FS' × W × W))) (x : Tr W × Tr W) : Option (MTr (CTup (FS' × Label)) W × Nat × Nat) :=
  match flt x.1 x.2 with
  | .ok (some (fs, w1, w2)) =>
    match pushesNowIn c A B x.1 x.2 with
    | none => some (⟨x.1.ilabel, x.2.olabel, w1 * w2, ⟨(fs, NO_LABEL), x.1.nextstate, x.2.nextstate⟩⟩,
        (if x.1.olabel = NO_LABEL then 0 else 1), (if x.2.ilabel = NO_LABEL then 0 else 1))
    | some t => some (⟨t.ilabel, x.2.olabel, w1 * t.weight * w2, ⟨(fs, t.olabel), t.nextstate, x.2.nextstate⟩⟩, 1, 1)
  | _ => none

/-- Whether an ε of the second FST is kept when the label `fl` is pushed. -/
def keepsEpsIn (c : LaCfg) (B : Fst W) (s2 : StateId) (fl : Label) (b : Tr W) : Bool :=
  decide ((B.trsOf s2).length = 1) || decide (c.matcher.lookLabelR B true b.nextstate fl = .ok true)

/-- What becomes of a transition of the second FST when the label of `fs` is pushed. -/
def pushedTagIn (c : LaCfg) (B : Fst W) (start : FS') (fs : FS' × Label) (s1 s2 : StateId) (a : Tr W) : Option (MTr (CTup (FS' × Label)) W × Nat × Nat) :=
  if a.ilabel = fs.2 then some (⟨EPS, a.olabel, 1 * a.weight, ⟨(start, NO_LABEL), s1, a.nextstate⟩⟩, 0, 1)
  else if a.ilabel = EPS ∧ keepsEpsIn c B s2 fs.2 a = true then some (⟨EPS, a.olabel, 1 * a.weight, ⟨fs, s1, a.nextstate⟩⟩, 0, 1)
  else none

/-- The transitions of a tuple. -/
def labelTagIn (c : LaCfg) (A B : Fst W) (I : LaFilter FS' W) (t : CTup (FS' × Label)) : Multiset (MTr (CTup (FS' × Label)) W × Nat × Nat) :=
  if t.fs.2 = NO_LABEL then
    match I.filter t.s1 t.s2 t.fs.1 with
    | .error _ => 0
    | .ok flt => (pairsU A B t.s1 t.s2).filterMap (plainTagIn c A B flt)
  else (B.trsOf t.s2 : Multiset (Tr W)).filterMap (pushedTagIn c B I.start t.fs t.s1 t.s2)

section
variable {c : LaCfg} {A B : Fst W} {I : LaFilter FS' W}

theorem labelTagIn_spec (hj : Joinable A B) (t : CTup (FS' × Label)) : ∀ x ∈ labelTagIn c A B I t, (x.2.1 ≤ 1 ∧ x.2.2 ≤ 1) ∧ 1 ≤ x.2.1 + x.2.2 := by
  intro x hx
  unfold labelTagIn at hx
  split at hx
  · split at hx
    · simp at hx
    · rename_i flt _
      obtain ⟨p, hp, hq⟩ := (Multiset.mem_filterMap _ _).1 hx
      unfold plainTagIn at hq
      split at hq
      · split at hq
        · rw [Option.some.injEq] at hq
          subst hq
          dsimp only
          refine ⟨⟨?_, ?_⟩, ?_⟩
          · split <;> omega
          · split <;> omega
          · rcases mem_pairsU hp with ⟨_, h2⟩ | ⟨h1, _⟩ | ⟨h1, _⟩
            · rw [if_neg (hj.noLabel2 _ _ h2)]; omega
            · rw [if_neg (hj.noLabel1 _ _ h1)]; omega
            · rw [if_neg (hj.noLabel1 _ _ h1)]; omega
        · rw [Option.some.injEq] at hq; subst hq; dsimp only; omega
      · cases hq
  · obtain ⟨p, hp, hq⟩ := (Multiset.mem_filterMap _ _).1 hx
    unfold pushedTagIn at hq
    split at hq
    · rw [Option.some.injEq] at hq; subst hq; dsimp only; omega
    · split at hq
      · rw [Option.some.injEq] at hq; subst hq; dsimp only; omega
      · cases hq

end

section
variable {c : LaCfg} {A B : Fst W} {F : ComposeFilter FS W} {I : LaFilter FS' W} {ok : FS → Bool → Bool → Bool} {Valid : FS → Prop} {base : FS' → FS} {given : FS' → W}
  {P : CTup FS' → Prop} {Q : StateId → Label → Prop} (hj : Joinable A B) (hF : FilterLaw A B F ok Valid) (hG : Follows A B F I ok Valid base given P) (hL : PushesLabelsIn c A B F I ok base given P Q)

include hj hG hL

/-- Setting the filter to a tuple. -/
theorem PushesLabelsIn.state {t : CTup (FS' × Label)} (ht : LabelTupIn c A B given P Q t) : t.s1 < A.numStates ∧ t.s2 < B.numStates ∧
    ∃ flt st, I.filter t.s1 t.s2 t.fs.1 = .ok flt ∧ labelSetState c A B I t.s1 t.s2 t.fs = .ok st ∧
      ((t.fs.2 = NO_LABEL ∧ st.m1.labels = .empty ∧ st.m2.labels = .empty ∧ ∃ n, st.filter = labelFilterTr c A B I.start n t.fs flt) ∨
       (t.fs.2 ≠ NO_LABEL ∧ st = ⟨labelFilterTr c A B I.start (B.trsOf t.s2).length t.fs flt, ⟨false, true, LabelSet.empty.insert t.fs.2⟩, ⟨true, false, LabelSet.empty.insert t.fs.2⟩⟩)) := by
  have hn : t.s2 < B.numStates → B.numTrsR t.s2 = .ok (B.trsOf t.s2).length := by
    intro h1
    have : B.states[t.s2]? = some B.states[t.s2] := List.getElem?_eq_getElem h1
    simp [Fst.numTrsR, Fst.trsOf, this]
  rcases ht with ⟨e, hP⟩ | ⟨e, hp, h1, h2, h0, -, -, u, hu, eu, hg⟩
  · obtain ⟨h1, h2, -⟩ := hG.lt _ hP
    obtain ⟨flt, hf, -⟩ := hG.pairs_ok hP
    dsimp only at h1 h2 hf
    refine ⟨h1, h2, flt, ?_⟩
    cases hp : c.flags.prefixLa with
    | false => exact ⟨⟨labelFilterTr c A B I.start 0 t.fs flt, ⟨c.out, !c.out, .empty⟩, ⟨!c.out, c.out, .empty⟩⟩, hf, by simp only [labelSetState, hf, hp, Bool.false_eq_true, if_false], .inl ⟨e, rfl, rfl, 0, rfl⟩⟩
    | true => exact ⟨⟨labelFilterTr c A B I.start (B.trsOf t.s2).length t.fs flt, ⟨false, !false, .empty⟩, ⟨!false, false, .empty⟩⟩, hf, by simp only [labelSetState, hf, hp, if_true, hL.out, Bool.false_eq_true, if_false, hn h2, e], .inl ⟨e, rfl, rfl, _, rfl⟩⟩
  · obtain ⟨⟨flt, hf⟩, -⟩ := hL.set u hu hg _ _ h1 h2
    rw [eu] at hf
    refine ⟨h1, h2, flt, _, hf, ?_, .inr ⟨e, rfl⟩⟩
    simp only [labelSetState, hf, hp, if_true, hL.out, Bool.false_eq_true, if_false, hn h2, if_neg e, MultiEps.addLabelR, if_neg h0, Bool.not_false]

/-- The transitions the operation computes. -/
theorem PushesLabelsIn.trs {mt : MatchT} (hc : Composable A B mt) {t : CTup (FS' × Label)} (ht : LabelTupIn c A B given P Q t) :
    ∃ l, composeTrsP c A B I mt t = .ok l ∧ (l : Multiset _) = (labelTagIn c A B I t).map (·.1) := by
  obtain ⟨h1, h2, flt, st, hf, hst, hh⟩ := hL.state hj hG ht
  unfold composeTrsP
  rw [hst]
  dsimp only
  rcases hh with ⟨e, m1, m2, n, hfl⟩ | ⟨e, rfl⟩
  · have hP : P ⟨t.fs.1, t.s1, t.s2⟩ := by
      rcases ht with ⟨-, h⟩ | ⟨h, -⟩
      · exact h
      · exact absurd e h
    obtain ⟨flt', hf', hok⟩ := hG.pairs_ok hP
    dsimp only at hf' hok
    rw [hf] at hf'
    injection hf' with hf'
    subst hf'
    have hpair : ∀ x : Tr W × Tr W, pairP st.filter x = (plainTagIn c A B flt x).map (·.1) := by
      intro x
      rw [hfl]
      simp only [pairP, labelFilterTr, e, ne_eq, not_true_eq_false, and_false, if_false, plainTagIn]
      cases hx : flt x.1 x.2 with
      | error _ => rfl
      | ok r =>
        rcases r with _ | ⟨fs, w1, w2⟩
        · rfl
        · simp only [pushLabelTr_eq_in hL.out]
          cases pushesNowIn c A B x.1 x.2 <;> rfl
    obtain ⟨l, hl, hl'⟩ := expandP_plain (flt := st.filter) (m1 := st.m1) (m2 := st.m2) hc h1 h2 m1 m2 (fun x hx => by
      obtain ⟨r, hr⟩ := hok x hx
      rw [hfl]
      simp only [labelFilterTr, e, ne_eq, not_true_eq_false, and_false, if_false, hr]
      rcases r with _ | ⟨fs, w1, w2⟩
      · exact ⟨_, rfl⟩
      · exact ⟨_, rfl⟩)
    refine ⟨l, hl, hl'.trans ?_⟩
    unfold labelTagIn
    rw [if_pos e, hf]
    dsimp only
    rw [Multiset.map_filterMap]
    congr 1
    funext x
    exact hpair x
  · rcases ht with ⟨e', -⟩ | ⟨-, hp, -, -, h0, hQ, -⟩
    · exact absurd e' e
    have hflt : labelFilterTr c A B I.start (B.trsOf t.s2).length t.fs flt = pushedLabelTr c A B I.start (B.trsOf t.s2).length t.fs.1 t.fs.2 := by
      funext a b; simp only [labelFilterTr, hp, true_and, ne_eq, e, not_false_eq_true, if_true]
    rw [hflt]
    have hrej : ∀ a b : Tr W, a.olabel ≠ NO_LABEL → pushedLabelTr c A B I.start (B.trsOf t.s2).length t.fs.1 t.fs.2 a b = .ok none := by
      intro a b hb; simp only [pushedLabelTr, hL.out, Bool.false_eq_true, if_false, if_true, ne_eq, hb, not_false_eq_true]
    have hb0 : (loop1 t.s1 : Tr W).olabel = NO_LABEL := rfl
    obtain ⟨l, hl, hl'⟩ := expandP_pushed_in (flt := pushedLabelTr c A B I.start (B.trsOf t.s2).length t.fs.1 t.fs.2) hc h1 h2 h0 e hrej
      (fun a ha hb => by simp only [pushedLabelTr, hL.out, Bool.false_eq_true, if_false, if_true, hb0, ne_eq, not_true_eq_false, if_false, ha, hb])
      (fun a ha => by
        simp only [pushedLabelTr, hL.out, Bool.false_eq_true, if_false, if_true, hb0, ne_eq, not_true_eq_false, if_false]
        by_cases e1 : a.ilabel = t.fs.2
        · exact ⟨_, by rw [if_pos e1]⟩
        · by_cases e2 : a.ilabel = EPS
          · obtain ⟨-, b, hb, -⟩ := hL.label _ _ h2 h0 e hQ a ha e2
            simp only [hb]
            by_cases e3 : (B.trsOf t.s2).length = 1
            · exact ⟨_, by rw [if_neg e1, if_pos e2, if_pos e3]⟩
            · cases b <;> exact ⟨_, by rw [if_neg e1, if_pos e2, if_neg e3]⟩
          · exact ⟨_, by rw [if_neg e1, if_neg e2]⟩)
    refine ⟨l, hl, hl'.trans ?_⟩
    unfold labelTagIn
    rw [if_neg e, Multiset.map_filterMap]
    rw [Multiset.filterMap_coe, Multiset.filterMap_coe]
    refine congrArg _ (List.filterMap_congr fun a ha => ?_)
    simp only [pairP, pushedLabelTr, hL.out, Bool.false_eq_true, if_false, if_true, hb0, ne_eq, not_true_eq_false, if_false, pushedTagIn, Function.comp_apply, keepsEpsIn]
    by_cases e1 : a.ilabel = t.fs.2
    · simp only [if_pos e1]; rfl
    · by_cases e2 : a.ilabel = EPS
      · obtain ⟨-, b, hb, -⟩ := hL.label _ _ h2 h0 e hQ a ha e2
        simp only [hb]
        have hn0 : ¬ (0 = t.fs.2) := Ne.symm h0
        by_cases e3 : (B.trsOf t.s2).length = 1
        · simp only [e2, if_neg hn0, e3, decide_true, Bool.true_or, and_self, if_true]; rfl
        · cases b
          · simp [e2, hn0, e3]
          · simp only [e2, if_neg hn0, if_neg e3, e3, decide_false, decide_true, Bool.false_or, and_self, if_true]; rfl
      · simp only [if_neg e1, if_neg e2, e2, false_and, if_false]; rfl

/-- The final weight the operation computes. -/
theorem PushesLabelsIn.fin {t : CTup (FS' × Label)} (ht : LabelTupIn c A B given P Q t) : composeFinP c A B I t = .ok (labelFinOf c A B I t) ∧
    (t.fs.2 = NO_LABEL → labelFinOf c A B I t = laFinOf A B I ⟨t.fs.1, t.s1, t.s2⟩) ∧ (t.fs.2 ≠ NO_LABEL → labelFinOf c A B I t = none) := by
  obtain ⟨h1, h2, flt, st, hf, hst, -⟩ := hL.state hj hG ht
  have g1 : A.finalWeightR t.s1 = .ok (A.finOf t.s1) := by
    have : A.states[t.s1]? = some A.states[t.s1] := List.getElem?_eq_getElem h1
    simp [Fst.finalWeightR, Fst.finOf, this]
  have g2 : B.finalWeightR t.s2 = .ok (B.finOf t.s2) := by
    have : B.states[t.s2]? = some B.states[t.s2] := List.getElem?_eq_getElem h2
    simp [Fst.finalWeightR, Fst.finOf, this]
  have hfin : ∀ w1 w2, A.finOf t.s1 = some w1 → B.finOf t.s2 = some w2 → ∃ v, I.final t.fs.1 w1 w2 = .ok v := by
    intro w1 w2 e1 e2
    rcases ht with ⟨-, hP⟩ | ⟨-, -, -, -, -, -, -, u, hu, eu, hg⟩
    · obtain ⟨v1, v2, hv, -⟩ := hG.final _ hP w1 w2 e1 e2
      exact ⟨_, hv⟩
    · rw [← eu]; exact (hL.set u hu hg _ _ h1 h2).2 w1 w2
  have hp : t.fs.2 ≠ NO_LABEL → c.flags.prefixLa = true := by
    intro e
    rcases ht with ⟨e', -⟩ | ⟨-, hp, -⟩
    · exact absurd e' e
    · exact hp
  unfold labelFinOf laFinOf composeFinP composeFinL
  rw [g1, g2, hst, hf]
  dsimp only
  cases e1 : A.finOf t.s1 with
  | none => exact ⟨rfl, fun _ => rfl, fun _ => rfl⟩
  | some w1 =>
    cases e2 : B.finOf t.s2 with
    | none => exact ⟨rfl, fun _ => rfl, fun _ => rfl⟩
    | some w2 =>
      obtain ⟨⟨v1, v2⟩, hv⟩ := hfin w1 w2 e1 e2
      simp only [labelFinal, hv, true_and]
      refine ⟨fun e => by simp [e], fun e => ?_⟩
      by_cases hz : v1 = 0
      · simp [hz]
      · simp [hp e, hz, e]

theorem PushesLabelsIn.tag_next {t : CTup (FS' × Label)} (ht : LabelTupIn c A B given P Q t) : ∀ x ∈ labelTagIn c A B I t, LabelTupIn c A B given P Q x.1.next := by
  intro x hx
  have hst := hL.state hj hG ht
  unfold labelTagIn at hx
  rcases ht with ⟨e, hP⟩ | ⟨e, hp, h1, h2, h0, hQ, hq, u, hu⟩
  · obtain ⟨flt0, flt', hf0, hf', hs⟩ := hG.step _ hP
    dsimp only at hf0 hf'
    rw [if_pos e, hf'] at hx
    obtain ⟨p, hp, hq⟩ := (Multiset.mem_filterMap _ _).1 hx
    obtain ⟨g1, g2⟩ := hs p.1 p.2 hp
    unfold plainTagIn at hq
    cases hfl : flt' p.1 p.2 with
    | error _ => rw [hfl] at hq; cases hq
    | ok r =>
      rw [hfl] at hq
      rcases r with _ | ⟨fs', w1, w2⟩
      · cases hq
      cases hflt : flt0 p.1 p.2 with
      | none => rw [g1 hflt] at hfl; cases hfl
      | some fs =>
        rcases g2 fs hflt with ⟨hnone, -⟩ | ⟨fs'', v1, v2, hsome, hb, hw, hP'⟩
        · rw [hnone] at hfl; cases hfl
        rw [hsome] at hfl
        simp only [Except.ok.injEq, Option.some.injEq, Prod.mk.injEq] at hfl
        obtain ⟨rfl, rfl, rfl⟩ := hfl
        dsimp only at hq
        cases hpn : pushesNowIn c A B p.1 p.2 with
        | none =>
          rw [hpn] at hq
          simp only [Option.some.injEq] at hq
          subst hq
          exact .inl ⟨rfl, hP'⟩
        | some tr =>
          rw [hpn] at hq
          simp only [Option.some.injEq] at hq
          subst hq
          obtain ⟨k1, k2, k3, k4, k5, kQ, -⟩ := hL.push _ hP flt0 flt' hf0 hf' p.1 p.2 hp fs fs'' v1 v2 hflt hsome tr hpn
          dsimp only at k1 k2 k3
          refine .inr ⟨hj.noLabel1 _ _ k3, ?_, hj.wf1.next_lt _ _ k3, hj.wf2.next_lt _ _ k1, k4, kQ, ⟨_, hst.1, tr, k3, rfl⟩, ⟨fs'', _, _⟩, hP', rfl, k5⟩
          by_contra hpre
          simp [pushesNowIn, hpre] at hpn
  · rw [if_neg e] at hx
    obtain ⟨a, ha, hq'⟩ := (Multiset.mem_filterMap _ _).1 hx
    have ha := Multiset.mem_coe.1 ha
    unfold pushedTagIn at hq'
    split at hq'
    · rw [Option.some.injEq] at hq'
      subst hq'
      exact .inl ⟨rfl, hL.start _ _ h1 (hj.wf2.next_lt _ _ ha)⟩
    · split at hq'
      · rename_i hk
        rw [Option.some.injEq] at hq'
        subst hq'
        exact .inr ⟨e, hp, h1, hj.wf2.next_lt _ _ ha, h0, (hL.label _ _ h2 h0 e hQ a ha hk.1).1, hq, u, hu⟩
      · cases hq'

include hF

/-- With the weight already given, the paths from a tuple without a pushed label are those the filter `F` would leave; the paths from a tuple with a pushed
label are those that read it first. -/
theorem PushesLabelsIn.graded : ∀ k n m : Nat, n + m = k → ∀ t : CTup (FS' × Label), LabelTupIn c A B given P Q t →
    (t.fs.2 = NO_LABEL → nonzero ((gradedAll (labelFinOf c A B I) (labelTagIn c A B I) n m t).map (scalePath (given t.fs.1))) =
      nonzero (gradedAll (composeFinOf A B) (composeTag A B F) n m ⟨base t.fs.1, t.s1, t.s2⟩)) ∧
    (t.fs.2 ≠ NO_LABEL → nonzero (gradedAll (labelFinOf c A B I) (labelTagIn c A B I) n m t) =
      nonzero (joinPaths (A.pathsFrom n t.s1) (readsIn B t.fs.2 m t.s2))) := by
  intro k
  induction k using Nat.strong_induction_on with
  | _ k ih =>
  rintro n m rfl t ht
  have hlt := hL.state hj hG ht
  have hnx := hL.tag_next hj hG ht
  have hfin := hL.fin hj hG ht
  refine ⟨fun e => ?_, fun e => ?_⟩
  · have hP : P ⟨t.fs.1, t.s1, t.s2⟩ := by
      rcases ht with ⟨-, h⟩ | ⟨h, -⟩
      · exact h
      · exact absurd e h
    obtain ⟨flt, flt', hf, hf', hx⟩ := hG.step _ hP
    have hltP := hG.lt _ hP
    dsimp only at hf hf' hx hltP
    rw [gradedAll_rec (fun t x hx => (labelTagIn_spec hj t x hx).2), gradedAll_rec (tag_pos hj), Multiset.map_add]
    refine nz_add ?_ ?_
    · by_cases h0 : n = 0 ∧ m = 0
      · rw [if_pos h0, if_pos h0, hfin.2.1 e]; exact (hG.fin hP).2
      · rw [if_neg h0, if_neg h0]; rfl
    · have hnext := Verif.tag_next hF hj hltP
      have eT : composeTag A B F ⟨base t.fs.1, t.s1, t.s2⟩ = (pairsU A B t.s1 t.s2).filterMap fun x => (flt x.1 x.2).map fun fs =>
          (addTr x.1 x.2 fs, (if x.1.olabel = NO_LABEL then 0 else 1), (if x.2.ilabel = NO_LABEL then 0 else 1)) := by
        unfold composeTag; dsimp only at hf ⊢; rw [hf]
      have eT' : labelTagIn c A B I t = (pairsU A B t.s1 t.s2).filterMap (plainTagIn c A B flt') := by
        unfold labelTagIn; rw [if_pos e, hf']
      have hpos := tag_pos (F := F) hj ⟨base t.fs.1, t.s1, t.s2⟩
      rw [eT] at hnext hpos
      rw [eT'] at hnx
      rw [eT, eT', bind_filterMap, bind_filterMap, Multiset.map_bind]
      refine nz_bindM _ fun x hmem => ?_
      obtain ⟨hx1, hx2⟩ := hx x.1 x.2 hmem
      cases hflt : flt x.1 x.2 with
      | none => simp [plainTagIn, hx1 hflt]
      | some fs =>
        have hin := (Multiset.mem_filterMap (fun x : Tr W × Tr W => (flt x.1 x.2).map fun fs => (addTr x.1 x.2 fs, (if x.1.olabel = NO_LABEL then 0 else 1), (if x.2.ilabel = NO_LABEL then 0 else 1))) (pairsU A B t.s1 t.s2) (b := (addTr x.1 x.2 fs, (if x.1.olabel = NO_LABEL then 0 else 1), (if x.2.ilabel = NO_LABEL then 0 else 1)))).2 ⟨x, hmem, by rw [hflt]; rfl⟩
        have hok := hnext _ hin
        have hp := hpos _ hin
        simp only [Option.map_some, Option.elim_some]
        dsimp only at hp hok
        rcases hx2 fs hflt with ⟨hnone, hdead⟩ | ⟨fs', w1, w2, hsome, hb, hw, hP'⟩
        · generalize (if x.1.olabel = NO_LABEL then 0 else 1) = i at hp ⊢
          generalize (if x.2.ilabel = NO_LABEL then 0 else 1) = j at hp ⊢
          have e : plainTagIn c A B flt' x = none := by simp [plainTagIn, hnone]
          rw [e]
          simp only [Option.elim_none, Multiset.map_zero]
          split
          · rename_i hc
            have : nonzero (gradedAll (composeFinOf A B) (composeTag A B F) (n - i) (m - j) (addTr x.1 x.2 fs).next) = nonzero 0 := by
              rw [compose_blocks hj hF _ _ _ rfl _ hok]
              exact hdead _ _
            exact (nz_map this _).symm
          · rfl
        · cases hpn : pushesNowIn c A B x.1 x.2 with
          | none =>
            have e1 : plainTagIn c A B flt' x = some (⟨x.1.ilabel, x.2.olabel, w1 * w2, ⟨(fs', NO_LABEL), x.1.nextstate, x.2.nextstate⟩⟩,
              (if x.1.olabel = NO_LABEL then 0 else 1), (if x.2.ilabel = NO_LABEL then 0 else 1)) := by simp only [plainTagIn, hsome, hpn]
            rw [e1]
            simp only [Option.elim_some]
            generalize (if x.1.olabel = NO_LABEL then 0 else 1) = i at hp ⊢
            generalize (if x.2.ilabel = NO_LABEL then 0 else 1) = j at hp ⊢
            split
            · rename_i hc
              rw [Multiset.map_map]
              have := nz_map ((ih _ (show n - i + (m - j) < n + m by omega) _ _ rfl ⟨(fs', NO_LABEL), x.1.nextstate, x.2.nextstate⟩ (.inl ⟨rfl, hP'⟩)).1 rfl) (addTr x.1 x.2 fs).asPath
              rw [Multiset.map_map] at this
              refine Eq.trans ?_ (this.trans ?_)
              · congr 1
                refine Multiset.map_congr rfl fun p _ => ?_
                simp only [Function.comp_apply, scalePath, MTr.asPath, addTr, PathT.cat]
                rw [← mul_assoc, hw, mul_assoc]
              · dsimp only; rw [hb]; rfl
            · rfl
          | some tr =>
            obtain ⟨k1, k2, k3, k4, k5, -, k6⟩ := hL.push _ hP flt flt' hf hf' x.1 x.2 hmem fs fs' w1 w2 hflt hsome tr hpn
            dsimp only at k1 k2 k3 k6
            have e1 : plainTagIn c A B flt' x = some (⟨tr.ilabel, x.2.olabel, w1 * tr.weight * w2, ⟨(fs', tr.olabel), tr.nextstate, x.2.nextstate⟩⟩, 1, 1) := by
              simp only [plainTagIn, hsome, hpn]
            have hT := hnx _ ((Multiset.mem_filterMap _ _).2 ⟨x, hmem, e1⟩)
            rw [e1]
            simp only [Option.elim_some]
            dsimp only at hT
            have i1 : x.1.olabel = NO_LABEL := by rw [k2]; rfl
            have i2 : x.2.ilabel ≠ NO_LABEL := hj.noLabel2 _ _ k1
            rw [if_pos i1, if_neg i2]
            have hk := compose_blocks hj hF _ n (m - 1) rfl _ hok
            have hnx2 : (addTr x.1 x.2 fs).next = (⟨fs, t.s1, x.2.nextstate⟩ : CTup FS) := by rw [k2]; rfl
            rw [hnx2] at hk
            dsimp only at hk
            rw [k6] at hk
            simp only [Nat.sub_zero, Nat.zero_le, true_and]
            cases n with
            | zero =>
              rw [if_neg (by omega)]
              split
              · have h0 : nonzero (gradedAll (composeFinOf A B) (composeTag A B F) 0 (m - 1) (addTr x.1 x.2 fs).next) = nonzero 0 := by
                  rw [hnx2, hk]; simp [begins]
                exact (nz_map h0 _).symm
              · rfl
            | succ n =>
              by_cases hm : 1 ≤ m
              · rw [if_pos ⟨by omega, hm⟩, if_pos hm]
                rw [join_begins_in k4] at hk
                have hi := (ih _ (show n + (m - 1) < n + 1 + m by omega) _ _ rfl ⟨(fs', tr.olabel), tr.nextstate, x.2.nextstate⟩ hT).2 (hj.noLabel1 _ _ k3)
                dsimp only at hi
                have h2 := nz_map (nz_map hi (strip tr.ilabel, [], tr.weight)) (addTr x.1 x.2 fs).asPath
                have h3 := nz_map hk (addTr x.1 x.2 fs).asPath
                rw [hnx2, h3, ← h2, Multiset.map_map, Multiset.map_map]
                have e2 : n + 1 - 1 = n := by omega
                rw [e2]
                congr 1
                refine Multiset.map_congr rfl fun p _ => ?_
                have ew : given t.fs.1 * (w1 * w2) = x.1.weight * x.2.weight := by rw [hw, k5, mul_one]
                have eo : x.1.ilabel = EPS := by rw [k2]; rfl
                simp only [Function.comp_apply, scalePath, MTr.asPath, addTr, PathT.cat, eo, List.nil_append]
                have : given t.fs.1 * (w1 * tr.weight * w2 * p.2.2) = x.1.weight * x.2.weight * (tr.weight * p.2.2) := by
                  rw [← ew]; simp only [mul_assoc, mul_left_comm w2]
                rw [this]
                simp [strip]
              · rw [if_neg (by omega), if_neg hm]; rfl
  · have hh := ht
    rcases hh with ⟨e', -⟩ | ⟨-, hpre, h1, h2, h0, hQ, -⟩
    · exact absurd e' e
    rw [gradedAll_rec (fun t x hx => (labelTagIn_spec hj t x hx).2), hfin.2.2 e]
    have ez : (if n = 0 ∧ m = 0 then finPath (none : Option W) else 0) = 0 := by split <;> rfl
    have eT : labelTagIn c A B I t = (B.trsOf t.s2 : Multiset (Tr W)).filterMap (pushedTagIn c B I.start t.fs t.s1 t.s2) := by
      unfold labelTagIn; rw [if_neg e]
    rw [eT] at hnx
    rw [ez, zero_add, eT, bind_filterMap]
    cases m with
    | zero =>
      simp only [readsIn, join_zero_right]
      refine congrArg _ (bind_eq_zero_of _ _ fun a _ => ?_)
      cases hq : pushedTagIn c B I.start t.fs t.s1 t.s2 a with
      | none => rfl
      | some y =>
        have : y.2.2 = 1 := by
          unfold pushedTagIn at hq
          split at hq
          · rw [Option.some.injEq] at hq; subst hq; rfl
          · split at hq
            · rw [Option.some.injEq] at hq; subst hq; rfl
            · cases hq
        simp [this]
    | succ m =>
      rw [readsIn_succ, join_bind_right]
      refine nz_bindM _ fun a ha => ?_
      have ha' := Multiset.mem_coe.1 ha
      by_cases e1 : a.ilabel = t.fs.2
      · have hq : pushedTagIn c B I.start t.fs t.s1 t.s2 a = some (⟨EPS, a.olabel, 1 * a.weight, ⟨(I.start, NO_LABEL), t.s1, a.nextstate⟩⟩, 0, 1) := by
          unfold pushedTagIn; rw [if_pos e1]
        rw [hq, if_pos e1, join_map_right]
        simp only [Option.elim_some]
        rw [if_pos ⟨by omega, by omega⟩]
        have hn := hnx _ ((Multiset.mem_filterMap _ _).2 ⟨a, ha, hq⟩)
        dsimp only at hn
        have hPs := hL.start _ _ h1 (hj.wf2.next_lt _ _ ha')
        have hl := hG.lt _ hPs
        dsimp only at hl
        have hi := (ih _ (show n - 0 + (m + 1 - 1) < n + (m + 1) by omega) _ _ rfl _ hn).1 rfl
        dsimp only at hi
        have eid : (scalePath (1 : W)) = id := by funext p; simp [scalePath]
        rw [hG.start.2.1, eid, Multiset.map_id, compose_blocks hj hF _ _ _ rfl _ hl] at hi
        dsimp only at hi
        rw [hG.start.1, blocks_all hF.start.2] at hi
        have := nz_map hi ([], strip a.olabel, a.weight)
        simp only [Nat.add_sub_cancel, Nat.sub_zero] at this ⊢
        rw [← this]
        simp [MTr.asPath, strip]
      · rw [if_neg e1]
        by_cases e2 : a.ilabel = EPS
        · rw [if_pos e2, join_map_right]
          by_cases e3 : keepsEpsIn c B t.s2 t.fs.2 a = true
          · have hq : pushedTagIn c B I.start t.fs t.s1 t.s2 a = some (⟨EPS, a.olabel, 1 * a.weight, ⟨t.fs, t.s1, a.nextstate⟩⟩, 0, 1) := by
              unfold pushedTagIn; rw [if_neg e1, if_pos ⟨e2, e3⟩]
            rw [hq]
            simp only [Option.elim_some]
            rw [if_pos ⟨by omega, by omega⟩]
            have hn := hnx _ ((Multiset.mem_filterMap _ _).2 ⟨a, ha, hq⟩)
            dsimp only at hn
            have hi := (ih _ (show n - 0 + (m + 1 - 1) < n + (m + 1) by omega) _ _ rfl _ hn).2 e
            dsimp only at hi
            have := nz_map hi ([], strip a.olabel, a.weight)
            simp only [Nat.add_sub_cancel, Nat.sub_zero] at this ⊢
            rw [← this]
            simp [MTr.asPath, strip]
          · have hq : pushedTagIn c B I.start t.fs t.s1 t.s2 a = none := by
              unfold pushedTagIn; rw [if_neg e1, if_neg (fun h => e3 h.2)]
            obtain ⟨-, b, hb, hb'⟩ := hL.label _ _ h2 h0 e hQ a ha' e2
            have hbf : b = false := by
              cases b
              · rfl
              · exact absurd (by simp [keepsEpsIn, hb]) e3
            rw [hq, hb' hbf]
            simp
        · have hq : pushedTagIn c B I.start t.fs t.s1 t.s2 a = none := by
            unfold pushedTagIn; rw [if_neg e1, if_neg (fun h => e2 h.1)]
          rw [hq, if_neg e2]
          simp

end
end
end Verif
