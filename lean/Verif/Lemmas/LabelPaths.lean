import Verif.Lemmas.LabelOp

/-!
# The paths of a composition that pushes labels on the output side
-/

namespace Verif
universe u
variable {W : Type u} {FS FS' : Type}

section
variable [CommMonoidWithZero W] [Add W] [DecidableEq W]

/-- The label of a verdict is really pushed. -/
def pushesNow (c : LaCfg) (A B : Fst W) (a b : Tr W) : Option (Tr W) :=
  if c.flags.prefixLa then
    match lookData c A B a b with
    | none => none
    | some d =>
      if b.olabel ≠ EPS then none
      else if a.olabel ≠ EPS ∧ c.flags.nonEpsPrefix = true then none
      else if d.prefixTr.nextstate = NO_STATE_ID then none
      else some d.prefixTr
  else none

/-- What the verdict is, on the output side. -/
theorem pushLabelTr_eq {c : LaCfg} (hout : c.out = true) (A B : Fst W) (fs : FS) (a b : Tr W) (w1 w2 : W) :
    pushLabelTr c (if c.flags.prefixLa then lookData c A B a b else none) fs { a with weight := w1 } { b with weight := w2 } =
      match pushesNow c A B a b with
      | none => ((fs, NO_LABEL), { a with weight := w1 }, { b with weight := w2 })
      | some t => ((fs, t.ilabel), { a with weight := w1, olabel := t.ilabel }, ⟨t.ilabel, t.olabel, w2 * t.weight, t.nextstate⟩) := by
  unfold pushLabelTr pushesNow
  cases c.flags.prefixLa with
  | false => rfl
  | true =>
    simp only [if_true, hout]
    cases lookData c A B a b with
    | none => rfl
    | some d =>
      dsimp only
      by_cases h1 : b.olabel = EPS
      · by_cases h2 : a.olabel ≠ EPS ∧ c.flags.nonEpsPrefix = true
        · simp [h1, h2]
        · by_cases h3 : d.prefixTr.nextstate = NO_STATE_ID
          · simp only [h1, ne_eq, not_true_eq_false, if_false, h2, h3, if_true]
          · simp only [h1, ne_eq, not_true_eq_false, if_false, h2, h3]
      · simp [h1]

/-- What makes pushing labels right, for a filter `I` that follows `F`. `Q` holds of the states and labels that can come with a pushed label. -/
structure PushesLabels (c : LaCfg) (A B : Fst W) (F : ComposeFilter FS W) (I : LaFilter FS' W) (ok : FS → Bool → Bool → Bool) (base : FS' → FS) (given : FS' → W)
    (P : CTup FS' → Prop) (Q : StateId → Label → Prop) : Prop where
  out : c.out = true
  /-- any pair of states can come with the start state of the filter -/
  start : ∀ s1 s2, s1 < A.numStates → s2 < B.numStates → P ⟨I.start, s1, s2⟩
  /-- in any state of the filter `set_state` and `filter_final` go through -/
  set : ∀ t, P t → given t.fs = 1 → ∀ s1 s2, s1 < A.numStates → s2 < B.numStates → (∃ flt, I.filter s1 s2 t.fs = .ok flt) ∧ ∀ w1 w2, ∃ v, I.final t.fs w1 w2 = .ok v
  /-- a transition is only pushed if the rest cannot begin otherwise -/
  push : ∀ t, P t → ∀ flt flt', F.filter A B t.s1 t.s2 (base t.fs) = .ok flt → I.filter t.s1 t.s2 t.fs = .ok flt' → ∀ a b, (a, b) ∈ pairsU A B t.s1 t.s2 →
    ∀ fs fs' w1 w2, flt a b = some fs → flt' a b = .ok (some (fs', w1, w2)) → ∀ tr, pushesNow c A B a b = some tr →
      a ∈ A.trsOf t.s1 ∧ b = loop2 t.s2 ∧ tr ∈ B.trsOf t.s2 ∧ tr.ilabel ≠ EPS ∧ given fs' = 1 ∧ Q a.nextstate tr.ilabel ∧
      ∀ n m, nonzero (blocks A B (ok fs) n m a.nextstate t.s2) = nonzero (joinPaths (A.pathsFrom n a.nextstate) (begins B tr m))
  /-- a pushed label that cannot be read is recognised -/
  label : ∀ s l, s < A.numStates → l ≠ EPS → l ≠ NO_LABEL → Q s l → ∀ a ∈ A.trsOf s, a.olabel = EPS → Q a.nextstate l ∧
    ∃ b, c.matcher.lookLabelR A false a.nextstate l = .ok b ∧ (b = false → ∀ n, readsP A l n a.nextstate = 0)

/-- The tuples that can arise. -/
def LabelTup (c : LaCfg) (A B : Fst W) (given : FS' → W) (P : CTup FS' → Prop) (Q : StateId → Label → Prop) (t : CTup (FS' × Label)) : Prop :=
  (t.fs.2 = NO_LABEL ∧ P ⟨t.fs.1, t.s1, t.s2⟩) ∨
  (t.fs.2 ≠ NO_LABEL ∧ c.flags.prefixLa = true ∧ t.s1 < A.numStates ∧ t.s2 < B.numStates ∧ t.fs.2 ≠ EPS ∧ Q t.s1 t.fs.2 ∧ (∃ q, q < B.numStates ∧ ∃ tr ∈ B.trsOf q, tr.ilabel = t.fs.2) ∧
    ∃ u, P u ∧ u.fs = t.fs.1 ∧ given u.fs = 1)

/-- What becomes of a pair when nothing is pushed yet, with how far it gets in each operand. -/
def plainTag (c : LaCfg) (A B : Fst W) (flt : Tr W → Tr W → R (Option (FS' × W × W))) (x : Tr W × Tr W) : Option (MTr (CTup (FS' × Label)) W × Nat × Nat) :=
  match flt x.1 x.2 with
  | .ok (some (fs, w1, w2)) =>
    match pushesNow c A B x.1 x.2 with
    | none => some (⟨x.1.ilabel, x.2.olabel, w1 * w2, ⟨(fs, NO_LABEL), x.1.nextstate, x.2.nextstate⟩⟩,
        (if x.1.olabel = NO_LABEL then 0 else 1), (if x.2.ilabel = NO_LABEL then 0 else 1))
    | some t => some (⟨x.1.ilabel, t.olabel, w1 * (w2 * t.weight), ⟨(fs, t.ilabel), x.1.nextstate, t.nextstate⟩⟩, 1, 1)
  | _ => none

/-- Whether an ε of the first FST is kept when the label `fl` is pushed. -/
def keepsEps (c : LaCfg) (A : Fst W) (s1 : StateId) (fl : Label) (a : Tr W) : Bool :=
  decide ((A.trsOf s1).length = 1) || decide (c.matcher.lookLabelR A false a.nextstate fl = .ok true)

/-- What becomes of a transition of the first FST when the label of `fs` is pushed. -/
def pushedTag (c : LaCfg) (A : Fst W) (start : FS') (fs : FS' × Label) (s1 s2 : StateId) (a : Tr W) : Option (MTr (CTup (FS' × Label)) W × Nat × Nat) :=
  if a.olabel = fs.2 then some (⟨a.ilabel, EPS, a.weight * 1, ⟨(start, NO_LABEL), a.nextstate, s2⟩⟩, 1, 0)
  else if a.olabel = EPS ∧ keepsEps c A s1 fs.2 a = true then some (⟨a.ilabel, EPS, a.weight * 1, ⟨fs, a.nextstate, s2⟩⟩, 1, 0)
  else none

/-- The transitions of a tuple. -/
def labelTag (c : LaCfg) (A B : Fst W) (I : LaFilter FS' W) (t : CTup (FS' × Label)) : Multiset (MTr (CTup (FS' × Label)) W × Nat × Nat) :=
  if t.fs.2 = NO_LABEL then
    match I.filter t.s1 t.s2 t.fs.1 with
    | .error _ => 0
    | .ok flt => (pairsU A B t.s1 t.s2).filterMap (plainTag c A B flt)
  else (A.trsOf t.s1 : Multiset (Tr W)).filterMap (pushedTag c A I.start t.fs t.s1 t.s2)

section
variable {c : LaCfg} {A B : Fst W} {I : LaFilter FS' W}

theorem labelTag_spec (hj : Joinable A B) (t : CTup (FS' × Label)) : ∀ x ∈ labelTag c A B I t, (x.2.1 ≤ 1 ∧ x.2.2 ≤ 1) ∧ 1 ≤ x.2.1 + x.2.2 := by
  intro x hx
  unfold labelTag at hx
  split at hx
  · split at hx
    · simp at hx
    · rename_i flt _
      obtain ⟨p, hp, hq⟩ := (Multiset.mem_filterMap _ _).1 hx
      unfold plainTag at hq
      split at hq
      · split at hq
        · rw [Option.some.injEq] at hq
          subst hq
          dsimp only
          refine ⟨⟨?_, ?_⟩, ?_⟩
          · split <;> omega
          · split <;> omega
          · rcases mem_pairsU hp with ⟨_, h2⟩ | ⟨h1, _⟩ | ⟨h1, _⟩
            · rw [if_neg (hj.noLabel2 _ _ h2)]; omega
            · rw [if_neg (hj.noLabel1 _ _ h1)]; omega
            · rw [if_neg (hj.noLabel1 _ _ h1)]; omega
        · rw [Option.some.injEq] at hq; subst hq; dsimp only; omega
      · cases hq
  · obtain ⟨p, hp, hq⟩ := (Multiset.mem_filterMap _ _).1 hx
    unfold pushedTag at hq
    split at hq
    · rw [Option.some.injEq] at hq; subst hq; dsimp only; omega
    · split at hq
      · rw [Option.some.injEq] at hq; subst hq; dsimp only; omega
      · cases hq

end

section
variable {c : LaCfg} {A B : Fst W} {F : ComposeFilter FS W} {I : LaFilter FS' W} {ok : FS → Bool → Bool → Bool} {Valid : FS → Prop} {base : FS' → FS} {given : FS' → W}
  {P : CTup FS' → Prop} {Q : StateId → Label → Prop} (hj : Joinable A B) (hF : FilterLaw A B F ok Valid) (hG : Follows A B F I ok Valid base given P) (hL : PushesLabels c A B F I ok base given P Q)

/-- The final weight of a tuple. -/
def labelFinOf (c : LaCfg) (A B : Fst W) (I : LaFilter FS' W) (t : CTup (FS' × Label)) : Option W :=
  match composeFinP c A B I t with
  | .ok w => w
  | .error _ => none

include hj hG hL

/-- Setting the filter to a tuple. -/
theorem PushesLabels.state {t : CTup (FS' × Label)} (ht : LabelTup c A B given P Q t) : t.s1 < A.numStates ∧ t.s2 < B.numStates ∧
    ∃ flt st, I.filter t.s1 t.s2 t.fs.1 = .ok flt ∧ labelSetState c A B I t.s1 t.s2 t.fs = .ok st ∧
      ((t.fs.2 = NO_LABEL ∧ st.m1.labels = .empty ∧ st.m2.labels = .empty ∧ ∃ n, st.filter = labelFilterTr c A B I.start n t.fs flt) ∨
       (t.fs.2 ≠ NO_LABEL ∧ st = ⟨labelFilterTr c A B I.start (A.trsOf t.s1).length t.fs flt, ⟨true, false, LabelSet.empty.insert t.fs.2⟩, ⟨false, true, LabelSet.empty.insert t.fs.2⟩⟩)) := by
  have hn : t.s1 < A.numStates → A.numTrsR t.s1 = .ok (A.trsOf t.s1).length := by
    intro h1
    have : A.states[t.s1]? = some A.states[t.s1] := List.getElem?_eq_getElem h1
    simp [Fst.numTrsR, Fst.trsOf, this]
  rcases ht with ⟨e, hP⟩ | ⟨e, hp, h1, h2, h0, -, -, u, hu, eu, hg⟩
  · obtain ⟨h1, h2, -⟩ := hG.lt _ hP
    obtain ⟨flt, hf, -⟩ := hG.pairs_ok hP
    dsimp only at h1 h2 hf
    refine ⟨h1, h2, flt, ?_⟩
    cases hp : c.flags.prefixLa with
    | false => exact ⟨⟨labelFilterTr c A B I.start 0 t.fs flt, ⟨c.out, !c.out, .empty⟩, ⟨!c.out, c.out, .empty⟩⟩, hf, by simp only [labelSetState, hf, hp, Bool.false_eq_true, if_false], .inl ⟨e, rfl, rfl, 0, rfl⟩⟩
    | true => exact ⟨⟨labelFilterTr c A B I.start (A.trsOf t.s1).length t.fs flt, ⟨true, !true, .empty⟩, ⟨!true, true, .empty⟩⟩, hf, by simp only [labelSetState, hf, hp, if_true, hL.out, hn h1, e], .inl ⟨e, rfl, rfl, _, rfl⟩⟩
  · obtain ⟨⟨flt, hf⟩, -⟩ := hL.set u hu hg _ _ h1 h2
    rw [eu] at hf
    refine ⟨h1, h2, flt, _, hf, ?_, .inr ⟨e, rfl⟩⟩
    simp only [labelSetState, hf, hp, if_true, hL.out, hn h1, if_neg e, MultiEps.addLabelR, if_neg h0, Bool.not_true]

/-- The transitions the operation computes. -/
theorem PushesLabels.trs {mt : MatchT} (hc : Composable A B mt) {t : CTup (FS' × Label)} (ht : LabelTup c A B given P Q t) :
    ∃ l, composeTrsP c A B I mt t = .ok l ∧ (l : Multiset _) = (labelTag c A B I t).map (·.1) := by
  obtain ⟨h1, h2, flt, st, hf, hst, hh⟩ := hL.state hj hG ht
  unfold composeTrsP
  rw [hst]
  dsimp only
  rcases hh with ⟨e, m1, m2, n, hfl⟩ | ⟨e, rfl⟩
  · have hP : P ⟨t.fs.1, t.s1, t.s2⟩ := by
      rcases ht with ⟨-, h⟩ | ⟨h, -⟩
      · exact h
      · exact absurd e h
    obtain ⟨flt', hf', hok⟩ := hG.pairs_ok hP
    dsimp only at hf' hok
    rw [hf] at hf'
    injection hf' with hf'
    subst hf'
    have hpair : ∀ x : Tr W × Tr W, pairP st.filter x = (plainTag c A B flt x).map (·.1) := by
      intro x
      rw [hfl]
      simp only [pairP, labelFilterTr, e, ne_eq, not_true_eq_false, and_false, if_false, plainTag]
      cases hx : flt x.1 x.2 with
      | error _ => rfl
      | ok r =>
        rcases r with _ | ⟨fs, w1, w2⟩
        · rfl
        · simp only [pushLabelTr_eq hL.out]
          cases pushesNow c A B x.1 x.2 <;> rfl
    obtain ⟨l, hl, hl'⟩ := expandP_plain (flt := st.filter) (m1 := st.m1) (m2 := st.m2) hc h1 h2 m1 m2 (fun x hx => by
      obtain ⟨r, hr⟩ := hok x hx
      rw [hfl]
      simp only [labelFilterTr, e, ne_eq, not_true_eq_false, and_false, if_false, hr]
      rcases r with _ | ⟨fs, w1, w2⟩
      · exact ⟨_, rfl⟩
      · exact ⟨_, rfl⟩)
    refine ⟨l, hl, hl'.trans ?_⟩
    unfold labelTag
    rw [if_pos e, hf]
    dsimp only
    rw [Multiset.map_filterMap]
    congr 1
    funext x
    exact hpair x
  · rcases ht with ⟨e', -⟩ | ⟨-, hp, -, -, h0, hQ, -⟩
    · exact absurd e' e
    have hflt : labelFilterTr c A B I.start (A.trsOf t.s1).length t.fs flt = pushedLabelTr c A B I.start (A.trsOf t.s1).length t.fs.1 t.fs.2 := by
      funext a b; simp only [labelFilterTr, hp, true_and, ne_eq, e, not_false_eq_true, if_true]
    rw [hflt]
    have hrej : ∀ a b : Tr W, b.ilabel ≠ NO_LABEL → pushedLabelTr c A B I.start (A.trsOf t.s1).length t.fs.1 t.fs.2 a b = .ok none := by
      intro a b hb; simp only [pushedLabelTr, hL.out, if_true, ne_eq, hb, not_false_eq_true]
    have hb0 : (loop2 t.s2 : Tr W).ilabel = NO_LABEL := rfl
    obtain ⟨l, hl, hl'⟩ := expandP_pushed (flt := pushedLabelTr c A B I.start (A.trsOf t.s1).length t.fs.1 t.fs.2) hc h1 h2 h0 e hrej
      (fun a ha hb => by simp only [pushedLabelTr, hL.out, if_true, hb0, ne_eq, not_true_eq_false, if_false, ha, hb])
      (fun a ha => by
        simp only [pushedLabelTr, hL.out, if_true, hb0, ne_eq, not_true_eq_false, if_false]
        by_cases e1 : a.olabel = t.fs.2
        · exact ⟨_, by rw [if_pos e1]⟩
        · by_cases e2 : a.olabel = EPS
          · obtain ⟨-, b, hb, -⟩ := hL.label _ _ h1 h0 e hQ a ha e2
            simp only [hb]
            by_cases e3 : (A.trsOf t.s1).length = 1
            · exact ⟨_, by rw [if_neg e1, if_pos e2, if_pos e3]⟩
            · cases b <;> exact ⟨_, by rw [if_neg e1, if_pos e2, if_neg e3]⟩
          · exact ⟨_, by rw [if_neg e1, if_neg e2]⟩)
    refine ⟨l, hl, hl'.trans ?_⟩
    unfold labelTag
    rw [if_neg e, Multiset.map_filterMap]
    rw [Multiset.filterMap_coe, Multiset.filterMap_coe]
    refine congrArg _ (List.filterMap_congr fun a ha => ?_)
    simp only [pairP, pushedLabelTr, hL.out, if_true, hb0, ne_eq, not_true_eq_false, if_false, pushedTag, Function.comp_apply, keepsEps]
    by_cases e1 : a.olabel = t.fs.2
    · simp only [if_pos e1]; rfl
    · by_cases e2 : a.olabel = EPS
      · obtain ⟨-, b, hb, -⟩ := hL.label _ _ h1 h0 e hQ a ha e2
        simp only [hb]
        have hn0 : ¬ (0 = t.fs.2) := Ne.symm h0
        by_cases e3 : (A.trsOf t.s1).length = 1
        · simp only [e2, if_neg hn0, e3, decide_true, Bool.true_or, and_self, if_true]; rfl
        · cases b
          · simp [e2, hn0, e3]
          · simp only [e2, if_neg hn0, if_neg e3, e3, decide_false, decide_true, Bool.false_or, and_self, if_true]; rfl
      · simp only [if_neg e1, if_neg e2, e2, false_and, if_false]; rfl

/-- The final weight the operation computes. -/
theorem PushesLabels.fin {t : CTup (FS' × Label)} (ht : LabelTup c A B given P Q t) : composeFinP c A B I t = .ok (labelFinOf c A B I t) ∧
    (t.fs.2 = NO_LABEL → labelFinOf c A B I t = laFinOf A B I ⟨t.fs.1, t.s1, t.s2⟩) ∧ (t.fs.2 ≠ NO_LABEL → labelFinOf c A B I t = none) := by
  obtain ⟨h1, h2, flt, st, hf, hst, -⟩ := hL.state hj hG ht
  have g1 : A.finalWeightR t.s1 = .ok (A.finOf t.s1) := by
    have : A.states[t.s1]? = some A.states[t.s1] := List.getElem?_eq_getElem h1
    simp [Fst.finalWeightR, Fst.finOf, this]
  have g2 : B.finalWeightR t.s2 = .ok (B.finOf t.s2) := by
    have : B.states[t.s2]? = some B.states[t.s2] := List.getElem?_eq_getElem h2
    simp [Fst.finalWeightR, Fst.finOf, this]
  have hfin : ∀ w1 w2, A.finOf t.s1 = some w1 → B.finOf t.s2 = some w2 → ∃ v, I.final t.fs.1 w1 w2 = .ok v := by
    intro w1 w2 e1 e2
    rcases ht with ⟨-, hP⟩ | ⟨-, -, -, -, -, -, -, u, hu, eu, hg⟩
    · obtain ⟨v1, v2, hv, -⟩ := hG.final _ hP w1 w2 e1 e2
      exact ⟨_, hv⟩
    · rw [← eu]; exact (hL.set u hu hg _ _ h1 h2).2 w1 w2
  have hp : t.fs.2 ≠ NO_LABEL → c.flags.prefixLa = true := by
    intro e
    rcases ht with ⟨e', -⟩ | ⟨-, hp, -⟩
    · exact absurd e' e
    · exact hp
  unfold labelFinOf laFinOf composeFinP composeFinL
  rw [g1, g2, hst, hf]
  dsimp only
  cases e1 : A.finOf t.s1 with
  | none => exact ⟨rfl, fun _ => rfl, fun _ => rfl⟩
  | some w1 =>
    cases e2 : B.finOf t.s2 with
    | none => exact ⟨rfl, fun _ => rfl, fun _ => rfl⟩
    | some w2 =>
      obtain ⟨⟨v1, v2⟩, hv⟩ := hfin w1 w2 e1 e2
      simp only [labelFinal, hv, true_and]
      refine ⟨fun e => by simp [e], fun e => ?_⟩
      by_cases hz : v1 = 0
      · simp [hz]
      · simp [hp e, hz, e]

theorem PushesLabels.tag_next {t : CTup (FS' × Label)} (ht : LabelTup c A B given P Q t) : ∀ x ∈ labelTag c A B I t, LabelTup c A B given P Q x.1.next := by
  intro x hx
  have hst := hL.state hj hG ht
  unfold labelTag at hx
  rcases ht with ⟨e, hP⟩ | ⟨e, hp, h1, h2, h0, hQ, hq, u, hu⟩
  · obtain ⟨flt0, flt', hf0, hf', hs⟩ := hG.step _ hP
    dsimp only at hf0 hf'
    rw [if_pos e, hf'] at hx
    obtain ⟨p, hp, hq⟩ := (Multiset.mem_filterMap _ _).1 hx
    obtain ⟨g1, g2⟩ := hs p.1 p.2 hp
    unfold plainTag at hq
    cases hfl : flt' p.1 p.2 with
    | error _ => rw [hfl] at hq; cases hq
    | ok r =>
      rw [hfl] at hq
      rcases r with _ | ⟨fs', w1, w2⟩
      · cases hq
      cases hflt : flt0 p.1 p.2 with
      | none => rw [g1 hflt] at hfl; cases hfl
      | some fs =>
        rcases g2 fs hflt with ⟨hnone, -⟩ | ⟨fs'', v1, v2, hsome, hb, hw, hP'⟩
        · rw [hnone] at hfl; cases hfl
        rw [hsome] at hfl
        simp only [Except.ok.injEq, Option.some.injEq, Prod.mk.injEq] at hfl
        obtain ⟨rfl, rfl, rfl⟩ := hfl
        dsimp only at hq
        cases hpn : pushesNow c A B p.1 p.2 with
        | none =>
          rw [hpn] at hq
          simp only [Option.some.injEq] at hq
          subst hq
          exact .inl ⟨rfl, hP'⟩
        | some tr =>
          rw [hpn] at hq
          simp only [Option.some.injEq] at hq
          subst hq
          obtain ⟨k1, k2, k3, k4, k5, kQ, -⟩ := hL.push _ hP flt0 flt' hf0 hf' p.1 p.2 hp fs fs'' v1 v2 hflt hsome tr hpn
          dsimp only at k1 k2 k3
          refine .inr ⟨hj.noLabel2 _ _ k3, ?_, hj.wf1.next_lt _ _ k1, hj.wf2.next_lt _ _ k3, k4, kQ, ⟨_, hst.2.1, tr, k3, rfl⟩, ⟨fs'', _, _⟩, hP', rfl, k5⟩
          by_contra hpre
          simp [pushesNow, hpre] at hpn
  · rw [if_neg e] at hx
    obtain ⟨a, ha, hq'⟩ := (Multiset.mem_filterMap _ _).1 hx
    have ha := Multiset.mem_coe.1 ha
    unfold pushedTag at hq'
    split at hq'
    · rw [Option.some.injEq] at hq'
      subst hq'
      exact .inl ⟨rfl, hL.start _ _ (hj.wf1.next_lt _ _ ha) h2⟩
    · split at hq'
      · rename_i hk
        rw [Option.some.injEq] at hq'
        subst hq'
        exact .inr ⟨e, hp, hj.wf1.next_lt _ _ ha, h2, h0, (hL.label _ _ h1 h0 e hQ a ha hk.1).1, hq, u, hu⟩
      · cases hq'

include hF

/-- With the weight already given, the paths from a tuple without a pushed label are those the filter `F` would leave; the paths from a tuple with a pushed
label are those that read it first. -/
theorem PushesLabels.graded : ∀ k n m : Nat, n + m = k → ∀ t : CTup (FS' × Label), LabelTup c A B given P Q t →
    (t.fs.2 = NO_LABEL → nonzero ((gradedAll (labelFinOf c A B I) (labelTag c A B I) n m t).map (scalePath (given t.fs.1))) =
      nonzero (gradedAll (composeFinOf A B) (composeTag A B F) n m ⟨base t.fs.1, t.s1, t.s2⟩)) ∧
    (t.fs.2 ≠ NO_LABEL → nonzero (gradedAll (labelFinOf c A B I) (labelTag c A B I) n m t) =
      nonzero (joinPaths (readsP A t.fs.2 n t.s1) (B.pathsFrom m t.s2))) := by
  intro k
  induction k using Nat.strong_induction_on with
  | _ k ih =>
  rintro n m rfl t ht
  have hlt := hL.state hj hG ht
  have hnx := hL.tag_next hj hG ht
  have hfin := hL.fin hj hG ht
  refine ⟨fun e => ?_, fun e => ?_⟩
  · have hP : P ⟨t.fs.1, t.s1, t.s2⟩ := by
      rcases ht with ⟨-, h⟩ | ⟨h, -⟩
      · exact h
      · exact absurd e h
    obtain ⟨flt, flt', hf, hf', hx⟩ := hG.step _ hP
    have hltP := hG.lt _ hP
    dsimp only at hf hf' hx hltP
    rw [gradedAll_rec (fun t x hx => (labelTag_spec hj t x hx).2), gradedAll_rec (tag_pos hj), Multiset.map_add]
    refine nz_add ?_ ?_
    · by_cases h0 : n = 0 ∧ m = 0
      · rw [if_pos h0, if_pos h0, hfin.2.1 e]; exact (hG.fin hP).2
      · rw [if_neg h0, if_neg h0]; rfl
    · have hnext := Verif.tag_next hF hj hltP
      have eT : composeTag A B F ⟨base t.fs.1, t.s1, t.s2⟩ = (pairsU A B t.s1 t.s2).filterMap fun x => (flt x.1 x.2).map fun fs =>
          (addTr x.1 x.2 fs, (if x.1.olabel = NO_LABEL then 0 else 1), (if x.2.ilabel = NO_LABEL then 0 else 1)) := by
        unfold composeTag; dsimp only at hf ⊢; rw [hf]
      have eT' : labelTag c A B I t = (pairsU A B t.s1 t.s2).filterMap (plainTag c A B flt') := by
        unfold labelTag; rw [if_pos e, hf']
      have hpos := tag_pos (F := F) hj ⟨base t.fs.1, t.s1, t.s2⟩
      rw [eT] at hnext hpos
      rw [eT'] at hnx
      rw [eT, eT', bind_filterMap, bind_filterMap, Multiset.map_bind]
      refine nz_bindM _ fun x hmem => ?_
      obtain ⟨hx1, hx2⟩ := hx x.1 x.2 hmem
      cases hflt : flt x.1 x.2 with
      | none => simp [plainTag, hx1 hflt]
      | some fs =>
        have hin := (Multiset.mem_filterMap (fun x : Tr W × Tr W => (flt x.1 x.2).map fun fs => (addTr x.1 x.2 fs, (if x.1.olabel = NO_LABEL then 0 else 1), (if x.2.ilabel = NO_LABEL then 0 else 1))) (pairsU A B t.s1 t.s2) (b := (addTr x.1 x.2 fs, (if x.1.olabel = NO_LABEL then 0 else 1), (if x.2.ilabel = NO_LABEL then 0 else 1)))).2 ⟨x, hmem, by rw [hflt]; rfl⟩
        have hok := hnext _ hin
        have hp := hpos _ hin
        simp only [Option.map_some, Option.elim_some]
        dsimp only at hp hok
        rcases hx2 fs hflt with ⟨hnone, hdead⟩ | ⟨fs', w1, w2, hsome, hb, hw, hP'⟩
        · generalize (if x.1.olabel = NO_LABEL then 0 else 1) = i at hp ⊢
          generalize (if x.2.ilabel = NO_LABEL then 0 else 1) = j at hp ⊢
          have e : plainTag c A B flt' x = none := by simp [plainTag, hnone]
          rw [e]
          simp only [Option.elim_none, Multiset.map_zero]
          split
          · rename_i hc
            have : nonzero (gradedAll (composeFinOf A B) (composeTag A B F) (n - i) (m - j) (addTr x.1 x.2 fs).next) = nonzero 0 := by
              rw [compose_blocks hj hF _ _ _ rfl _ hok]
              exact hdead _ _
            exact (nz_map this _).symm
          · rfl
        · cases hpn : pushesNow c A B x.1 x.2 with
          | none =>
            have e1 : plainTag c A B flt' x = some (⟨x.1.ilabel, x.2.olabel, w1 * w2, ⟨(fs', NO_LABEL), x.1.nextstate, x.2.nextstate⟩⟩,
              (if x.1.olabel = NO_LABEL then 0 else 1), (if x.2.ilabel = NO_LABEL then 0 else 1)) := by simp only [plainTag, hsome, hpn]
            rw [e1]
            simp only [Option.elim_some]
            generalize (if x.1.olabel = NO_LABEL then 0 else 1) = i at hp ⊢
            generalize (if x.2.ilabel = NO_LABEL then 0 else 1) = j at hp ⊢
            split
            · rename_i hc
              rw [Multiset.map_map]
              have := nz_map ((ih _ (show n - i + (m - j) < n + m by omega) _ _ rfl ⟨(fs', NO_LABEL), x.1.nextstate, x.2.nextstate⟩ (.inl ⟨rfl, hP'⟩)).1 rfl) (addTr x.1 x.2 fs).asPath
              rw [Multiset.map_map] at this
              refine Eq.trans ?_ (this.trans ?_)
              · congr 1
                refine Multiset.map_congr rfl fun p _ => ?_
                simp only [Function.comp_apply, scalePath, MTr.asPath, addTr, PathT.cat]
                rw [← mul_assoc, hw, mul_assoc]
              · dsimp only; rw [hb]; rfl
            · rfl
          | some tr =>
            obtain ⟨k1, k2, k3, k4, k5, -, k6⟩ := hL.push _ hP flt flt' hf hf' x.1 x.2 hmem fs fs' w1 w2 hflt hsome tr hpn
            dsimp only at k1 k2 k3 k6
            have e1 : plainTag c A B flt' x = some (⟨x.1.ilabel, tr.olabel, w1 * (w2 * tr.weight), ⟨(fs', tr.ilabel), x.1.nextstate, tr.nextstate⟩⟩, 1, 1) := by
              simp only [plainTag, hsome, hpn]
            have hT := hnx _ ((Multiset.mem_filterMap _ _).2 ⟨x, hmem, e1⟩)
            rw [e1]
            simp only [Option.elim_some]
            dsimp only at hT
            have i1 : x.1.olabel ≠ NO_LABEL := hj.noLabel1 _ _ k1
            have i2 : x.2.ilabel = NO_LABEL := by rw [k2]; rfl
            rw [if_neg i1, if_pos i2]
            have hk := compose_blocks hj hF _ (n - 1) m rfl _ hok
            have hnx2 : (addTr x.1 x.2 fs).next = (⟨fs, x.1.nextstate, t.s2⟩ : CTup FS) := by rw [k2]; rfl
            rw [hnx2] at hk
            dsimp only at hk
            rw [k6] at hk
            simp only [Nat.sub_zero, Nat.zero_le, and_true]
            cases m with
            | zero =>
              rw [if_neg (by omega)]
              split
              · have h0 : nonzero (gradedAll (composeFinOf A B) (composeTag A B F) (n - 1) 0 (addTr x.1 x.2 fs).next) = nonzero 0 := by
                  rw [hnx2, hk]; simp [begins]
                exact (nz_map h0 _).symm
              · rfl
            | succ m =>
              by_cases hn : 1 ≤ n
              · rw [if_pos ⟨hn, by omega⟩, if_pos hn]
                rw [join_begins k4] at hk
                have hi := (ih _ (show n - 1 + m < n + (m + 1) by omega) _ _ rfl ⟨(fs', tr.ilabel), x.1.nextstate, tr.nextstate⟩ hT).2 (hj.noLabel2 _ _ k3)
                dsimp only at hi
                have h2 := nz_map (nz_map hi ([], strip tr.olabel, tr.weight)) (addTr x.1 x.2 fs).asPath
                have h3 := nz_map hk (addTr x.1 x.2 fs).asPath
                rw [hnx2, h3, ← h2, Multiset.map_map, Multiset.map_map]
                have e2 : m + 1 - 1 = m := by omega
                rw [e2]
                congr 1
                refine Multiset.map_congr rfl fun p _ => ?_
                have ew : given t.fs.1 * (w1 * w2) = x.1.weight * x.2.weight := by rw [hw, k5, mul_one]
                have eo : x.2.olabel = EPS := by rw [k2]; rfl
                simp only [Function.comp_apply, scalePath, MTr.asPath, addTr, PathT.cat, eo, List.nil_append]
                have : given t.fs.1 * (w1 * (w2 * tr.weight) * p.2.2) = x.1.weight * x.2.weight * (tr.weight * p.2.2) := by
                  rw [← ew]; simp only [mul_assoc]
                rw [this]
                simp [strip]
              · rw [if_neg (by omega), if_neg hn]; rfl
  · have hh := ht
    rcases hh with ⟨e', -⟩ | ⟨-, hpre, h1, h2, h0, hQ, -⟩
    · exact absurd e' e
    rw [gradedAll_rec (fun t x hx => (labelTag_spec hj t x hx).2), hfin.2.2 e]
    have ez : (if n = 0 ∧ m = 0 then finPath (none : Option W) else 0) = 0 := by split <;> rfl
    have eT : labelTag c A B I t = (A.trsOf t.s1 : Multiset (Tr W)).filterMap (pushedTag c A I.start t.fs t.s1 t.s2) := by
      unfold labelTag; rw [if_neg e]
    rw [eT] at hnx
    rw [ez, zero_add, eT, bind_filterMap]
    cases n with
    | zero =>
      simp only [readsP, join_zero_left]
      refine congrArg _ (bind_eq_zero_of _ _ fun a _ => ?_)
      cases hq : pushedTag c A I.start t.fs t.s1 t.s2 a with
      | none => rfl
      | some y =>
        have : y.2.1 = 1 := by
          unfold pushedTag at hq
          split at hq
          · rw [Option.some.injEq] at hq; subst hq; rfl
          · split at hq
            · rw [Option.some.injEq] at hq; subst hq; rfl
            · cases hq
        simp [this]
    | succ n =>
      rw [readsP_succ, join_bind_left]
      refine nz_bindM _ fun a ha => ?_
      have ha' := Multiset.mem_coe.1 ha
      by_cases e1 : a.olabel = t.fs.2
      · have hq : pushedTag c A I.start t.fs t.s1 t.s2 a = some (⟨a.ilabel, EPS, a.weight * 1, ⟨(I.start, NO_LABEL), a.nextstate, t.s2⟩⟩, 1, 0) := by
          unfold pushedTag; rw [if_pos e1]
        rw [hq, if_pos e1, join_map_left]
        simp only [Option.elim_some]
        rw [if_pos ⟨by omega, by omega⟩]
        have hn := hnx _ ((Multiset.mem_filterMap _ _).2 ⟨a, ha, hq⟩)
        dsimp only at hn
        have hPs := hL.start _ _ (hj.wf1.next_lt _ _ ha') h2
        have hl := hG.lt _ hPs
        dsimp only at hl
        have hi := (ih _ (show n + 1 - 1 + (m - 0) < n + 1 + m by omega) _ _ rfl _ hn).1 rfl
        dsimp only at hi
        have eid : (scalePath (1 : W)) = id := by funext p; simp [scalePath]
        rw [hG.start.2.1, eid, Multiset.map_id, compose_blocks hj hF _ _ _ rfl _ hl] at hi
        dsimp only at hi
        rw [hG.start.1, blocks_all hF.start.2] at hi
        have := nz_map hi (strip a.ilabel, [], a.weight)
        simp only [Nat.add_sub_cancel, Nat.sub_zero] at this ⊢
        rw [← this]
        simp [MTr.asPath, strip]
      · rw [if_neg e1]
        by_cases e2 : a.olabel = EPS
        · rw [if_pos e2, join_map_left]
          by_cases e3 : keepsEps c A t.s1 t.fs.2 a = true
          · have hq : pushedTag c A I.start t.fs t.s1 t.s2 a = some (⟨a.ilabel, EPS, a.weight * 1, ⟨t.fs, a.nextstate, t.s2⟩⟩, 1, 0) := by
              unfold pushedTag; rw [if_neg e1, if_pos ⟨e2, e3⟩]
            rw [hq]
            simp only [Option.elim_some]
            rw [if_pos ⟨by omega, by omega⟩]
            have hn := hnx _ ((Multiset.mem_filterMap _ _).2 ⟨a, ha, hq⟩)
            dsimp only at hn
            have hi := (ih _ (show n + 1 - 1 + (m - 0) < n + 1 + m by omega) _ _ rfl _ hn).2 e
            dsimp only at hi
            have := nz_map hi (strip a.ilabel, [], a.weight)
            simp only [Nat.add_sub_cancel, Nat.sub_zero] at this ⊢
            rw [← this]
            simp [MTr.asPath, strip]
          · have hq : pushedTag c A I.start t.fs t.s1 t.s2 a = none := by
              unfold pushedTag; rw [if_neg e1, if_neg (fun h => e3 h.2)]
            obtain ⟨-, b, hb, hb'⟩ := hL.label _ _ h1 h0 e hQ a ha' e2
            have hbf : b = false := by
              cases b
              · rfl
              · exact absurd (by simp [keepsEps, hb]) e3
            rw [hq, hb' hbf]
            simp
        · have hq : pushedTag c A I.start t.fs t.s1 t.s2 a = none := by
            unfold pushedTag; rw [if_neg e1, if_neg (fun h => e2 h.1)]
          rw [hq, if_neg e2]
          simp

end
end
end Verif
