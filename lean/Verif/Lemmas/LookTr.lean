import Verif.Lemmas.LookLabel

/-!
# What `TrLookAheadMatcher` finds when it looks ahead
-/

namespace Verif
universe u
variable {W : Type u}

section
variable [CommMonoidWithZero W] [Add W] [DecidableEq W]

/-- The matcher's FST is sorted on its side and says so. -/
structure Searchable (M : Fst W) (input : Bool) : Prop where
  flag : M.props (if input then .iLabelSorted else .oLabelSorted) = true
  sorted : ∀ s, ((M.trsOf s).map (sideLabel input)).Pairwise (· ≤ ·)

theorem Searchable.matchType {M : Fst W} {input : Bool} (h : Searchable M input) : sortedMatchType M input false = .ok .yes := by
  have := h.flag
  simp only [sortedMatchType, Bool.false_and, Bool.false_eq_true, if_false]
  rw [if_pos]
  cases input <;> exact this

/-- Weights closed under the operations. -/
structure GoodW (G : W → Prop) : Prop where
  one : G 1
  add : ∀ a b, G a → G b → G (a + b)
  mul : ∀ a b, G a → G b → G (a * b)

/-- The weights of an FST. -/
def GoodFst (G : W → Prop) (f : Fst W) : Prop := (∀ s, ∀ t ∈ f.trsOf s, G t.weight) ∧ ∀ s w, f.finOf s = some w → w ≠ 0 → G w

theorem item_good {G : W → Prop} (hG : GoodW G) {input : Bool} {ts : List (Tr W)} {l : Label} (hs : (ts.map (sideLabel input)).Pairwise (· ≤ ·)) (h : ∀ t ∈ ts, G t.weight) :
    ∀ i ∈ sortedIter input ts l, G i.weight := by
  intro i hi
  rw [sortedIter_ideal hs] at hi
  simp only [idealIter, List.mem_append, List.mem_map, List.mem_filter] at hi
  rcases hi with hi | ⟨t, ⟨ht, -⟩, rfl⟩
  · split at hi
    · rw [List.mem_singleton] at hi; subst hi; exact hG.one
    · cases hi
  · exact h t ht

theorem matches_result (fl : LaFlags) (t : Tr W) : ∀ (its : List (IterItem W)) (o : TrLook W), (its.foldl (trLookMatches fl t) o).result = o.result
  | [], _ => rfl
  | i :: its, o => by rw [List.foldl_cons, matches_result fl t its]; rfl

theorem matches_good {G : W → Prop} (hG : GoodW G) (fl : LaFlags) {t : Tr W} (ht : G t.weight) : ∀ (its : List (IterItem W)) (o : TrLook W), (∀ i ∈ its, G i.weight) → G o.data.weight →
    G (its.foldl (trLookMatches fl t) o).data.weight
  | [], _, _, h => h
  | i :: its, o, hi, h => by
    rw [List.foldl_cons]
    refine matches_good hG fl ht its _ (fun j hj => hi j (by simp [hj])) ?_
    simp only [trLookMatches]
    split <;> split <;> first | exact h | exact hG.add _ _ h (hG.mul _ _ ht (hi i (by simp)))

theorem sum_good {G : W → Prop} (hG : GoodW G) : ∀ (its : List (IterItem W)) (w : W), (∀ i ∈ its, G i.weight) → G w → G (its.foldl (fun w i => w + i.weight) w)
  | [], _, _, h => h
  | i :: its, w, hi, h => by
    rw [List.foldl_cons]
    exact sum_good hG its _ (fun j hj => hi j (by simp [hj])) (hG.add _ _ h (hi i (by simp)))

theorem trLookLoop_spec {fl : LaFlags} {M : Fst W} {input : Bool} (hM : Searchable M input) {s : StateId} (hs : s < M.numStates) : ∀ (ts : List (Tr W)) (o : TrLook W),
    ∃ b o', trLookLoop fl M input s ts o = .ok (b, o') ∧
      (b = false → o'.result = false → o.result = false ∧ ∀ t ∈ ts, t.labelOn (!input) ≠ EPS ∧ sortedIter input (M.trsOf s) (t.labelOn (!input)) = []) ∧
      ∀ G, GoodW G → (∀ t ∈ M.trsOf s, G t.weight) → (∀ t ∈ ts, G t.weight) → G o.data.weight → G o'.data.weight
  | [], o => ⟨false, o, rfl, fun _ h => ⟨h, by simp⟩, fun _ _ _ _ h => h⟩
  | t :: ts, o => by
    have el : (if input = true then t.olabel else t.ilabel) = t.labelOn (!input) := by cases input <;> rfl
    have ih := trLookLoop_spec (fl := fl) hM hs ts
    simp only [trLookLoop, hM.matchType, el]
    by_cases h0 : t.labelOn (!input) = EPS
    · rw [if_pos h0]
      by_cases hb : (!(fl.weight && fl.prefixLa)) = true
      · rw [if_pos hb]
        exact ⟨true, o, rfl, fun h => (by cases h), fun _ _ _ _ h => h⟩
      · rw [if_neg hb]
        obtain ⟨b, o', e, h1, h2⟩ := ih ⟨true, if !fl.nonEpsPrefix then o.nprefix + 1 else o.nprefix, if fl.weight then { o.data with weight := o.data.weight + t.weight } else o.data⟩
        refine ⟨b, o', e, fun hb hr => ?_, fun G hG hm ht h => h2 G hG hm (fun u hu => ht u (by simp [hu])) ?_⟩
        · have := (h1 hb hr).1
          cases this
        · dsimp only
          split
          · exact hG.add _ _ h (ht t (by simp))
          · exact h
    · rw [if_neg h0, sortedIterR_ok hs]
      dsimp only
      by_cases hi : (sortedIter input (M.trsOf s) (t.labelOn (!input))).isEmpty = true
      · rw [if_pos hi]
        obtain ⟨b, o', e, h1, h2⟩ := ih o
        refine ⟨b, o', e, fun hb hr => ⟨(h1 hb hr).1, fun u hu => ?_⟩, fun G hG hm ht h => h2 G hG hm (fun u hu => ht u (by simp [hu])) h⟩
        rcases List.mem_cons.1 hu with rfl | hu
        · exact ⟨h0, List.isEmpty_iff.1 hi⟩
        · exact (h1 hb hr).2 u hu
      · rw [if_neg hi]
        by_cases hb : (!(fl.weight && fl.prefixLa)) = true
        · rw [if_pos hb]
          exact ⟨true, o, rfl, fun h => (by cases h), fun _ _ _ _ h => h⟩
        · rw [if_neg hb]
          obtain ⟨b, o', e, h1, h2⟩ := ih { (sortedIter input (M.trsOf s) (t.labelOn (!input))).foldl (trLookMatches fl t) o with result := true }
          refine ⟨b, o', e, fun hb hr => ?_, fun G hG hm ht h => h2 G hG hm (fun u hu => ht u (by simp [hu])) ?_⟩
          · have := (h1 hb hr).1
            cases this
          · exact matches_good hG fl (ht t (by simp)) _ _ (item_good hG (hM.sorted s) hm) h

theorem trLookRest_spec {fl : LaFlags} {M L : Fst W} {input : Bool} (hM : Searchable M input) {s ls : StateId} (hs : s < M.numStates) (hls : ls < L.numStates) (o : TrLook W) :
    ∃ r, trLookRest fl M input s L ls o = .ok r ∧
      (r = none → o.result = false ∧ ∀ t ∈ L.trsOf ls, t.labelOn (!input) ≠ EPS ∧ sortedIter input (M.trsOf s) (t.labelOn (!input)) = []) ∧
      ∀ G, GoodW G → (∀ t ∈ M.trsOf s, G t.weight) → (∀ t ∈ L.trsOf ls, G t.weight) → G o.data.weight → ∀ d, r = some d → G d.weight := by
  have ht : L.getTrsR ls = .ok (L.trsOf ls) := by
    have : L.states[ls]? = some L.states[ls] := List.getElem?_eq_getElem hls
    simp [Fst.getTrsR, Fst.trsOf, this]
  obtain ⟨b, o', e, h1, h2⟩ := trLookLoop_spec (fl := fl) hM hs (L.trsOf ls) o
  simp only [trLookRest, ht, e]
  cases b with
  | true => exact ⟨_, rfl, fun h => (by cases h), fun G hG hm hl h d hd => by rw [Option.some.injEq] at hd; exact hd ▸ h2 G hG hm hl h⟩
  | false =>
    refine ⟨_, rfl, fun h => ?_, fun G hG hm hl h d hd => ?_⟩
    · cases hr : o'.result with
      | true => rw [hr] at h; simp at h
      | false => exact h1 rfl hr
    · have h' := h2 G hG hm hl h
      split at hd
      · rw [Option.some.injEq] at hd
        subst hd
        split
        · split
          · exact hG.one
          · exact h'
        · exact h'
      · cases hd

theorem trLook_spec {fl : LaFlags} {M L : Fst W} {input : Bool} (hM : Searchable M input) {s ls : StateId} (hs : s < M.numStates) (hls : ls < L.numStates) :
    ∃ r, trLook fl M input s L ls = .ok r ∧
      (r = none → (∀ w w', M.finOf s = some w → L.finOf ls = some w' → w = 0 ∨ w' = 0) ∧ sortedIter input (M.trsOf s) NO_LABEL = [] ∧
        ∀ t ∈ L.trsOf ls, t.labelOn (!input) ≠ EPS ∧ sortedIter input (M.trsOf s) (t.labelOn (!input)) = []) ∧
      ∀ G, GoodW G → GoodFst G M → GoodFst G L → ∀ d, r = some d → G d.weight := by
  have hg1 : M.states[s]? = some M.states[s] := List.getElem?_eq_getElem hs
  have hg2 : L.states[ls]? = some L.states[ls] := List.getElem?_eq_getElem hls
  obtain ⟨fin, hfin, hf⟩ : ∃ b, bothFinal M L s ls = .ok b ∧ (b = true ↔ ∃ w w', M.finOf s = some w ∧ L.finOf ls = some w' ∧ w ≠ 0 ∧ w' ≠ 0) := by
    simp only [bothFinal, Fst.isFinalR, hg1, hg2, Fst.finOf]
    cases M.states[s].fin with
    | none => exact ⟨false, rfl, by simp⟩
    | some w =>
      by_cases h0 : w = 0
      · exact ⟨false, by simp [isZeroW, h0], by simp [h0]⟩
      · have e : (!isZeroW w) = true := by simp [isZeroW, h0]
        simp only [e]
        refine ⟨_, rfl, ?_⟩
        cases L.states[ls].fin with
        | none => simp
        | some w' => simp [isZeroW, h0]
  simp only [trLook, hfin]
  by_cases hret : (fin && !(fl.weight && fl.prefixLa)) = true
  · rw [if_pos hret]
    exact ⟨_, rfl, fun h => (by cases h), fun G hG _ _ d hd => by rw [Option.some.injEq] at hd; subst hd; exact hG.one⟩
  · rw [if_neg hret, sortedIterR_ok hs]
    obtain ⟨o, ho⟩ : ∃ o : TrLook W, o = (if fin = true then ⟨true, 1, if fl.weight then { LaData.default with weight := 1 + ((M.finOf s).getD 0) * ((L.finOf ls).getD 0) } else .default⟩
      else ⟨false, 0, .default⟩) := ⟨_, rfl⟩
    rw [← ho]
    have hor : o.result = fin := by rw [ho]; cases fin <;> rfl
    have hog : ∀ G, GoodW G → GoodFst G M → GoodFst G L → G o.data.weight := by
      intro G hG h1 h2
      rw [ho]
      cases hfc : fin with
      | false => exact hG.one
      | true =>
        simp only [if_true]
        split
        · obtain ⟨w, w', e1, e2, n1, n2⟩ := hf.1 hfc
          simp only [e1, e2, Option.getD_some]
          exact hG.add _ _ hG.one (hG.mul _ _ (h1.2 _ _ e1 n1) (h2.2 _ _ e2 n2))
        · exact hG.one
    dsimp only
    by_cases hi : (sortedIter input (M.trsOf s) NO_LABEL).isEmpty = true
    · rw [if_pos hi]
      obtain ⟨r, e, h1, h2⟩ := trLookRest_spec (fl := fl) hM hs hls o
      refine ⟨r, e, fun hr => ?_, fun G hG hm hl => h2 G hG (hm.1 s) (hl.1 ls) (hog G hG hm hl)⟩
      obtain ⟨k1, k2⟩ := h1 hr
      refine ⟨fun w w' e1 e2 => ?_, List.isEmpty_iff.1 hi, k2⟩
      by_contra hne
      rw [not_or] at hne
      rw [hor] at k1
      rw [hf.2 ⟨w, w', e1, e2, hne.1, hne.2⟩] at k1
      cases k1
    · rw [if_neg hi]
      by_cases hb : (!(fl.weight && fl.prefixLa)) = true
      · rw [if_pos hb]
        exact ⟨_, rfl, fun h => (by cases h), fun G hG hm hl d hd => by rw [Option.some.injEq] at hd; subst hd; exact hog G hG hm hl⟩
      · rw [if_neg hb]
        obtain ⟨r, e, h1, h2⟩ := trLookRest_spec (fl := fl) hM hs hls ⟨true, o.nprefix + 1, if fl.weight then { o.data with weight := (sortedIter input (M.trsOf s) NO_LABEL).foldl (fun w i => w + i.weight) o.data.weight } else o.data⟩
        refine ⟨r, e, fun hr => ?_, fun G hG hm hl => h2 G hG (hm.1 s) (hl.1 ls) ?_⟩
        · have := (h1 hr).1; cases this
        · dsimp only
          split
          · exact sum_good hG _ _ (item_good hG (hM.sorted s) (hm.1 s)) (hog G hG hm hl)
          · exact hog G hG hm hl

theorem pathsFrom_first {f : Fst W} {on : Bool} {n s} {p : PathT W} (h : p ∈ f.pathsFrom n s) (hs : ∀ t ∈ f.trsOf s, t.labelOn on ≠ EPS) :
    (p.tape on = [] ∧ f.finOf s = some p.2.2) ∨ ∃ t ∈ f.trsOf s, ∃ r, p.tape on = t.labelOn on :: r := by
  cases n with
  | zero =>
    simp only [Fst.pathsFrom] at h
    cases hf : f.finOf s with
    | none => rw [hf] at h; simp at h
    | some w =>
      rw [hf] at h
      simp at h
      subst h
      exact .inl ⟨by cases on <;> rfl, rfl⟩
  | succ n =>
    rw [Fst.pathsFrom_succ] at h
    obtain ⟨t, ht, hq⟩ := Multiset.mem_bind.1 h
    obtain ⟨q, -, rfl⟩ := Multiset.mem_map.1 hq
    have h0 := hs t (Multiset.mem_coe.1 ht)
    exact .inr ⟨t, Multiset.mem_coe.1 ht, q.tape on, by rw [cat_tape]; simp [strip, h0]⟩

/-- If the look ahead finds nothing, no paths have a common tape and a weight. -/
theorem trLook_none {fl : LaFlags} {M L : Fst W} {input : Bool} (hM : Searchable M input) (hn : ∀ s, ∀ t ∈ L.trsOf s, t.labelOn (!input) ≠ NO_LABEL) {s ls : StateId}
    (hs : s < M.numStates) (hls : ls < L.numStates) (h : trLook fl M input s L ls = .ok none) {n m : Nat} {p q : PathT W} (hp : p ∈ M.pathsFrom n s) (hq : q ∈ L.pathsFrom m ls)
    (e : q.tape (!input) = p.tape input) : p.2.2 = 0 ∨ q.2.2 = 0 := by
  obtain ⟨r, hr, hnone, -⟩ := trLook_spec (fl := fl) hM hs hls
  rw [h] at hr
  injection hr with hr
  obtain ⟨h1, h2, h3⟩ := hnone hr.symm
  have hM0 : ∀ t ∈ M.trsOf s, t.labelOn input ≠ EPS := by
    intro t ht h0
    rw [sortedIter_ideal (hM.sorted s), idealIter_no] at h2
    have : IterItem.tr t ∈ ((M.trsOf s).filter fun t => decide (sideLabel input t = EPS)).map IterItem.tr :=
      List.mem_map_of_mem (List.mem_filter.2 ⟨ht, decide_eq_true h0⟩)
    rw [h2] at this
    cases this
  rcases pathsFrom_first hp hM0 with ⟨e1, f1⟩ | ⟨t, ht, r1, e1⟩ <;> rcases pathsFrom_first hq (fun t ht => (h3 t ht).1) with ⟨e2, f2⟩ | ⟨u, hu, r2, e2⟩
  · exact h1 _ _ f1 f2
  · rw [e1, e2] at e; cases e
  · rw [e1, e2] at e; cases e
  · rw [e1, e2] at e
    injection e with e _
    obtain ⟨k1, k2⟩ := h3 u hu
    rw [sortedIter_ideal (hM.sorted s), idealIter_label _ _ k1 (hn _ u hu)] at k2
    have : IterItem.tr t ∈ ((M.trsOf s).filter fun t => decide (sideLabel input t = u.labelOn (!input))).map IterItem.tr :=
      List.mem_map_of_mem (List.mem_filter.2 ⟨ht, decide_eq_true e.symm⟩)
    rw [k2] at this
    cases this

theorem trLook_join_out {A B : Fst W} (hM : Searchable A false) (hn : ∀ s, ∀ t ∈ B.trsOf s, t.ilabel ≠ NO_LABEL) {fl : LaFlags} {s1 s2 : StateId}
    (h1 : s1 < A.numStates) (h2 : s2 < B.numStates) (h : trLook fl A false s1 B s2 = .ok none) : NoJoin A B s1 s2 := by
  intro n m
  rw [nonzero_eq_zero]
  intro r hr
  obtain ⟨p, hp, q, hq, e, rfl⟩ := mem_join.1 hr
  rcases trLook_none hM hn h1 h2 h hp hq e with e | e <;> simp [e]

theorem trLook_join_in {A B : Fst W} (hM : Searchable B true) (hn : ∀ s, ∀ t ∈ A.trsOf s, t.olabel ≠ NO_LABEL) {fl : LaFlags} {s1 s2 : StateId}
    (h1 : s1 < A.numStates) (h2 : s2 < B.numStates) (h : trLook fl B true s2 A s1 = .ok none) : NoJoin A B s1 s2 := by
  intro n m
  rw [nonzero_eq_zero]
  intro r hr
  obtain ⟨p, hp, q, hq, e, rfl⟩ := mem_join.1 hr
  rcases trLook_none hM hn h2 h1 h hq hp e.symm with e | e <;> simp [e]

end
end Verif
