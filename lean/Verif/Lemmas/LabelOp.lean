import Verif.Lemmas.LabelJoin

/-!
# The transitions of a composition that pushes labels
-/

namespace Verif
universe u
variable {W : Type u} {FS : Type}

section
variable [Zero W] [One W] [Add W] [Mul W] [DecidableEq W] {A B : Fst W}

/-- What becomes of a pair. -/
def pairP (flt : Tr W → Tr W → R (Option (LabelVerdict FS W))) (x : Tr W × Tr W) : Option (MTr (CTup (FS × Label)) W) :=
  match flt x.1 x.2 with
  | .ok (some (fs, a, b)) => some (addTr a b fs)
  | _ => none

omit [Zero W] [One W] [Add W] [DecidableEq W] in
theorem collect_pairs {α : Type*} (flt : Tr W → Tr W → R (Option (LabelVerdict FS W))) (pr : α → Tr W × Tr W) (it : List α)
    (h : ∀ i ∈ it, ∃ r, flt (pr i).1 (pr i).2 = .ok r) :
    collectR (fun i => match flt (pr i).1 (pr i).2 with
      | .error e => .error e
      | .ok none => .ok []
      | .ok (some (fs, a, b)) => .ok [addTr a b fs]) it = .ok ((it.map pr).filterMap (pairP flt)) := by
  rw [collectR_ok (g := fun i => (pairP flt (pr i)).toList)]
  · congr 1
    rw [List.filterMap_map]
    induction it with
    | nil => rfl
    | cons i it ih =>
      rw [List.flatMap_cons, ih fun j hj => h j (List.mem_cons_of_mem _ hj), List.filterMap_cons]
      simp only [Function.comp_apply]
      cases pairP flt (pr i) <;> rfl
  · intro i hi
    obtain ⟨r, hr⟩ := h i hi
    simp only [hr, pairP]
    rcases r with _ | ⟨fs, a, b⟩ <;> rfl

theorem expandP_in {m : MultiEps} {it : Label → List (IterItem W)} (flt : Tr W → Tr W → R (Option (LabelVerdict FS W))) {s1 s2 : StateId} (h1 : s1 < A.numStates)
    (hit : ∀ l, m.iterR (sortedIterR B true s2) l = .ok (it l)) (h : ∀ x ∈ pairsIn it s1 s2 (A.trsOf s1), ∃ r, flt x.1 x.2 = .ok r) :
    orderedExpandP A B m true flt s2 s1 = .ok ((pairsIn it s1 s2 (A.trsOf s1)).filterMap (pairP flt)) := by
  have g1 : A.getTrsR s1 = .ok (A.trsOf s1) := by
    have : A.states[s1]? = some A.states[s1] := List.getElem?_eq_getElem h1
    simp [Fst.getTrsR, Fst.trsOf, this]
  have step : ∀ a ∈ loop1 s1 :: A.trsOf s1, matchTrP B m true flt s2 a = .ok (((it a.olabel).map fun i => (a, i.intoTr s2 true)).filterMap (pairP flt)) := by
    intro a ha
    simp only [matchTrP, if_true, hit, matchTrSelectedP]
    exact collect_pairs flt (fun i : IterItem W => (a, i.intoTr s2 true)) _ fun i hi => h (a, i.intoTr s2 true) (List.mem_flatMap.2 ⟨a, ha, List.mem_map_of_mem hi⟩)
  simp only [orderedExpandP, if_true, g1]
  have := step (loop1 s1) (by simp)
  simp only [loop1] at this
  rw [this, collectR_ok fun a ha => step a (List.mem_cons_of_mem _ ha)]
  simp only [pairsIn, List.flatMap_cons, List.filterMap_append, List.filterMap_flatMap]
  rfl

theorem expandP_out {m : MultiEps} {it : Label → List (IterItem W)} (flt : Tr W → Tr W → R (Option (LabelVerdict FS W))) {s1 s2 : StateId} (h2 : s2 < B.numStates)
    (hit : ∀ l, m.iterR (sortedIterR A false s1) l = .ok (it l)) (h : ∀ x ∈ pairsOut it s1 s2 (B.trsOf s2), ∃ r, flt x.1 x.2 = .ok r) :
    orderedExpandP A B m false flt s1 s2 = .ok ((pairsOut it s1 s2 (B.trsOf s2)).filterMap (pairP flt)) := by
  have g2 : B.getTrsR s2 = .ok (B.trsOf s2) := by
    have : B.states[s2]? = some B.states[s2] := List.getElem?_eq_getElem h2
    simp [Fst.getTrsR, Fst.trsOf, this]
  have step : ∀ b ∈ loop2 s2 :: B.trsOf s2, matchTrP A m false flt s1 b = .ok (((it b.ilabel).map fun i => (i.intoTr s1 false, b)).filterMap (pairP flt)) := by
    intro b hb
    simp only [matchTrP, Bool.false_eq_true, if_false, hit, matchTrSelectedP]
    exact collect_pairs flt (fun i : IterItem W => (i.intoTr s1 false, b)) _ fun i hi => h (i.intoTr s1 false, b) (List.mem_flatMap.2 ⟨b, hb, List.mem_map_of_mem hi⟩)
  simp only [orderedExpandP, Bool.false_eq_true, if_false, g2]
  have := step (loop2 s2) (by simp)
  simp only [loop2] at this
  rw [this, collectR_ok fun a ha => step a (List.mem_cons_of_mem _ ha)]
  simp only [pairsOut, List.flatMap_cons, List.filterMap_append, List.filterMap_flatMap]
  rfl

/-- Matching a tuple, whichever operand is searched: the transitions are those of the pairs. -/
theorem expandP_pairs {mt : MatchT} (h : Composable A B mt) {s1 s2 : StateId} (h1 : s1 < A.numStates) (h2 : s2 < B.numStates)
    {flt : Tr W → Tr W → R (Option (LabelVerdict FS W))} {m1 m2 : MultiEps} {S : Multiset (MTr (CTup (FS × Label)) W)}
    (hin : (∀ l, sortedIterR B true s2 l = .ok (idealIter true (B.trsOf s2) l)) → ∃ l : List _, orderedExpandP A B m2 true flt s2 s1 = .ok l ∧ (l : Multiset _) = S)
    (hout : (∀ l, sortedIterR A false s1 l = .ok (idealIter false (A.trsOf s1) l)) → ∃ l : List _, orderedExpandP A B m1 false flt s1 s2 = .ok l ∧ (l : Multiset _) = S) :
    ∃ l : List _, expandP A B mt s1 s2 ⟨flt, m1, m2⟩ = .ok l ∧ (l : Multiset _) = S := by
  have g1 : A.states[s1]? = some A.states[s1] := List.getElem?_eq_getElem h1
  have g2 : B.states[s2]? = some B.states[s2] := List.getElem?_eq_getElem h2
  have hin' : mt ≠ .output → ∃ l : List _, orderedExpandP A B m2 true flt s2 s1 = .ok l ∧ (l : Multiset _) = S := fun hm =>
    hin fun l => by rw [sortedIterR_ok h2, sortedIter_ideal (by rw [sideLabel_true]; exact h.sorted2 hm _)]
  have hout' : mt ≠ .input → ∃ l : List _, orderedExpandP A B m1 false flt s1 s2 = .ok l ∧ (l : Multiset _) = S := fun hm =>
    hout fun l => by rw [sortedIterR_ok h1, sortedIter_ideal (by rw [sideLabel_false]; exact h.sorted1 hm _)]
  unfold expandP
  cases mt with
  | input => exact hin' (by simp)
  | output => exact hout' (by simp)
  | both =>
    simp only [matchInput, Fst.numTrsR, g1, g2]
    by_cases hc : A.states[s1].trs.length ≤ B.states[s2].trs.length
    · simp only [hc, decide_true]; exact hin' (by simp)
    · simp only [hc, decide_false]; exact hout' (by simp)

/-- Without pushed labels. -/
theorem expandP_plain {mt : MatchT} (h : Composable A B mt) {s1 s2 : StateId} (h1 : s1 < A.numStates) (h2 : s2 < B.numStates)
    {flt : Tr W → Tr W → R (Option (LabelVerdict FS W))} {m1 m2 : MultiEps} (e1 : m1.labels = .empty) (e2 : m2.labels = .empty)
    (hok : ∀ x ∈ pairsU A B s1 s2, ∃ r, flt x.1 x.2 = .ok r) :
    ∃ l : List _, expandP A B mt s1 s2 ⟨flt, m1, m2⟩ = .ok l ∧ (l : Multiset _) = (pairsU A B s1 s2).filterMap (pairP flt) := by
  obtain ⟨l1, p1, q1⟩ := m1
  obtain ⟨l2, p2, q2⟩ := m2
  subst e1 e2
  refine expandP_pairs h h1 h2 (fun hs => ?_) (fun hs => ?_)
  · refine ⟨_, expandP_in flt h1 (it := idealIter true (B.trsOf s2)) (fun l => by rw [MultiEps.iterR_empty, hs]) ?_, ?_⟩
    · intro x hx
      rw [← Multiset.mem_coe, pairsIn_eq (h.noLabel1 _)] at hx
      exact hok x hx
    · rw [← pairsIn_eq (h.noLabel1 _), Multiset.filterMap_coe]
  · refine ⟨_, expandP_out flt h2 (it := idealIter false (A.trsOf s1)) (fun l => by rw [MultiEps.iterR_empty, hs]) ?_, ?_⟩
    · intro x hx
      rw [← Multiset.mem_coe, pairsOut_eq (h.noLabel2 _)] at hx
      exact hok x hx
    · rw [← pairsOut_eq (h.noLabel2 _), Multiset.filterMap_coe]

omit [Zero W] [One W] [Add W] [Mul W] [DecidableEq W] in
theorem filterMap_split {β : Type*} (g : Tr W → Option β) {l : Label} (hl : l ≠ EPS) (hg : ∀ a, a.olabel ≠ l → a.olabel ≠ EPS → g a = none) : ∀ ts : List (Tr W),
    (((ts.filter fun t => decide (sideLabel false t = l)).filterMap g ++ (ts.filter fun t => decide (sideLabel false t = EPS)).filterMap g : List β) : Multiset β) = ts.filterMap g
  | [] => rfl
  | a :: ts => by
    have ih := filterMap_split g hl hg ts
    have es : sideLabel false a = a.olabel := rfl
    rw [← Multiset.coe_add] at ih ⊢
    by_cases h1 : a.olabel = l
    · rw [List.filter_cons_of_pos (by simp [es, h1]), List.filter_cons_of_neg (by simp [es, h1, hl])]
      cases hga : g a with
      | none => rw [List.filterMap_cons_none hga, List.filterMap_cons_none hga, ih]
      | some y => rw [List.filterMap_cons_some hga, List.filterMap_cons_some hga, ← Multiset.cons_coe, ← Multiset.cons_coe, Multiset.cons_add, ih]
    · rw [List.filter_cons_of_neg (by simp [es, h1])]
      by_cases h2 : a.olabel = EPS
      · rw [List.filter_cons_of_pos (by simp [es, h2])]
        cases hga : g a with
        | none => rw [List.filterMap_cons_none hga, List.filterMap_cons_none hga, ih]
        | some y => rw [List.filterMap_cons_some hga, List.filterMap_cons_some hga, ← Multiset.cons_coe, ← Multiset.cons_coe, Multiset.add_cons, ih]
      · rw [List.filter_cons_of_neg (by simp [es, h2]), List.filterMap_cons_none (hg a h1 h2), ih]

/-- With the label `fl` pushed, on the output side: only transitions of the first FST are left, and the second FST stays. -/
theorem expandP_pushed {mt : MatchT} (h : Composable A B mt) {s1 s2 : StateId} (h1 : s1 < A.numStates) (h2 : s2 < B.numStates) {fl : Label} (hf0 : fl ≠ EPS) (hf1 : fl ≠ NO_LABEL)
    {flt : Tr W → Tr W → R (Option (LabelVerdict FS W))} (hrej : ∀ a b, b.ilabel ≠ NO_LABEL → flt a b = .ok none)
    (hoth : ∀ a, a.olabel ≠ fl → a.olabel ≠ EPS → flt a (loop2 s2) = .ok none) (hok : ∀ a ∈ A.trsOf s1, ∃ r, flt a (loop2 s2) = .ok r) :
    ∃ l : List _, expandP A B mt s1 s2 ⟨flt, ⟨true, false, LabelSet.empty.insert fl⟩, ⟨false, true, LabelSet.empty.insert fl⟩⟩ = .ok l ∧
      (l : Multiset _) = (A.trsOf s1 : Multiset (Tr W)).filterMap fun a => pairP flt (a, loop2 s2) := by
  have hnone : ∀ (a b : Tr W), b.ilabel ≠ NO_LABEL → pairP flt (a, b) = none := fun a b hb => by simp [pairP, hrej a b hb]
  refine expandP_pairs h h1 h2 (fun hs => ?_) (fun hs => ?_)
  · have hmem : ∀ a ∈ loop1 s1 :: A.trsOf s1, ∀ i ∈ (if a.olabel = fl then [IterItem.epsLoop] else idealIter true (B.trsOf s2) a.olabel),
        (i.intoTr s2 true = loop2 s2 ∧ a ∈ A.trsOf s1) ∨ (i.intoTr s2 true).ilabel ≠ NO_LABEL := by
      intro a ha i hi
      have htr : ∀ t ∈ B.trsOf s2, i = .tr t → (i.intoTr s2 true).ilabel ≠ NO_LABEL := by
        rintro t ht rfl; exact h.noLabel2 _ t ht
      by_cases e : a.olabel = fl
      · rw [if_pos e, List.mem_singleton] at hi
        subst hi
        refine .inl ⟨rfl, (List.mem_cons.1 ha).resolve_left ?_⟩
        rintro rfl; exact hf1 e.symm
      · rw [if_neg e] at hi
        by_cases e0 : a.olabel = EPS
        · rw [e0, idealIter_eps] at hi
          rcases List.mem_cons.1 hi with rfl | hi
          · refine .inl ⟨rfl, (List.mem_cons.1 ha).resolve_left ?_⟩
            rintro rfl; exact absurd e0 (by simp [loop1, NO_LABEL])
          · obtain ⟨t, ht, rfl⟩ := List.mem_map.1 hi
            exact .inr (htr t (List.mem_of_mem_filter ht) rfl)
        · by_cases e1 : a.olabel = NO_LABEL
          · rw [e1, idealIter_no] at hi
            obtain ⟨t, ht, rfl⟩ := List.mem_map.1 hi
            exact .inr (htr t (List.mem_of_mem_filter ht) rfl)
          · rw [idealIter_label _ _ e0 e1] at hi
            obtain ⟨t, ht, rfl⟩ := List.mem_map.1 hi
            exact .inr (htr t (List.mem_of_mem_filter ht) rfl)
    refine ⟨_, expandP_in flt h1 (it := fun l => if l = fl then [IterItem.epsLoop] else idealIter true (B.trsOf s2) l)
      (fun l => by rw [MultiEps.iterR_loop hf1 hf0, hs]; split <;> rfl) ?_, ?_⟩
    · intro x hx
      obtain ⟨a, ha, hx⟩ := List.mem_flatMap.1 hx
      obtain ⟨i, hi, rfl⟩ := List.mem_map.1 hx
      rcases hmem a ha i hi with ⟨e, ha'⟩ | e
      · simp only [e]; exact hok a ha'
      · exact ⟨none, hrej _ _ e⟩
    · have hnil : ∀ (a : Tr W) (its : List (IterItem W)), (∀ i ∈ its, (i.intoTr s2 true).ilabel ≠ NO_LABEL) →
          (its.map fun i => (a, i.intoTr s2 true)).filterMap (pairP flt) = [] := by
        intro a its hi
        rw [List.filterMap_eq_nil_iff]
        intro x hx
        obtain ⟨i, hi', rfl⟩ := List.mem_map.1 hx
        exact hnone _ _ (hi i hi')
      have htrs : ∀ (p : Tr W → Bool), ∀ i ∈ ((B.trsOf s2).filter p).map IterItem.tr, (i.intoTr s2 true).ilabel ≠ NO_LABEL := by
        intro p i hi
        obtain ⟨t, ht, rfl⟩ := List.mem_map.1 hi
        exact h.noLabel2 _ t (List.mem_of_mem_filter ht)
      have each : ∀ a ∈ A.trsOf s1, (((if a.olabel = fl then [IterItem.epsLoop] else idealIter true (B.trsOf s2) a.olabel).map fun i => (a, i.intoTr s2 true)).filterMap (pairP flt)) =
          (pairP flt (a, loop2 s2)).toList := by
        intro a ha
        have e2 : (IterItem.epsLoop : IterItem W).intoTr s2 true = loop2 s2 := rfl
        by_cases e : a.olabel = fl
        · rw [if_pos e]; simp only [List.map_cons, List.map_nil, List.filterMap_cons, List.filterMap_nil, e2]
          cases pairP flt (a, loop2 s2) <;> rfl
        · rw [if_neg e]
          by_cases e0 : a.olabel = EPS
          · rw [e0, idealIter_eps]
            simp only [List.map_cons, List.filterMap_cons, e2]
            rw [hnil a _ (htrs _)]
            cases pairP flt (a, loop2 s2) <;> rfl
          · rw [idealIter_label _ _ e0 (h.noLabel1 _ a ha), hnil a _ (htrs _)]
            simp [pairP, hoth a e e0]
      rw [Multiset.filterMap_coe]
      congr 1
      simp only [pairsIn, List.flatMap_cons, List.filterMap_append, List.filterMap_flatMap]
      have e1 : (loop1 s1 : Tr W).olabel = NO_LABEL := rfl
      rw [e1, if_neg (Ne.symm hf1), idealIter_no, hnil _ _ (htrs _), List.nil_append, List.flatMap_congr each]
      induction A.trsOf s1 with
      | nil => rfl
      | cons a ts ih =>
        rw [List.flatMap_cons, ih, List.filterMap_cons]
        cases pairP flt (a, loop2 s2) <;> rfl
  · have hb : ∀ b ∈ loop2 s2 :: B.trsOf s2, b = loop2 s2 ∨ b.ilabel ≠ NO_LABEL := by
      intro b hb
      rcases List.mem_cons.1 hb with e | e
      · exact .inl e
      · exact .inr (h.noLabel2 _ b e)
    refine ⟨_, expandP_out flt h2 (it := fun l => if l = NO_LABEL then idealIter false (A.trsOf s1) fl ++ idealIter false (A.trsOf s1) NO_LABEL else idealIter false (A.trsOf s1) l)
      (fun l => by rw [MultiEps.iterR_list hs]; split <;> rfl) ?_, ?_⟩
    · intro x hx
      obtain ⟨b, hb', hx⟩ := List.mem_flatMap.1 hx
      obtain ⟨i, hi, rfl⟩ := List.mem_map.1 hx
      rcases hb b hb' with rfl | e
      · have e1 : (loop2 s2 : Tr W).ilabel = NO_LABEL := rfl
        rw [e1] at hi
        simp only [if_true] at hi
        rw [idealIter_label _ _ hf0 hf1, idealIter_no] at hi
        rcases List.mem_append.1 hi with hi | hi <;> obtain ⟨t, ht, rfl⟩ := List.mem_map.1 hi <;> exact hok t (List.mem_of_mem_filter ht)
      · exact ⟨none, hrej _ _ e⟩
    · have hrest : (B.trsOf s2).flatMap (fun b => ((if b.ilabel = NO_LABEL then idealIter false (A.trsOf s1) fl ++ idealIter false (A.trsOf s1) NO_LABEL
          else idealIter false (A.trsOf s1) b.ilabel).map fun i => (i.intoTr s1 false, b)).filterMap (pairP flt)) = [] := by
        rw [List.flatMap_eq_nil_iff]
        intro b hb'
        rw [List.filterMap_eq_nil_iff]
        intro x hx
        obtain ⟨i, -, rfl⟩ := List.mem_map.1 hx
        exact hnone _ _ (h.noLabel2 _ b hb')
      simp only [pairsOut, List.flatMap_cons, List.filterMap_append, List.filterMap_flatMap]
      have e1 : (loop2 s2 : Tr W).ilabel = NO_LABEL := rfl
      rw [hrest, List.append_nil, e1, if_pos rfl, idealIter_label _ _ hf0 hf1, idealIter_no, List.map_append, List.filterMap_append, List.map_map, List.map_map,
        List.filterMap_map, List.filterMap_map, Multiset.filterMap_coe]
      exact filterMap_split (fun a => pairP flt (a, loop2 s2)) hf0 (fun a h1 h2 => by simp [pairP, hoth a h1 h2]) (A.trsOf s1)

end
end Verif
