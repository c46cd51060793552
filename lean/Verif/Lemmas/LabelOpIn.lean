import Verif.Lemmas.LabelOp

/-!
# Reading a label that has been pushed, on the input side

`readsIn B l n s`: the paths of `n` transitions whose input begins with `l`, this label dropped.
-/

namespace Verif
universe u
variable {W : Type u} {FS : Type}

section
variable [CommMonoidWithZero W]

/-- The paths from `s` whose input begins with `l`, with the label dropped. -/
def readsIn (B : Fst W) (l : Label) : Nat → StateId → Multiset (PathT W)
  | 0, _ => 0
  | n + 1, s => (B.trsOf s : Multiset (Tr W)).bind fun b =>
      if b.ilabel = l then (B.pathsFrom n b.nextstate).map fun p => PathT.cat ([], strip b.olabel, b.weight) p
      else if b.ilabel = EPS then (readsIn B l n b.nextstate).map fun p => PathT.cat ([], strip b.olabel, b.weight) p
      else 0

theorem readsIn_succ (B : Fst W) (l : Label) (n s) : readsIn B l (n + 1) s = (B.trsOf s : Multiset (Tr W)).bind fun b =>
      if b.ilabel = l then (B.pathsFrom n b.nextstate).map fun p => PathT.cat ([], strip b.olabel, b.weight) p
      else if b.ilabel = EPS then (readsIn B l n b.nextstate).map fun p => PathT.cat ([], strip b.olabel, b.weight) p
      else 0 := rfl

theorem readsIn_canRead {B : Fst W} {l : Label} : ∀ {n s} {p : PathT W}, p ∈ readsIn B l n s → B.CanRead true s l
  | 0, s, p, h => by simp [readsIn] at h
  | n + 1, s, p, h => by
    rw [readsIn_succ] at h
    obtain ⟨a, ha, h⟩ := Multiset.mem_bind.1 h
    have ha := Multiset.mem_coe.1 ha
    by_cases h1 : a.ilabel = l
    · exact ⟨s, .refl, a, ha, h1⟩
    · rw [if_neg h1] at h
      by_cases h2 : a.ilabel = EPS
      · rw [if_pos h2] at h
        obtain ⟨p', hp', -⟩ := Multiset.mem_map.1 h
        obtain ⟨q, hq, hr⟩ := readsIn_canRead hp'
        exact ⟨q, .head ⟨a, ha, h2, rfl⟩ hq, hr⟩
      · rw [if_neg h2] at h; simp at h

/-- Joining with the paths that begin with a transition is reading its label first. -/
theorem join_begins_in {A B : Fst W} {t : Tr W} (h0 : t.olabel ≠ EPS) (n : Nat) : ∀ m s, joinPaths (begins A t (n + 1)) (B.pathsFrom m s) =
    (joinPaths (A.pathsFrom n t.nextstate) (readsIn B t.olabel m s)).map fun p => PathT.cat (strip t.ilabel, [], t.weight) p
  | 0, s => by
    have e0 : B.pathsFrom 0 s = finPath (B.finOf s) := by simp only [Fst.pathsFrom, finPath]; rfl
    simp only [readsIn, join_zero_right, Multiset.map_zero]
    refine Multiset.eq_zero_of_forall_notMem fun r hr => ?_
    obtain ⟨p, hp, q, hq, e, _⟩ := mem_join.1 hr
    rw [e0] at hq
    obtain ⟨p', -, rfl⟩ := Multiset.mem_map.1 hp
    rw [(fin_nil hq).1] at e
    simp [PathT.cat, Tr.asPath, strip, h0] at e
  | m + 1, s => by
    rw [Fst.pathsFrom_succ, readsIn_succ, join_bind_right, join_bind_right, Multiset.map_bind]
    refine Multiset.bind_congr fun b _ => ?_
    by_cases h1 : b.ilabel = t.olabel
    · rw [if_pos h1, join_map_right, Multiset.map_map]
      have eb : b.asPath = ([t.olabel], strip b.olabel, b.weight) := by simp [Tr.asPath, strip, h1, h0]
      have et : t.asPath = (strip t.ilabel, [t.olabel], t.weight) := by simp [Tr.asPath, strip, h0]
      simp only [begins, eb, et]
      rw [join_map_both, if_pos rfl]
      refine Multiset.map_congr rfl fun p _ => ?_
      simp [PathT.cat, mul_assoc]
    · rw [if_neg h1]
      by_cases h2 : b.ilabel = EPS
      · rw [if_pos h2, join_map_right, Multiset.map_map]
        have eb : b.asPath = ([], strip b.olabel, b.weight) := by simp [Tr.asPath, strip, h2]
        simp only [eb]
        rw [join_map_right, join_begins_in h0 n m, Multiset.map_map]
        refine Multiset.map_congr rfl fun p _ => ?_
        simp [PathT.cat, mul_left_comm]
      · rw [if_neg h2]
        have eb : b.asPath = ([b.ilabel], strip b.olabel, b.weight) := by simp [Tr.asPath, strip, h2]
        have et : t.asPath = (strip t.ilabel, [t.olabel], t.weight) := by simp [Tr.asPath, strip, h0]
        simp only [begins, eb, et]
        rw [join_map_both, if_neg h1]
        simp

end

section
variable [Zero W] [One W] [Add W] [Mul W] [DecidableEq W] {A B : Fst W}

omit [Zero W] [One W] [Add W] [Mul W] [DecidableEq W] in
theorem filterMap_split_in {β : Type*} (g : Tr W → Option β) {l : Label} (hl : l ≠ EPS) (hg : ∀ b, b.ilabel ≠ l → b.ilabel ≠ EPS → g b = none) : ∀ ts : List (Tr W),
    (((ts.filter fun t => decide (sideLabel true t = l)).filterMap g ++ (ts.filter fun t => decide (sideLabel true t = EPS)).filterMap g : List β) : Multiset β) = ts.filterMap g
  | [] => rfl
  | a :: ts => by
    have ih := filterMap_split_in g hl hg ts
    have es : sideLabel true a = a.ilabel := rfl
    rw [← Multiset.coe_add] at ih ⊢
    by_cases h1 : a.ilabel = l
    · rw [List.filter_cons_of_pos (by simp [es, h1]), List.filter_cons_of_neg (by simp [es, h1, hl])]
      cases hga : g a with
      | none => rw [List.filterMap_cons_none hga, List.filterMap_cons_none hga, ih]
      | some y => rw [List.filterMap_cons_some hga, List.filterMap_cons_some hga, ← Multiset.cons_coe, ← Multiset.cons_coe, Multiset.cons_add, ih]
    · rw [List.filter_cons_of_neg (by simp [es, h1])]
      by_cases h2 : a.ilabel = EPS
      · rw [List.filter_cons_of_pos (by simp [es, h2])]
        cases hga : g a with
        | none => rw [List.filterMap_cons_none hga, List.filterMap_cons_none hga, ih]
        | some y => rw [List.filterMap_cons_some hga, List.filterMap_cons_some hga, ← Multiset.cons_coe, ← Multiset.cons_coe, Multiset.add_cons, ih]
      · rw [List.filter_cons_of_neg (by simp [es, h2]), List.filterMap_cons_none (hg a h1 h2), ih]

/-- With the label `fl` pushed, on the input side: only transitions of the second FST are left, and the first FST stays. -/
theorem expandP_pushed_in {mt : MatchT} (h : Composable A B mt) {s1 s2 : StateId} (h1 : s1 < A.numStates) (h2 : s2 < B.numStates) {fl : Label} (hf0 : fl ≠ EPS) (hf1 : fl ≠ NO_LABEL)
    {flt : Tr W → Tr W → R (Option (LabelVerdict FS W))} (hrej : ∀ a b, a.olabel ≠ NO_LABEL → flt a b = .ok none)
    (hoth : ∀ b, b.ilabel ≠ fl → b.ilabel ≠ EPS → flt (loop1 s1) b = .ok none) (hok : ∀ b ∈ B.trsOf s2, ∃ r, flt (loop1 s1) b = .ok r) :
    ∃ l : List _, expandP A B mt s1 s2 ⟨flt, ⟨false, true, LabelSet.empty.insert fl⟩, ⟨true, false, LabelSet.empty.insert fl⟩⟩ = .ok l ∧
      (l : Multiset _) = (B.trsOf s2 : Multiset (Tr W)).filterMap fun b => pairP flt (loop1 s1, b) := by
  have hnone : ∀ (a b : Tr W), a.olabel ≠ NO_LABEL → pairP flt (a, b) = none := fun a b hb => by simp [pairP, hrej a b hb]
  refine expandP_pairs h h1 h2 (fun hs => ?_) (fun hs => ?_)
  · have ha : ∀ a ∈ loop1 s1 :: A.trsOf s1, a = loop1 s1 ∨ a.olabel ≠ NO_LABEL := by
      intro a ha
      rcases List.mem_cons.1 ha with e | e
      · exact .inl e
      · exact .inr (h.noLabel1 _ a e)
    refine ⟨_, expandP_in flt h1 (it := fun l => if l = NO_LABEL then idealIter true (B.trsOf s2) fl ++ idealIter true (B.trsOf s2) NO_LABEL else idealIter true (B.trsOf s2) l)
      (fun l => by rw [MultiEps.iterR_list hs]; split <;> rfl) ?_, ?_⟩
    · intro x hx
      obtain ⟨a, ha', hx⟩ := List.mem_flatMap.1 hx
      obtain ⟨i, hi, rfl⟩ := List.mem_map.1 hx
      rcases ha a ha' with rfl | e
      · have e1 : (loop1 s1 : Tr W).olabel = NO_LABEL := rfl
        rw [e1] at hi
        simp only [if_true] at hi
        rw [idealIter_label _ _ hf0 hf1, idealIter_no] at hi
        rcases List.mem_append.1 hi with hi | hi <;> obtain ⟨t, ht, rfl⟩ := List.mem_map.1 hi <;> exact hok t (List.mem_of_mem_filter ht)
      · exact ⟨none, hrej _ _ e⟩
    · have hrest : (A.trsOf s1).flatMap (fun a => ((if a.olabel = NO_LABEL then idealIter true (B.trsOf s2) fl ++ idealIter true (B.trsOf s2) NO_LABEL
          else idealIter true (B.trsOf s2) a.olabel).map fun i => (a, i.intoTr s2 true)).filterMap (pairP flt)) = [] := by
        rw [List.flatMap_eq_nil_iff]
        intro a ha'
        rw [List.filterMap_eq_nil_iff]
        intro x hx
        obtain ⟨i, -, rfl⟩ := List.mem_map.1 hx
        exact hnone _ _ (h.noLabel1 _ a ha')
      simp only [pairsIn, List.flatMap_cons, List.filterMap_append, List.filterMap_flatMap]
      have e1 : (loop1 s1 : Tr W).olabel = NO_LABEL := rfl
      rw [hrest, List.append_nil, e1, if_pos rfl, idealIter_label _ _ hf0 hf1, idealIter_no, List.map_append, List.filterMap_append, List.map_map, List.map_map,
        List.filterMap_map, List.filterMap_map, Multiset.filterMap_coe]
      exact filterMap_split_in (fun b => pairP flt (loop1 s1, b)) hf0 (fun b h1 h2 => by simp [pairP, hoth b h1 h2]) (B.trsOf s2)
  · have hmem : ∀ b ∈ loop2 s2 :: B.trsOf s2, ∀ i ∈ (if b.ilabel = fl then [IterItem.epsLoop] else idealIter false (A.trsOf s1) b.ilabel),
        (i.intoTr s1 false = loop1 s1 ∧ b ∈ B.trsOf s2) ∨ (i.intoTr s1 false).olabel ≠ NO_LABEL := by
      intro b hb i hi
      have htr : ∀ t ∈ A.trsOf s1, i = .tr t → (i.intoTr s1 false).olabel ≠ NO_LABEL := by
        rintro t ht rfl; exact h.noLabel1 _ t ht
      by_cases e : b.ilabel = fl
      · rw [if_pos e, List.mem_singleton] at hi
        subst hi
        refine .inl ⟨rfl, (List.mem_cons.1 hb).resolve_left ?_⟩
        rintro rfl; exact hf1 e.symm
      · rw [if_neg e] at hi
        by_cases e0 : b.ilabel = EPS
        · rw [e0, idealIter_eps] at hi
          rcases List.mem_cons.1 hi with rfl | hi
          · refine .inl ⟨rfl, (List.mem_cons.1 hb).resolve_left ?_⟩
            rintro rfl; exact absurd e0 (by simp [loop2, NO_LABEL])
          · obtain ⟨t, ht, rfl⟩ := List.mem_map.1 hi
            exact .inr (htr t (List.mem_of_mem_filter ht) rfl)
        · by_cases e1 : b.ilabel = NO_LABEL
          · rw [e1, idealIter_no] at hi
            obtain ⟨t, ht, rfl⟩ := List.mem_map.1 hi
            exact .inr (htr t (List.mem_of_mem_filter ht) rfl)
          · rw [idealIter_label _ _ e0 e1] at hi
            obtain ⟨t, ht, rfl⟩ := List.mem_map.1 hi
            exact .inr (htr t (List.mem_of_mem_filter ht) rfl)
    refine ⟨_, expandP_out flt h2 (it := fun l => if l = fl then [IterItem.epsLoop] else idealIter false (A.trsOf s1) l)
      (fun l => by rw [MultiEps.iterR_loop hf1 hf0, hs]; split <;> rfl) ?_, ?_⟩
    · intro x hx
      obtain ⟨b, hb, hx⟩ := List.mem_flatMap.1 hx
      obtain ⟨i, hi, rfl⟩ := List.mem_map.1 hx
      rcases hmem b hb i hi with ⟨e, hb'⟩ | e
      · simp only [e]; exact hok b hb'
      · exact ⟨none, hrej _ _ e⟩
    · have hnil : ∀ (b : Tr W) (its : List (IterItem W)), (∀ i ∈ its, (i.intoTr s1 false).olabel ≠ NO_LABEL) →
          (its.map fun i => (i.intoTr s1 false, b)).filterMap (pairP flt) = [] := by
        intro b its hi
        rw [List.filterMap_eq_nil_iff]
        intro x hx
        obtain ⟨i, hi', rfl⟩ := List.mem_map.1 hx
        exact hnone _ _ (hi i hi')
      have htrs : ∀ (p : Tr W → Bool), ∀ i ∈ ((A.trsOf s1).filter p).map IterItem.tr, (i.intoTr s1 false).olabel ≠ NO_LABEL := by
        intro p i hi
        obtain ⟨t, ht, rfl⟩ := List.mem_map.1 hi
        exact h.noLabel1 _ t (List.mem_of_mem_filter ht)
      have each : ∀ b ∈ B.trsOf s2, (((if b.ilabel = fl then [IterItem.epsLoop] else idealIter false (A.trsOf s1) b.ilabel).map fun i => (i.intoTr s1 false, b)).filterMap (pairP flt)) =
          (pairP flt (loop1 s1, b)).toList := by
        intro b hb
        have e2 : (IterItem.epsLoop : IterItem W).intoTr s1 false = loop1 s1 := rfl
        by_cases e : b.ilabel = fl
        · rw [if_pos e]; simp only [List.map_cons, List.map_nil, List.filterMap_cons, List.filterMap_nil, e2]
          cases pairP flt (loop1 s1, b) <;> rfl
        · rw [if_neg e]
          by_cases e0 : b.ilabel = EPS
          · rw [e0, idealIter_eps]
            simp only [List.map_cons, List.filterMap_cons, e2]
            rw [hnil b _ (htrs _)]
            cases pairP flt (loop1 s1, b) <;> rfl
          · rw [idealIter_label _ _ e0 (h.noLabel2 _ b hb), hnil b _ (htrs _)]
            simp [pairP, hoth b e e0]
      rw [Multiset.filterMap_coe]
      congr 1
      simp only [pairsOut, List.flatMap_cons, List.filterMap_append, List.filterMap_flatMap]
      have e1 : (loop2 s2 : Tr W).ilabel = NO_LABEL := rfl
      rw [e1, if_neg (Ne.symm hf1), idealIter_no, hnil _ _ (htrs _), List.nil_append, List.flatMap_congr each]
      induction B.trsOf s2 with
      | nil => rfl
      | cons a ts ih =>
        rw [List.flatMap_cons, ih, List.filterMap_cons]
        cases pairP flt (loop1 s1, a) <;> rfl

end
end Verif
