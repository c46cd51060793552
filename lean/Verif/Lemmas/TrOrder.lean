import Verif.Lemmas.Relabel

/-! # Sorting and merging transition lists -/

namespace Verif
set_option linter.unusedSectionVars false
universe u v
variable {W : Type u}

/-- The triple that `tr_sum` and `tr_unique` sort by. -/
def Tr.key (t : Tr W) : Nat × Nat × Nat := (t.ilabel, t.olabel, t.nextstate)

theorem trLe_iff (a b : Tr W) : trLe a b = true ↔ a.ilabel < b.ilabel ∨ (a.ilabel = b.ilabel ∧
    (a.olabel < b.olabel ∨ (a.olabel = b.olabel ∧ a.nextstate ≤ b.nextstate))) := by
  unfold trLe
  split
  · simp_all
  · split
    · simp only [Bool.false_eq_true, false_iff]; omega
    · split
      · simp only [true_iff]; omega
      · split
        · simp only [Bool.false_eq_true, false_iff]; omega
        · simp only [decide_eq_true_eq]; omega

theorem trLe_trans (a b c : Tr W) (h1 : trLe a b = true) (h2 : trLe b c = true) : trLe a c = true := by
  rw [trLe_iff] at *; omega
theorem trLe_total (a b : Tr W) : (trLe a b || trLe b a) = true := by
  rw [Bool.or_eq_true, trLe_iff, trLe_iff]; omega
theorem key_eq_of_trLe {a b : Tr W} (h1 : trLe a b = true) (h2 : trLe b a = true) : a.key = b.key := by
  rw [trLe_iff] at *; simp only [Tr.key, Prod.mk.injEq]; omega
theorem trLe_of_key {a a' b b' : Tr W} (ha : a.key = a'.key) (hb : b.key = b'.key) : trLe a b = trLe a' b' := by
  simp only [Tr.key, Prod.mk.injEq] at ha hb
  unfold trLe
  rw [ha.1, ha.2.1, ha.2.2, hb.1, hb.2.1, hb.2.2]
theorem equalTr_iff (a b : Tr W) : equalTr a b = true ↔ a.key = b.key := by
  simp [equalTr, Tr.key, and_assoc]

theorem sortSide_trans (c : Fst.SortSide) (x y z : Tr W) (h1 : c.le x y = true) (h2 : c.le y z = true) :
    c.le x z = true := by
  cases c <;> simp [Fst.SortSide.le, ilabelLe, olabelLe] at * <;> omega
theorem sortSide_total (c : Fst.SortSide) (x y : Tr W) : (c.le x y || c.le y x) = true := by
  cases c <;> simp [Fst.SortSide.le, ilabelLe, olabelLe] <;> omega

/-- A stable sort keeps the order of the elements that compare equal to `x`. -/
theorem sortTrsBy_stable (le : Tr W → Tr W → Bool) (trans : ∀ a b c, le a b → le b c → le a c)
    (total : ∀ a b, le a b || le b a) (l : List (Tr W)) (x : Tr W) :
    (sortTrsBy le l).filter (fun t => le x t && le t x) = l.filter (fun t => le x t && le t x) := by
  have hp : (l.filter (fun t => le x t && le t x)).Pairwise (fun a b => le a b = true) := by
    rw [List.pairwise_filter]
    apply List.pairwise_of_forall
    intro a b ha hb
    simp only [Bool.and_eq_true] at ha hb
    exact trans _ _ _ ha.2 hb.1
  have hs : (l.filter (fun t => le x t && le t x)).Sublist (sortTrsBy le l) :=
    List.sublist_mergeSort trans total hp List.filter_sublist
  have h2 := hs.filter (fun t => le x t && le t x)
  rw [List.filter_filter] at h2
  simp only [Bool.and_self] at h2
  refine (h2.eq_of_length ?_).symm
  exact ((Fst.sortTrsBy_perm le l).filter _).length_eq.symm

/-! ### `sum_trs` -/

theorem sumAux_keys [Add W] (p : Tr W) (ts ni no) :
    ∀ t ∈ (sumAux p ts ni no).1, ∃ t' ∈ p :: ts, t'.key = t.key := by
  induction ts generalizing p ni no with
  | nil => intro t ht; simp [sumAux] at ht; subst ht; exact ⟨t, by simp, rfl⟩
  | cons a ts ih =>
    intro t ht
    simp only [sumAux] at ht
    split at ht
    · obtain ⟨t', h1, h2⟩ := ih _ _ _ t ht
      rcases List.mem_cons.1 h1 with h | h
      · exact ⟨p, by simp, by rw [← h2, h]; rfl⟩
      · exact ⟨t', by simp [h], h2⟩
    · simp only [List.mem_cons] at ht
      rcases ht with h | h
      · exact ⟨p, by simp, by rw [h]⟩
      · obtain ⟨t', h1, h2⟩ := ih _ _ _ t h
        exact ⟨t', List.mem_cons_of_mem _ h1, h2⟩

theorem sumAux_keys' [Add W] (p : Tr W) (ts ni no) :
    ∀ t' ∈ p :: ts, ∃ t ∈ (sumAux p ts ni no).1, t'.key = t.key := by
  induction ts generalizing p ni no with
  | nil => intro t ht; simp at ht; subst ht; exact ⟨t, by simp [sumAux], rfl⟩
  | cons a ts ih =>
    intro t' ht'
    simp only [sumAux]
    split
    · rename_i he
      rw [equalTr_iff] at he
      have key : ∀ w : W, ({ p with weight := w } : Tr W).key = p.key := fun _ => rfl
      rcases List.mem_cons.1 ht' with h | h
      · obtain ⟨t, h1, h2⟩ := ih { p with weight := p.weight + a.weight } _ _ _ (List.mem_cons_self ..)
        exact ⟨t, h1, by rw [h]; exact h2⟩
      · rcases List.mem_cons.1 h with h | h
        · obtain ⟨t, h1, h2⟩ := ih { p with weight := p.weight + a.weight } _ _ _ (List.mem_cons_self ..)
          exact ⟨t, h1, by rw [h, he]; exact h2⟩
        · exact ih _ _ _ t' (by simp [h])
    · rcases List.mem_cons.1 ht' with h | h
      · exact ⟨p, by simp, by rw [h]⟩
      · obtain ⟨t, h1, h2⟩ := ih a ni no t' h
        exact ⟨t, by simp [h1], h2⟩

theorem sumAux_nodup [Add W] (p : Tr W) (ts ni no) (hs : (p :: ts).Pairwise (fun a b => trLe a b = true)) :
    ((sumAux p ts ni no).1.map Tr.key).Nodup := by
  induction ts generalizing p ni no with
  | nil => simp [sumAux]
  | cons a ts ih =>
    simp only [sumAux]
    rw [List.pairwise_cons] at hs
    obtain ⟨h1, h2⟩ := hs
    have h2' := h2
    rw [List.pairwise_cons] at h2
    split
    · rename_i he
      apply ih
      rw [List.pairwise_cons]
      refine ⟨?_, h2.2⟩
      intro b hb
      have := h1 b (by simp [hb])
      exact (trLe_of_key (a' := p) (b' := b) rfl rfl).trans this
    · rename_i he
      rw [equalTr_iff] at he
      simp only [List.map_cons, List.nodup_cons]
      refine ⟨?_, ih a ni no h2'⟩
      intro hm
      obtain ⟨t, ht, hk⟩ := List.mem_map.1 hm
      obtain ⟨t', ht', hk'⟩ := sumAux_keys a ts ni no t ht
      have hkp : t'.key = p.key := hk'.trans hk
      rcases List.mem_cons.1 ht' with h | h
      · rw [h] at hkp; exact he hkp
      · have l1 := h2.1 t' h
        have l2 := h1 a (by simp)
        rw [trLe_of_key (a := a) (b := t') (a' := a) (b' := p) rfl hkp] at l1
        exact he (key_eq_of_trLe l1 l2)

/-- Any quantity additive in the weight is unchanged by merging. -/
theorem sumAux_total [Add W] {M : Type v} [AddCommMonoid M] (G : Nat × Nat × Nat → W → M)
    (hG : ∀ k a b, G k (a + b) = G k a + G k b) (p : Tr W) (ts ni no) :
    ((sumAux p ts ni no).1.map fun t => G t.key t.weight).sum = ((p :: ts).map fun t => G t.key t.weight).sum := by
  induction ts generalizing p ni no with
  | nil => rfl
  | cons a ts ih =>
    simp only [sumAux]
    split
    · rename_i he
      rw [equalTr_iff] at he
      rw [ih]
      simp only [List.map_cons, List.sum_cons]
      have : ({ p with weight := p.weight + a.weight } : Tr W).key = p.key := rfl
      rw [this, hG, he, add_assoc]
    · simp only [List.map_cons, List.sum_cons]
      rw [ih]
      simp

namespace Fst

theorem sumList_nodup [Add W] (l : List (Tr W)) : ((sumList l).map Tr.key).Nodup := by
  unfold sumList
  have hs := List.pairwise_mergeSort (le := trLe) trLe_trans trLe_total l
  change (sortTrsBy trLe l).Pairwise _ at hs
  cases h : sortTrsBy trLe l with
  | nil => simp [sumLoop]
  | cons p ts => rw [h] at hs; exact sumAux_nodup p ts 0 0 hs

theorem sumList_total [Add W] {M : Type v} [AddCommMonoid M] (G : Nat × Nat × Nat → W → M)
    (hG : ∀ k a b, G k (a + b) = G k a + G k b) (l : List (Tr W)) :
    ((sumList l).map fun t => G t.key t.weight).sum = (l.map fun t => G t.key t.weight).sum := by
  rw [← ((sortTrsBy_perm trLe l).map _).sum_eq]
  unfold sumList
  cases sortTrsBy trLe l with
  | nil => simp [sumLoop]
  | cons p ts => exact sumAux_total G hG p ts 0 0

theorem sumList_keys [Add W] (l : List (Tr W)) (k) : k ∈ (sumList l).map Tr.key ↔ k ∈ l.map Tr.key := by
  rw [← ((sortTrsBy_perm trLe l).map Tr.key).mem_iff]
  unfold sumList
  cases sortTrsBy trLe l with
  | nil => simp [sumLoop]
  | cons p ts =>
    simp only [sumLoop, List.mem_map]
    constructor
    · rintro ⟨t, ht, rfl⟩
      obtain ⟨t', h1, h2⟩ := sumAux_keys p ts 0 0 t ht
      exact ⟨t', h1, h2⟩
    · rintro ⟨t, ht, rfl⟩
      obtain ⟨t', h1, h2⟩ := sumAux_keys' p ts 0 0 t ht
      exact ⟨t', h1, h2.symm⟩

/-- `null_properties` are true of every FST without states. -/
theorem holds_null [Zero W] [One W] {f : Fst W} (h0 : f.numStates = 0) (b) (hb : Props.nullMask b = true) :
    f.Holds b := by
  have ht : ∀ s, f.trsOf s = [] := fun s => trsOf_of_ge (by omega)
  have hf : ∀ s, f.finOf s = none := fun s => finOf_of_ge (by omega)
  have hE : ∀ a b, ¬ f.Edge a b := by rintro a b ⟨t, h, -⟩; rw [ht] at h; simp at h
  have hc : ∀ s, ¬ f.OnCycle s := by
    intro s hs
    obtain ⟨c, hc, -⟩ := (Relation.TransGen.head'_iff).1 hs
    exact hE _ _ hc
  cases b <;> first
    | (simp [Props.nullMask, Props.of_apply] at hb; done)
    | simp [Holds, Unweighted, IsLinear, HasWeightedCycle, ht, hf, h0, hc]

theorem dedupAux_sublist [DecidableEq W] (p : Tr W) (ts : List (Tr W)) : (dedupAux p ts).Sublist (p :: ts) := by
  induction ts generalizing p with
  | nil => exact List.Sublist.refl _
  | cons t ts ih =>
    simp only [dedupAux]
    split
    · exact (ih p).trans (by simp)
    · exact (ih t).cons_cons p

theorem dedupTrs_sublist [DecidableEq W] (l : List (Tr W)) : (dedupTrs l).Sublist l := by
  cases l with
  | nil => exact List.Sublist.refl _
  | cons t ts => exact dedupAux_sublist t ts

end Fst
end Verif
