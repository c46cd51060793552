import Verif.Lemmas.PartOps

/-! # What `finalize_split` does to an abstract partition -/

namespace Verif
namespace PState

/-- What holds of every reachable abstract partition; `pend` are the classes with marks. -/
structure Ok (σ : PState) (pend : List Nat) : Prop where
  nd : pend.Nodup
  lt : ∀ c ∈ pend, c < σ.nc
  some' : ∀ c ∈ pend, ∃ e, σ.cls e = some c ∧ σ.marked e = true
  el : ∀ e c, σ.cls e = some c → e < σ.n ∧ c < σ.nc ∧ (σ.marked e = true → c ∈ pend)

theorem ok_of_rep {p : Part} {σ : PState} (h : Part.Rep p σ) : σ.Ok σ.pending := by
  obtain ⟨E, C, no, yes, k, hv, hi, hf, hk⟩ := h
  refine ⟨hi.pendNd, fun c hc => ((hi.pendIff c).1 hc).1, ?_, ?_⟩
  · intro c hc
    obtain ⟨h1, h2⟩ := (hi.pendIff c).1 hc
    obtain ⟨e, he⟩ := List.exists_mem_of_ne_nil _ h2
    exact ⟨e, (hi.memYes c h1 e).1 he⟩
  · intro e c hc
    obtain ⟨h1, h2, _⟩ := hi.el e c hc
    refine ⟨h1, h2, fun hm => (hi.pendIff c).2 ⟨h2, fun h => ?_⟩⟩
    have := (hi.memYes c h2 e).2 ⟨hc, hm⟩
    rw [h] at this; cases this

theorem sizeNo_zero {σ : PState} {pend} (h : σ.Ok pend) {c} : σ.sizeNo c = 0 ↔ ∀ e, σ.cls e = some c → σ.marked e = true := by
  unfold sizeNo
  rw [List.countP_eq_zero]
  simp only [List.mem_range, Bool.and_eq_true, beq_iff_eq, Bool.not_eq_true', not_and]
  constructor
  · intro h' e he
    have := h' e (h.el e c he).1 he
    simpa using this
  · intro h' e _ he
    simp [h' e he]

/-- A split does not touch the other classes. -/
theorem split_other {σ : PState} {c x} (hx : x ≠ c) (hn : x < σ.nc) (e : Nat) : (σ.split c).cls e = some x ↔ σ.cls e = some x := by
  simp only [split]
  split
  · rename_i h
    rw [h.2.1]
    constructor
    · intro h'; injection h' with h'; omega
    · intro h'; injection h' with h'; exact absurd h'.symm hx
  · exact Iff.rfl

theorem split_nc (σ : PState) (c : Nat) : σ.nc ≤ (σ.split c).nc := by
  simp only [split]; split <;> omega

theorem Ok.split {σ : PState} {c rest} (h : σ.Ok (c :: rest)) : (σ.split c).Ok rest := by
  have hnd := List.nodup_cons.1 h.nd
  refine ⟨hnd.2, fun x hx => lt_of_lt_of_le (h.lt x (by simp [hx])) (split_nc σ c), ?_, ?_⟩
  · intro x hx
    have hxc : x ≠ c := fun e => hnd.1 (e ▸ hx)
    obtain ⟨e, h1, h2⟩ := h.some' x (by simp [hx])
    refine ⟨e, (split_other hxc (h.lt x (by simp [hx])) e).2 h1, ?_⟩
    simp [PState.split, h1, h2, hxc]
  · intro e x hx
    simp only [PState.split] at hx ⊢
    split at hx
    · rename_i h'
      injection hx with hx; subst hx
      refine ⟨(h.el e c h'.2.1).1, by rw [if_neg h'.1]; omega, ?_⟩
      simp [h'.2.1]
    · obtain ⟨h1, h2, h3⟩ := h.el e x hx
      refine ⟨h1, by split <;> omega, ?_⟩
      simp only [hx, Bool.and_eq_true, bne_iff_ne, ne_eq, Option.some.injEq]
      rintro ⟨h4, h5⟩
      have := h3 h4
      simpa [h5] using this

/-- One split separates exactly the elements with different marks. -/
theorem split_same {σ : PState} {c rest} (h : σ.Ok (c :: rest)) {e e' : Nat} (he : (σ.cls e).isSome = true) (he' : (σ.cls e').isSome = true) :
    ((σ.split c).cls e = (σ.split c).cls e' ∧ (σ.split c).marked e = (σ.split c).marked e') ↔
      (σ.cls e = σ.cls e' ∧ σ.marked e = σ.marked e') := by
  obtain ⟨x, hx⟩ := Option.isSome_iff_exists.1 he
  obtain ⟨x', hx'⟩ := Option.isSome_iff_exists.1 he'
  have l1 := (h.el e x hx).2.1
  have l2 := (h.el e' x' hx').2.1
  have hc := h.lt c (by simp)
  have hz := sizeNo_zero h (c := c)
  simp only [PState.split, hx, hx']
  by_cases h0 : σ.sizeNo c = 0
  · have hall := hz.1 h0
    simp only [h0, ne_eq, not_true_eq_false, false_and, if_false, Option.some.injEq]
    constructor
    · rintro ⟨h1, h2⟩
      subst h1
      refine ⟨rfl, ?_⟩
      by_cases hxc : x = c
      · subst hxc; rw [hall e hx, hall e' hx']
      · have : (some x != some c) = true := by simp [hxc]
        simpa [this] using h2
    · rintro ⟨h1, h2⟩
      subst h1; simp [h2]
  · simp only [h0, ne_eq, not_false_eq_true, true_and, Option.some.injEq]
    generalize (!decide (σ.sizeNo c < σ.sizeYes c)) = b
    by_cases h1 : x = c
    · subst h1
      by_cases h2 : x' = x
      · subst h2
        have : ¬ σ.nc = x' := by omega
        have : ¬ x' = σ.nc := by omega
        cases hm : σ.marked e <;> cases hm' : σ.marked e' <;> cases b <;> simp_all
      · have : ¬ x = x' := fun e => h2 e.symm
        have : ¬ σ.nc = x' := by omega
        have : ¬ x' = σ.nc := by omega
        by_cases hb : σ.marked e = b <;> simp_all
    · by_cases h2 : x' = c
      · subst h2
        have : ¬ σ.nc = x := by omega
        have : ¬ x = σ.nc := by omega
        by_cases hb : σ.marked e' = b <;> simp_all
      · have a1 : (some x != some c) = true := by simp [h1]
        have a2 : (some x' != some c) = true := by simp [h2]
        simp [h1, h2, a1, a2]

theorem finalize_same : ∀ (pend : List Nat) {σ : PState}, σ.Ok pend → ∀ {e e' : Nat}, (σ.cls e).isSome = true → (σ.cls e').isSome = true →
    ((pend.foldl PState.split σ).cls e = (pend.foldl PState.split σ).cls e' ↔ (σ.cls e = σ.cls e' ∧ σ.marked e = σ.marked e')) := by
  intro pend
  induction pend with
  | nil =>
    intro σ h e e' he he'
    obtain ⟨x, hx⟩ := Option.isSome_iff_exists.1 he
    obtain ⟨x', hx'⟩ := Option.isSome_iff_exists.1 he'
    have m1 : σ.marked e = false := by
      by_contra hm
      have := (h.el e x hx).2.2 (by simpa using hm)
      cases this
    have m2 : σ.marked e' = false := by
      by_contra hm
      have := (h.el e' x' hx').2.2 (by simpa using hm)
      cases this
    simp [m1, m2]
  | cons c rest ih =>
    intro σ h e e' he he'
    rw [List.foldl_cons]
    have d1 : ((σ.split c).cls e).isSome = true := by rw [← he]; exact Part.foldl_split_dom [c] σ e
    have d2 : ((σ.split c).cls e').isSome = true := by rw [← he']; exact Part.foldl_split_dom [c] σ e'
    rw [ih h.split d1 d2, split_same h he he']

/-- Classes without marks are left as they are. -/
theorem finalize_other : ∀ (pend : List Nat) {σ : PState} {x}, x ∉ pend → x < σ.nc → ∀ e,
    (pend.foldl PState.split σ).cls e = some x ↔ σ.cls e = some x := by
  intro pend
  induction pend with
  | nil => intro σ x _ _ e; exact Iff.rfl
  | cons c rest ih =>
    intro σ x hx hn e
    simp only [List.mem_cons, not_or] at hx
    rw [List.foldl_cons, ih hx.2 (lt_of_lt_of_le hn (split_nc σ c)), split_other hx.1 hn]

theorem size_congr {σ σ' : PState} {x} (hn : σ.n = σ'.n) (h : ∀ e, σ.cls e = some x ↔ σ'.cls e = some x) : σ.size x = σ'.size x := by
  unfold size
  rw [hn]
  apply List.countP_congr
  intro e _
  simp [h]

theorem size_eq (σ : PState) (c : Nat) : σ.size c = σ.sizeNo c + σ.sizeYes c := by
  unfold size sizeNo sizeYes
  induction List.range σ.n with
  | nil => rfl
  | cons a l ih =>
    simp only [List.countP_cons, ih]
    by_cases h : σ.cls a = some c <;> cases hm : σ.marked a <;> simp [h, hm] <;> omega

/-- The new class is not empty and not larger than what is left of the old one. -/
theorem split_sizes {σ : PState} {c rest} (h : σ.Ok (c :: rest)) (h0 : σ.sizeNo c ≠ 0) :
    0 < (σ.split c).size σ.nc ∧ (σ.split c).size σ.nc ≤ (σ.split c).size c ∧ ∀ e, (σ.split c).cls e = some σ.nc → σ.cls e = some c := by
  have hc := h.lt c (by simp)
  have hfrom : ∀ e, (σ.split c).cls e = some σ.nc → σ.cls e = some c := by
    intro e he
    simp only [split] at he
    split at he
    · rename_i h'; exact h'.2.1
    · have := (h.el e _ he).2.1; omega
  have hy : 0 < σ.sizeYes c := by
    obtain ⟨e, h1, h2⟩ := h.some' c (by simp)
    unfold sizeYes
    rw [List.countP_pos_iff]
    exact ⟨e, List.mem_range.2 (h.el e c h1).1, by simp [h1, h2]⟩
  have hne : ¬ σ.nc = c := by omega
  have hneq : ∀ e, σ.cls e ≠ some σ.nc := fun e he => by have := (h.el e _ he).2.1; omega
  by_cases hlt : σ.sizeNo c < σ.sizeYes c
  · have s1 : (σ.split c).size σ.nc = σ.sizeNo c := by
      unfold size sizeNo
      apply List.countP_congr
      intro e _
      by_cases h1 : σ.cls e = some c <;> cases hm : σ.marked e <;> simp [PState.split, h0, hlt, h1, hm, hneq, Ne.symm hne]
    have s2 : (σ.split c).size c = σ.sizeYes c := by
      unfold size sizeYes
      apply List.countP_congr
      intro e _
      by_cases h1 : σ.cls e = some c <;> cases hm : σ.marked e <;> simp [PState.split, h0, hlt, h1, hm, hne]
    rw [s1, s2]
    exact ⟨by omega, by omega, hfrom⟩
  · have s1 : (σ.split c).size σ.nc = σ.sizeYes c := by
      unfold size sizeYes
      apply List.countP_congr
      intro e _
      by_cases h1 : σ.cls e = some c <;> cases hm : σ.marked e <;> simp [PState.split, h0, hlt, h1, hm, hneq, Ne.symm hne]
    have s2 : (σ.split c).size c = σ.sizeNo c := by
      unfold size sizeNo
      apply List.countP_congr
      intro e _
      by_cases h1 : σ.cls e = some c <;> cases hm : σ.marked e <;> simp [PState.split, h0, hlt, h1, hm, hne]
    rw [s1, s2]
    exact ⟨by omega, by omega, hfrom⟩

theorem finalize_sizes : ∀ (pend : List Nat) {σ : PState}, σ.Ok pend → ∀ k, σ.nc ≤ k → k < (pend.foldl PState.split σ).nc →
    ∃ c, c < σ.nc ∧ 0 < (pend.foldl PState.split σ).size k ∧ (pend.foldl PState.split σ).size k ≤ (pend.foldl PState.split σ).size c ∧
      ∀ e, (pend.foldl PState.split σ).cls e = some k → σ.cls e = some c := by
  intro pend
  induction pend with
  | nil => intro σ _ k h1 h2; simp only [List.foldl_nil] at h2; omega
  | cons c rest ih =>
    intro σ h k h1 h2
    rw [List.foldl_cons] at h2 ⊢
    have hnd := List.nodup_cons.1 h.nd
    have hc := h.lt c (by simp)
    have hn : (rest.foldl PState.split (σ.split c)).n = (σ.split c).n := Part.foldl_split_n rest _
    by_cases h0 : σ.sizeNo c = 0
    · have hnc : (σ.split c).nc = σ.nc := by simp [PState.split, h0]
      obtain ⟨c', a, b, d, f⟩ := ih h.split k (by omega) h2
      refine ⟨c', by omega, b, d, fun e he => ?_⟩
      have := f e he
      simpa [PState.split, h0] using this
    · have hnc : (σ.split c).nc = σ.nc + 1 := by simp [PState.split, h0]
      obtain ⟨z1, z2, z3⟩ := split_sizes h h0
      by_cases hk : k = σ.nc
      · subst hk
        have o1 := finalize_other rest (σ := σ.split c) (x := σ.nc) (fun hm => by have := h.lt _ (List.mem_cons_of_mem _ hm); omega) (by omega)
        have o2 := finalize_other rest (σ := σ.split c) (x := c) hnd.1 (by omega)
        refine ⟨c, hc, ?_, ?_, fun e he => z3 e ((o1 e).1 he)⟩
        · rw [size_congr hn o1]; exact z1
        · rw [size_congr hn o1, size_congr hn o2]; exact z2
      · obtain ⟨c', a, b, d, f⟩ := ih h.split k (by omega) h2
        by_cases hc' : c' = σ.nc
        · -- the new class has no marks, so it is not split
          subst hc'
          exfalso
          have hmem : σ.nc ∉ rest := fun hm => by have := h.lt _ (List.mem_cons_of_mem _ hm); omega
          have : ∃ e, (rest.foldl PState.split (σ.split c)).cls e = some k := by
            unfold size at b
            rw [List.countP_pos_iff] at b
            obtain ⟨e, _, he⟩ := b
            exact ⟨e, by simpa using he⟩
          obtain ⟨e, he⟩ := this
          have h3 := f e he
          have h4 := (finalize_other rest (σ := σ.split c) (x := σ.nc) hmem (by omega) e).2 h3
          rw [he] at h4; injection h4 with h4; exact hk h4
        · refine ⟨c', by omega, b, d, fun e he => ?_⟩
          have := f e he
          simp only [PState.split] at this
          split at this
          · injection this with this; exact absurd this.symm hc'
          · exact this

end PState
end Verif
