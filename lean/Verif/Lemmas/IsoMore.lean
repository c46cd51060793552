import Verif.Lemmas.Iso
import Mathlib.Data.Finset.Card

/-! # `isomorphic`: completeness, paths, injectivity -/

namespace Verif
set_option linter.unusedSectionVars false
universe u
variable {W : Type u} {lt : W → W → Bool}

theorem forall2_mem_left {α β : Type*} {r : α → β → Prop} {l1 : List α} {l2 : List β} (h : List.Forall₂ r l1 l2) :
    ∀ a ∈ l1, ∃ b ∈ l2, r a b := by
  induction h with
  | nil => intro a ha; cases ha
  | cons hab _ ih =>
    intro x hx
    rcases List.mem_cons.1 hx with rfl | hx
    · exact ⟨_, by simp, hab⟩
    · obtain ⟨b, hb, h⟩ := ih x hx
      exact ⟨b, by simp [hb], h⟩

theorem forall2_mem_right {α β : Type*} {r : α → β → Prop} {l1 : List α} {l2 : List β} (h : List.Forall₂ r l1 l2) :
    ∀ b ∈ l2, ∃ a ∈ l1, r a b := forall2_mem_left (List.Forall₂.flip h)

/-- The paths from two corresponding states are the same. -/
theorem Renames.pathsFrom [Mul W] {A B : Fst W} {φ} (h : Renames Eq A B φ) :
    ∀ (n : Nat) (s t : StateId), φ s = some t → A.pathsFrom n s = B.pathsFrom n t := by
  intro n
  induction n with
  | zero =>
    intro s t hst
    have := h.fin s t hst
    simp only [Fst.pathsFrom]
    generalize A.finOf s = x at this
    generalize B.finOf t = y at this
    cases this with
    | none => rfl
    | some h => subst h; rfl
  | succ n ih =>
    intro s t hst
    obtain ⟨l, hl, hf⟩ := h.trs s t hst
    simp only [Fst.pathsFrom]
    rw [← Multiset.coe_eq_coe.2 hl]
    refine bind_forall2 hf fun a _ b hab => ?_
    have e : a.asPath = b.asPath := by simp [Tr.asPath, hab.1, hab.2.1, hab.2.2.1]
    rw [ih _ _ hab.2.2.2, e]

theorem Renames.accPaths [Mul W] {A B : Fst W} {φ} (h : Renames Eq A B φ) (n : Nat) : A.accPaths n = B.accPaths n := by
  have hs := h.start
  simp only [Fst.accPaths]
  generalize A.start = x at hs
  generalize B.start = y at hs
  cases hs with
  | none => rfl
  | some hst => exact h.pathsFrom n _ _ hst

/-- The accessible states are all named. -/
theorem Renames.defined {same : W → W → Prop} {A B : Fst W} {φ} (h : Renames same A B φ) {s} (hs : A.Accessible s) :
    ∃ t, φ s = some t ∧ B.Accessible t := by
  obtain ⟨i, hi, hr⟩ := hs
  have h0 := h.start
  rw [hi] at h0
  generalize hb : B.start = y at h0
  cases h0 with
  | some h0 =>
    rename_i j
    induction hr with
    | refl => exact ⟨j, h0, j, hb, Relation.ReflTransGen.refl⟩
    | tail _ he ih =>
      obtain ⟨t, ht, k, hk, hkt⟩ := ih
      obtain ⟨a, ha, rfl⟩ := he
      obtain ⟨l, hl, hf⟩ := h.trs _ _ ht
      obtain ⟨b, hb', hab⟩ := forall2_mem_left hf a ha
      exact ⟨b.nextstate, hab.2.2.2, k, hk, hkt.tail ⟨b, hl.mem_iff.1 hb', rfl⟩⟩

/-- Every accessible state of `B` is a name. -/
theorem Renames.onto {same : W → W → Prop} {A B : Fst W} {φ} (h : Renames same A B φ) {t} (ht : B.Accessible t) :
    ∃ s, A.Accessible s ∧ φ s = some t := by
  obtain ⟨j, hj, hr⟩ := ht
  have h0 := h.start
  rw [hj] at h0
  generalize ha : A.start = x at h0
  cases h0 with
  | some h0 =>
    rename_i i
    induction hr with
    | refl => exact ⟨i, ⟨i, ha, Relation.ReflTransGen.refl⟩, h0⟩
    | tail _ he ih =>
      obtain ⟨s, ⟨k, hk, hks⟩, hs⟩ := ih
      obtain ⟨b, hb, rfl⟩ := he
      obtain ⟨l, hl, hf⟩ := h.trs _ _ hs
      obtain ⟨a, ha', hab⟩ := forall2_mem_right hf b (hl.mem_iff.2 hb)
      exact ⟨a.nextstate, ⟨k, hk, hks.tail ⟨a, ha', rfl⟩⟩, hab.2.2.2⟩

theorem Fst.WF.lt_of_accessible {A : Fst W} (hA : A.WF) {s} (hs : A.Accessible s) : s < A.numStates := by
  obtain ⟨i, hi, hr⟩ := hs
  induction hr with
  | refl => exact hA.start_lt i hi
  | tail _ he ih =>
    obtain ⟨a, ha, rfl⟩ := he
    exact hA.next_lt _ _ ha

open Classical in
/-- The accessible states. -/
noncomputable def accSet (A : Fst W) : Finset Nat := (Finset.range A.numStates).filter fun s => A.Accessible s

theorem mem_accSet {A : Fst W} (hA : A.WF) {s} : s ∈ accSet A ↔ A.Accessible s := by
  simp only [accSet, Finset.mem_filter, Finset.mem_range]
  exact ⟨fun h => h.2, fun h => ⟨hA.lt_of_accessible h, h⟩⟩

open Classical in
theorem Renames.image {same : W → W → Prop} {A B : Fst W} {φ} (h : Renames same A B φ) (hA : A.WF) (hB : B.WF) :
    (accSet A).image (fun s => (φ s).getD 0) = accSet B := by
  ext t
  simp only [Finset.mem_image, mem_accSet hA, mem_accSet hB]
  constructor
  · rintro ⟨s, hs, rfl⟩
    obtain ⟨t, ht, h'⟩ := h.defined hs
    rw [ht]; exact h'
  · intro ht
    obtain ⟨s, hs, e⟩ := h.onto ht
    exact ⟨s, hs, by rw [e]; rfl⟩

/-- Renamings both ways: each of them is injective on the accessible states. -/
theorem Renames.injective {same same' : W → W → Prop} {A B : Fst W} {φ ψ} (h : Renames same A B φ) (h' : Renames same' B A ψ)
    (hA : A.WF) (hB : B.WF) {s s' t} (hs : A.Accessible s) (hs' : A.Accessible s') (e : φ s = some t) (e' : φ s' = some t) :
    s = s' := by
  classical
  have c1 := h.image hA hB
  have c2 := h'.image hB hA
  have k1 : (accSet A).card ≤ (accSet B).card := by rw [← c2]; exact Finset.card_image_le
  have k2 : ((accSet A).image (fun s => (φ s).getD 0)).card = (accSet A).card := by
    apply le_antisymm Finset.card_image_le
    rw [c1]; exact k1
  have := Finset.card_image_iff.1 k2
  exact this ((mem_accSet hA).2 hs) ((mem_accSet hA).2 hs') (by simp [e, e'])

/-! ## Completeness -/

namespace Iso

/-- The strict order on labels and weight. -/
def KeyNe (a b : Tr W) : Prop := ¬ (a.ilabel = b.ilabel ∧ a.olabel = b.olabel ∧ a.weight = b.weight)

theorem KeyNe.symm {a b : Tr W} (h : KeyNe a b) : KeyNe b a := fun ⟨x, y, z⟩ => h ⟨x.symm, y.symm, z.symm⟩

/-- Replacing two transitions with different keys by matching ones keeps their order. -/
theorem le_of_match {φ} {a b a' b' : Tr W} (h : TrLe lt a b) (hk : KeyNe a b) (ha : TrMatch Eq φ a a') (hb : TrMatch Eq φ b b') :
    TrLe lt a' b' := by
  obtain ⟨a1, a2, a3, _⟩ := ha
  obtain ⟨b1, b2, b3, _⟩ := hb
  unfold TrLe
  rw [← a1, ← a2, ← a3, ← b1, ← b2, ← b3]
  rcases h with h | ⟨e1, h | ⟨e2, h | ⟨e3, _⟩⟩⟩
  · exact Or.inl h
  · exact Or.inr ⟨e1, Or.inl h⟩
  · exact Or.inr ⟨e1, Or.inr ⟨e2, Or.inl h⟩⟩
  · exact absurd ⟨e1, e2, e3⟩ hk

theorem pairwise_match {φ} {l1 l2 : List (Tr W)} (h : List.Forall₂ (TrMatch Eq φ) l1 l2) (hs : l1.Pairwise (TrLe lt))
    (hk : l1.Pairwise KeyNe) : l2.Pairwise (TrLe lt) := by
  induction h with
  | nil => exact List.Pairwise.nil
  | cons hab htl ih =>
    rw [List.pairwise_cons] at hs hk ⊢
    refine ⟨fun b' hb' => ?_, ih hs.2 hk.2⟩
    obtain ⟨a', ha', hm⟩ := forall2_mem_right htl b' hb'
    exact le_of_match (hs.1 a' ha') (hk.1 a' ha') hab hm

/-- Sorting both sides lines up the transitions that a renaming makes correspond. -/
theorem sorted_match (ho : StrictTotal lt) {φ} {l1 l2 l : List (Tr W)} (hp : l.Perm l2) (h : List.Forall₂ (TrMatch Eq φ) l1 l)
    (hk : l1.Pairwise KeyNe) : List.Forall₂ (TrMatch Eq φ) (trSortBy lt l1) (trSortBy lt l2) := by
  have p1 := trSortBy_perm (lt := lt) l1
  obtain ⟨l', hf, hp'⟩ := forall2_perm p1 h
  have k1 : (trSortBy lt l1).Pairwise KeyNe := (p1.symm.pairwise_iff fun h => h.symm).1 hk
  have s' := pairwise_match hf (trSortBy_sorted ho l1) k1
  have : l' = trSortBy lt l2 := by
    refine List.Perm.eq_of_pairwise (le := TrLe lt) (fun a b _ _ h1 h2 => h1.antisymm ho h2) s' (trSortBy_sorted ho l2) ?_
    exact hp'.trans (hp.trans (trSortBy_perm l2).symm)
  rw [← this]; exact hf

theorem matchTrs_complete {approx : W → W → Bool} (hx : ∀ x y, approx x y = true ↔ x = y) {φ} (l1 : List (Tr W)) :
    ∀ (l2 : List (Tr W)) (prev : Option (Tr W)) (i : Iso), List.Forall₂ (TrMatch Eq φ) l1 l2 →
    (∀ a ∈ l1, a.nextstate < i.pairs.length) → (∀ s t, i.map s = some t → φ s = some t) → i.nonDet = false →
    l1.Pairwise KeyNe → (∀ p, prev = some p → ∀ a ∈ l1, KeyNe p a) →
    ∃ i', i.matchTrs approx l1 l2 prev = .ok (true, i') ∧ (∀ s t, i'.map s = some t → φ s = some t) ∧ i'.nonDet = false := by
  induction l1 with
  | nil =>
    intro l2 prev i h _ hm hn _ _
    cases h
    exact ⟨i, rfl, hm, hn⟩
  | cons a as ih =>
    intro l2 prev i h hl hm hn hk hp
    cases h with
    | cons hab htl =>
      rename_i b bs
      obtain ⟨m1, m2, m3, m4⟩ := hab
      obtain ⟨c, i1, e1, g1, nd, p1, p2, q1, q2⟩ := pairState_spec i (s2 := b.nextstate) (hl a (by simp))
      cases c with
      | false =>
        obtain ⟨q, hq, hne⟩ := p2 rfl
        have := hm _ _ hq
        rw [m4] at this; injection this with this
        exact absurd this.symm hne
      | true =>
        have hsp : sameAsPrev approx prev a = false := by
          cases prev with
          | none => rfl
          | some p =>
            have := hp p rfl a (by simp)
            by_contra hc
            simp only [Bool.not_eq_false, sameAsPrev, Bool.and_eq_true, beq_iff_eq, hx] at hc
            exact this ⟨hc.1.1.symm, hc.1.2.symm, hc.2.symm⟩
        have hm1 : ∀ s t, i1.map s = some t → φ s = some t := by
          intro s t hst
          rcases q2 s t hst with h | h
          · exact hm s t h
          · rw [h.1, h.2]; exact m4
        rw [List.pairwise_cons] at hk
        obtain ⟨i', e', h1, h2⟩ := ih bs (some a) { i1 with nonDet := i1.nonDet || sameAsPrev approx prev a } htl
          (fun x hx => by have := hl x (by simp [hx]); have := g1.len; simp only; omega) hm1
          (by simp [nd, hn, hsp]) hk.2 (fun p hp' x hx => by injection hp' with hp'; subst hp'; exact hk.1 x hx)
        refine ⟨i', ?_, h1, h2⟩
        simp only [matchTrs, m1, m2, (hx _ _).2 m3, e1]
        simpa using e'

theorem finEqual_of_rel {approx : W → W → Bool} (hx : ∀ x y, approx x y = true ↔ x = y) {x y : Option W}
    (h : Option.Rel Eq x y) : finEqual approx x y = true := by
  cases h with
  | none => rfl
  | some h => exact (hx _ _).2 h

theorem state_complete {approx : W → W → Bool} (hx : ∀ x y, approx x y = true ↔ x = y) (ho : StrictTotal lt) {A B : Fst W}
    (hA : A.WF) {φ} (h : Renames Eq A B φ) (hd : UnweightedDet A) {s t} (hs : s < A.numStates)
    (ht : t < B.numStates) (hst : φ s = some t) (i : Iso) (hi : i.pairs.length = A.numStates)
    (hm : ∀ s t, i.map s = some t → φ s = some t) (hn : i.nonDet = false) :
    ∃ i', Iso.state lt approx A B s t i = .ok (true, i') ∧ (∀ s t, i'.map s = some t → φ s = some t) ∧ i'.nonDet = false := by
  obtain ⟨l, hp, hf⟩ := h.trs s t hst
  rw [state_eq hs ht, finEqual_of_rel hx (h.fin s t hst), hf.length_eq, hp.length_eq]
  have pA := trSortBy_perm (lt := lt) (A.trsOf s)
  have := matchTrs_complete hx (trSortBy lt (A.trsOf s)) (trSortBy lt (B.trsOf t)) none i
    (sorted_match ho hp hf (hd s))
    (fun a ha => by rw [hi]; exact hA.next_lt _ _ (pA.mem_iff.1 ha)) hm hn
    ((pA.symm.pairwise_iff fun h => KeyNe.symm h).1 (hd s)) (fun p h => (nomatch h))
  simpa using this

theorem loop_complete {approx : W → W → Bool} (hx : ∀ x y, approx x y = true ↔ x = y) (ho : StrictTotal lt) {A B : Fst W}
    (hA : A.WF) (hB : B.WF) {φ} (h : Renames Eq A B φ) (hd : UnweightedDet A) : ∀ (n : Nat) (i : Iso) (r), Inv approx A B i →
    (∀ s t, i.map s = some t → φ s = some t) → i.nonDet = false → Iso.loop lt approx A B n i = some r → r = .ok true := by
  intro n
  induction n with
  | zero => intro i r _ _ _ h; cases h
  | succ n ih =>
    intro i r hi hm hn hr
    rcases hq : i.queue with _ | ⟨⟨s, t⟩, q⟩
    · simp only [Iso.loop, hq] at hr
      injection hr with hr; exact hr.symm
    · have hst : s < A.numStates ∧ t < B.numStates := hi.bound (s, t) (by simp [hq])
      obtain ⟨i', e', h1, h2⟩ := state_complete hx ho hA h hd hst.1 hst.2 (hm _ _ (hi.named (s, t) (by simp [hq])))
        { i with queue := q } hi.len hm hn
      simp only [Iso.loop, hq, e'] at hr
      refine ih i' r ?_ h1 h2 hr
      exact step_inv hA hB hi hq e'

end Iso

end Verif
