import Verif.Spec.Determinize
import Verif.Spec.Legs
import Verif.Lemmas.Presents
import Verif.Lemmas.Total
import Verif.Lemmas.Path

/-! # Determinization: weights -/

namespace Verif
set_option linter.unusedSectionVars false
universe u v
variable {W : Type u} {S : Type v}

/-! ### Totals of values -/

/-- The sum over the paths of `A` of value times `G`. -/
def vtot [Semiring S] (val : W → S) (A : Multiset (PathT W)) (G : List Nat → List Nat → S) : S := (A.map fun p => val p.2.2 * G p.1 p.2.1).sum

theorem vtot_cat [Semiring S] [Mul W] {val : W → S} (hm : ∀ a b, val (a * b) = val a * val b) (t : PathT W) (A : Multiset (PathT W)) (G) :
    vtot val (A.map fun p => t.cat p) G = val t.2.2 * vtot val A (fun x y => G (t.1 ++ x) (t.2.1 ++ y)) := by
  unfold vtot
  rw [Multiset.map_map, ← Multiset.sum_map_mul_left]
  simp only [Function.comp_def, PathT.cat, hm, mul_assoc]

theorem vtot_bind [Semiring S] {val : W → S} {α : Type*} (M : Multiset α) (B : α → Multiset (PathT W)) (G) :
    vtot val (M.bind B) G = (M.map fun a => vtot val (B a) G).sum := by
  unfold vtot
  rw [Multiset.map_bind, Multiset.sum_bind]

theorem sumVal_eq [Semiring S] (val : W → S) (A : Multiset (PathT W)) (x y) :
    sumVal val A x y = vtot val A (fun x' y' => if x' = x ∧ y' = y then 1 else 0) := by
  unfold sumVal vtot
  induction A using Multiset.induction_on with
  | empty => simp
  | cons a A ih =>
    rw [Multiset.map_cons, Multiset.sum_cons, ← ih, Multiset.filter_cons]
    by_cases h : a.1 = x ∧ a.2.1 = y <;> simp [h]

variable [Zero W] [One W] [Mul W] [DecidableEq W]

/-! ### The label map -/

section
variable [AddCommMonoid S]

theorem lmPush_sum (H : Label → DElt W → S) (m : LabelMap W) (l : Label) (e : DElt W) :
    ((lmPush m l e).map fun p => (p.2.map (H p.1)).sum).sum = (m.map fun p => (p.2.map (H p.1)).sum).sum + H l e := by
  induction m with
  | nil => simp [lmPush]
  | cons p m ih =>
    obtain ⟨k, es⟩ := p
    rw [lmPush]
    split
    · simp [add_comm, add_left_comm]
    · split
      · next h => subst h; simp only [List.map_cons, List.sum_cons, List.map_append, List.sum_append, List.map_nil, List.sum_nil, add_zero, add_assoc, add_comm]
      · simp only [List.map_cons, List.sum_cons, ih, add_assoc]

theorem lmFold_sum (H : Label → DElt W → S) (w : W) (trs : List (Tr W)) (m : LabelMap W) :
    ((trs.foldl (fun m tr => lmPush m tr.ilabel ⟨tr.nextstate, w * tr.weight⟩) m).map fun p => (p.2.map (H p.1)).sum).sum =
      (m.map fun p => (p.2.map (H p.1)).sum).sum + (trs.map fun tr => H tr.ilabel ⟨tr.nextstate, w * tr.weight⟩).sum := by
  induction trs generalizing m with
  | nil => simp
  | cons tr trs ih => rw [List.foldl_cons, ih, lmPush_sum, List.map_cons, List.sum_cons, add_assoc]

end

/-- Each label map is filled with nonempty lists in the order of labels. -/
def LmSorted (m : LabelMap W) : Prop := (m.map Prod.fst).Pairwise (· < ·)

theorem lmPush_keys (m : LabelMap W) (l : Label) (e : DElt W) : ∀ k ∈ (lmPush m l e).map Prod.fst, k = l ∨ k ∈ m.map Prod.fst := by
  induction m with
  | nil => simp [lmPush]
  | cons p m ih =>
    obtain ⟨k', es⟩ := p
    rw [lmPush]
    split
    · simp
    · split
      · intro k hk; exact .inr (by simpa using hk)
      · intro k hk
        rw [List.map_cons, List.mem_cons] at hk
        rcases hk with rfl | hk
        · simp
        · rcases ih k hk with h | h
          · exact .inl h
          · exact .inr (by simp [List.mem_map.1 h])

theorem lmPush_sorted {m : LabelMap W} (h : LmSorted m) (l : Label) (e : DElt W) : LmSorted (lmPush m l e) := by
  induction m with
  | nil => simp [lmPush, LmSorted]
  | cons p m ih =>
    obtain ⟨k, es⟩ := p
    unfold LmSorted at h ih ⊢
    rw [List.map_cons, List.pairwise_cons] at h
    rw [lmPush]
    split
    · next hl =>
      rw [List.map_cons, List.map_cons, List.pairwise_cons, List.pairwise_cons]
      refine ⟨?_, h⟩
      intro k' hk'
      rcases List.mem_cons.1 hk' with rfl | hk'
      · exact hl
      · exact Nat.lt_trans hl (h.1 k' hk')
    · split
      · rw [List.map_cons, List.pairwise_cons]; exact h
      · next h1 h2 =>
        rw [List.map_cons, List.pairwise_cons]
        refine ⟨fun k' hk' => ?_, ih h.2⟩
        rcases lmPush_keys m l e k' hk' with rfl | hk'
        · simp only at h1 h2 ⊢; omega
        · exact h.1 k' hk'

/-- The pair `e` is in the list of label `l`. -/
def LmHas (m : LabelMap W) (l : Label) (e : DElt W) : Prop := ∃ p ∈ m, p.1 = l ∧ e ∈ p.2

theorem lmHas_cons (p : Label × List (DElt W)) (m : LabelMap W) (l e) : LmHas (p :: m) l e ↔ (p.1 = l ∧ e ∈ p.2) ∨ LmHas m l e := by
  simp [LmHas]

theorem lmPush_has (m : LabelMap W) (l : Label) (e : DElt W) (l' e') : LmHas (lmPush m l e) l' e' ↔ LmHas m l' e' ∨ (l' = l ∧ e' = e) := by
  induction m with
  | nil => simp [lmPush, LmHas, eq_comm]
  | cons p m ih =>
    obtain ⟨k, es⟩ := p
    rw [lmPush]
    split
    · rw [lmHas_cons]
      simp only [List.mem_singleton]
      constructor
      · rintro (⟨h1, h2⟩ | h)
        · exact .inr ⟨h1.symm, h2⟩
        · exact .inl h
      · rintro (h | ⟨h1, h2⟩)
        · exact .inr h
        · exact .inl ⟨h1.symm, h2⟩
    · split
      · next hl =>
        subst hl
        rw [lmHas_cons, lmHas_cons]
        simp only [List.mem_append, List.mem_singleton]
        constructor
        · rintro (⟨h1, h2 | h2⟩ | h)
          · exact .inl (.inl ⟨h1, h2⟩)
          · exact .inr ⟨h1.symm, h2⟩
          · exact .inl (.inr h)
        · rintro ((⟨h1, h2⟩ | h) | ⟨h1, h2⟩)
          · exact .inl ⟨h1, .inl h2⟩
          · exact .inr h
          · exact .inl ⟨h1.symm, .inr h2⟩
      · rw [lmHas_cons, lmHas_cons, ih, or_assoc]

/-- No label has an empty list. -/
def LmFull (m : LabelMap W) : Prop := ∀ p ∈ m, p.2 ≠ []

theorem lmPush_full {m : LabelMap W} (h : LmFull m) (l : Label) (e : DElt W) : LmFull (lmPush m l e) := by
  induction m with
  | nil => simp [lmPush, LmFull]
  | cons p m ih =>
    obtain ⟨k, es⟩ := p
    have h1 := h (k, es) (by simp)
    have h2 : LmFull m := fun p hp => h p (by simp [hp])
    rw [lmPush]
    split
    · intro p hp
      rcases List.mem_cons.1 hp with rfl | hp
      · simp
      · exact h p hp
    · split
      · intro p hp
        rcases List.mem_cons.1 hp with rfl | hp
        · simp
        · exact h2 p hp
      · intro p hp
        rcases List.mem_cons.1 hp with rfl | hp
        · exact h1
        · exact ih h2 p hp

/-- The label map after the transitions of one element. -/
def lmFold (w : W) (trs : List (Tr W)) (m : LabelMap W) : LabelMap W :=
  trs.foldl (fun m tr => lmPush m tr.ilabel ⟨tr.nextstate, w * tr.weight⟩) m

theorem lmFold_ok (w : W) (trs : List (Tr W)) (m : LabelMap W) :
    (LmSorted m → LmSorted (lmFold w trs m)) ∧ (LmFull m → LmFull (lmFold w trs m)) ∧
    ∀ l e, LmHas (lmFold w trs m) l e ↔ LmHas m l e ∨ ∃ tr ∈ trs, l = tr.ilabel ∧ e = ⟨tr.nextstate, w * tr.weight⟩ := by
  induction trs generalizing m with
  | nil => exact ⟨fun h => h, fun h => h, by simp [lmFold]⟩
  | cons tr trs ih =>
    obtain ⟨h1, h2, h3⟩ := ih (lmPush m tr.ilabel ⟨tr.nextstate, w * tr.weight⟩)
    refine ⟨fun h => h1 (lmPush_sorted h _ _), fun h => h2 (lmPush_full h _ _), fun l e => ?_⟩
    show LmHas (lmFold w trs (lmPush m tr.ilabel ⟨tr.nextstate, w * tr.weight⟩)) l e ↔ _
    rw [h3, lmPush_has, or_assoc]
    simp

/-- `detCollect` on states that exist. -/
theorem detCollect_spec {f : Fst W} (es : List (DElt W)) : ∀ (m : LabelMap W), (∀ e ∈ es, e.state < f.numStates) →
    ∃ m', detCollect f es m = .ok m' ∧ (LmSorted m → LmSorted m') ∧ (LmFull m → LmFull m') ∧
      (∀ l x, LmHas m' l x ↔ LmHas m l x ∨ ∃ e ∈ es, ∃ tr ∈ f.trsOf e.state, l = tr.ilabel ∧ x = ⟨tr.nextstate, e.weight * tr.weight⟩) ∧
      ∀ (S : Type v) [AddCommMonoid S] (H : Label → DElt W → S), (m'.map fun p => (p.2.map (H p.1)).sum).sum = (m.map fun p => (p.2.map (H p.1)).sum).sum +
        (es.map fun e => ((f.trsOf e.state).map fun tr => H tr.ilabel ⟨tr.nextstate, e.weight * tr.weight⟩).sum).sum := by
  induction es with
  | nil => intro m _; exact ⟨m, rfl, fun h => h, fun h => h, by simp, fun _ _ H => by simp⟩
  | cons e es ih =>
    intro m hm
    have hg : f.getTrsR e.state = .ok (f.trsOf e.state) := by
      have := hm e (by simp)
      simp only [Fst.getTrsR, Fst.trsOf]
      rw [List.getElem?_eq_getElem (by simpa [Fst.numStates] using this)]
    obtain ⟨g1, g2, g3⟩ := lmFold_ok e.weight (f.trsOf e.state) m
    obtain ⟨m', h1, h2, h3, h4, h5⟩ := ih (lmFold e.weight (f.trsOf e.state) m) (fun e' he' => hm e' (by simp [he']))
    refine ⟨m', ?_, fun h => h2 (g1 h), fun h => h3 (g2 h), ?_, ?_⟩
    · rw [detCollect, hg]; exact h1
    · intro l x
      rw [h4, g3, or_assoc]
      simp
    · intro S _ H
      rw [h5, lmFold, lmFold_sum, List.map_cons, List.sum_cons, add_assoc]

/-! ### Normalization -/

theorem mergeInto_spec {o : DetOps W} {ws : List W} {e : DElt W} (he : e.weight ∈ ws) : ∀ {acc acc' : List (DElt W)}, mergeInto o acc e = .ok acc' →
    (∀ a ∈ acc, Sums o ws a.weight) → (acc.map (·.state)).Nodup →
    (∀ a ∈ acc', Sums o ws a.weight) ∧ (acc'.map (·.state)).Nodup ∧ (∀ s, s ∈ acc'.map (·.state) ↔ s ∈ acc.map (·.state) ∨ s = e.state) ∧
    ∀ {S : Type v} [Semiring S] (val : W → S), (∀ a b c, o.plus a b = .ok c → val c = val a + val b) → ∀ h : StateId → S,
      (acc'.map fun a => val a.weight * h a.state).sum = (acc.map fun a => val a.weight * h a.state).sum + val e.weight * h e.state := by
  intro acc
  induction acc with
  | nil =>
    intro acc' h _ _
    simp only [mergeInto, Except.ok.injEq] at h
    subst h
    exact ⟨by simpa using .one he, by simp, by simp, by simp⟩
  | cons a as ih =>
    intro acc' h hs hn
    rw [mergeInto] at h
    split at h
    · next hst =>
      split at h
      · cases h
      · next w hw =>
        injection h with h
        subst h
        refine ⟨?_, hn, ?_, ?_⟩
        · intro b hb
          rcases List.mem_cons.1 hb with rfl | hb
          · exact .more (hs a (by simp)) he hw
          · exact hs b (by simp [hb])
        · intro s; simp only [List.map_cons, List.mem_cons, ← hst]; tauto
        · intro S _ val hv h
          simp only [List.map_cons, List.sum_cons, hv _ _ _ hw, add_mul, hst]
          rw [add_assoc, add_assoc, add_comm (val e.weight * h e.state)]
    · next hst =>
      split at h
      · cases h
      · next as' has =>
        injection h with h
        subst h
        rw [List.map_cons, List.nodup_cons] at hn
        obtain ⟨g1, g2, g3, g4⟩ := ih has (fun b hb => hs b (by simp [hb])) hn.2
        refine ⟨?_, ?_, ?_, ?_⟩
        · intro b hb
          rcases List.mem_cons.1 hb with rfl | hb
          · exact hs b (by simp)
          · exact g1 b hb
        · rw [List.map_cons, List.nodup_cons]
          refine ⟨fun hm => ?_, g2⟩
          rcases (g3 _).1 hm with h | h
          · exact hn.1 h
          · exact hst h
        · intro s; simp only [List.map_cons, List.mem_cons, g3]; tauto
        · intro S _ val hv h
          simp only [List.map_cons, List.sum_cons, g4 val hv h, add_assoc]

theorem mergePairs_spec {o : DetOps W} {ws : List W} : ∀ {ps : List (DElt W)} {acc acc' : List (DElt W)}, mergePairs o acc ps = .ok acc' →
    (∀ e ∈ ps, e.weight ∈ ws) → (∀ a ∈ acc, Sums o ws a.weight) → (acc.map (·.state)).Nodup →
    (∀ a ∈ acc', Sums o ws a.weight) ∧ (acc'.map (·.state)).Nodup ∧
    (∀ s, s ∈ acc'.map (·.state) ↔ s ∈ acc.map (·.state) ∨ s ∈ ps.map (·.state)) ∧
    ∀ {S : Type v} [Semiring S] (val : W → S), (∀ a b c, o.plus a b = .ok c → val c = val a + val b) → ∀ h : StateId → S,
      (acc'.map fun a => val a.weight * h a.state).sum =
        (acc.map fun a => val a.weight * h a.state).sum + (ps.map fun a => val a.weight * h a.state).sum := by
  intro ps
  induction ps with
  | nil =>
    intro acc acc' h _ h1 h2
    simp only [mergePairs, Except.ok.injEq] at h
    subst h
    exact ⟨h1, h2, by simp, by simp⟩
  | cons e ps ih =>
    intro acc acc' h hw h1 h2
    rw [mergePairs] at h
    split at h
    · cases h
    · next acc1 ha =>
      obtain ⟨g1, g2, g3, g4⟩ := mergeInto_spec.{u, v} (hw e (by simp)) ha h1 h2
      obtain ⟨k1, k2, k3, k4⟩ := ih h (fun e he => hw e (by simp [he])) g1 g2
      refine ⟨k1, k2, ?_, ?_⟩
      · intro s; rw [k3, g3, List.map_cons, List.mem_cons, or_assoc]
      · intro S _ val hv h
        rw [k4 val hv, g4 val hv, List.map_cons, List.sum_cons, add_assoc]

theorem divideAll_spec {o : DetOps W} {d : W} : ∀ {ps qs : List (DElt W)}, divideAll o d ps = .ok qs →
    List.Forall₂ (fun p q => q.state = p.state ∧ ∃ x, o.divide p.weight d = .ok x ∧ o.quantize x = .ok q.weight) ps qs := by
  intro ps
  induction ps with
  | nil => intro qs h; simp only [divideAll, Except.ok.injEq] at h; subst h; exact .nil
  | cons p ps ih =>
    intro qs h
    rw [divideAll] at h
    split at h
    · cases h
    · next x hx =>
      split at h
      · cases h
      · next y hy =>
        split at h
        · cases h
        · next zs hz =>
          injection h with h
          subst h
          exact .cons ⟨rfl, x, hx, hy⟩ (ih hz)

/-- `normTr` keeps the states and, up to the common divisor, the weights. -/
theorem normTr_spec [Semiring S] {o : DetOps W} {val : W → S} {good : W → Prop} (L : DetLaw o val good) {ord : List (DElt W) → List (DElt W)}
    (ho : ∀ l, (ord l).Perm l) {ps qs : List (DElt W)} {d : W} (h : normTr o ord ps = .ok (d, qs)) (hg : ∀ p ∈ ps, good p.weight) :
    (∀ q ∈ qs, good q.weight) ∧ (qs.map (·.state)).Nodup ∧ (∀ s, s ∈ qs.map (·.state) ↔ s ∈ ps.map (·.state)) ∧
    ∀ k : StateId → S, val d * (qs.map fun q => val q.weight * k q.state).sum = (ps.map fun p => val p.weight * k p.state).sum := by
  have hperm := List.perm_insertionSort (fun a b : DElt W => a.state ≤ b.state) ps
  unfold normTr at h
  simp only at h
  generalize List.insertionSort (fun a b : DElt W => a.state ≤ b.state) ps = ss at h hperm
  split at h
  · cases h
  · next d' hd =>
    split at h
    · cases h
    · next ms hm =>
      split at h
      · cases h
      · next rs hr =>
        injection h with h
        injection h with h1 h2
        subst h1 h2
        obtain ⟨g1, g2, g3, g4⟩ := mergePairs_spec.{u, v} (ws := ss.map (·.weight)) hm (fun e he => List.mem_map_of_mem he) (by simp) (by simp)
        have hf := divideAll_spec hr
        have ho' := ho ms
        generalize ord ms = os at hf ho' hr
        clear hr
        have hall : ∀ x ∈ ss.map (·.weight), good x := by
          intro x hx
          obtain ⟨e, he, rfl⟩ := List.mem_map.1 hx
          exact hg e (hperm.mem_iff.1 he)
        have hdiv : List.Forall₂ (fun p q => q.state = p.state ∧ val d' * val q.weight = val p.weight ∧ good q.weight) os rs := by
          have : ∀ p ∈ os, Sums o (ss.map (·.weight)) p.weight := fun p hp => g1 p (ho'.mem_iff.1 hp)
          clear ho'
          induction hf with
          | nil => exact .nil
          | @cons p q ps' qs' hpq _ ih =>
            obtain ⟨e1, x, e2, e3⟩ := hpq
            obtain ⟨k1, k2⟩ := L.divide _ _ _ _ _ hall hd (this p (by simp)) e2 e3
            exact .cons ⟨e1, k1, k2⟩ (ih (fun r hr => this r (by simp [hr])))
        have hst : rs.map (·.state) = os.map (·.state) := by
          clear hf ho'
          induction hdiv with
          | nil => rfl
          | cons hpq _ ih => rw [List.map_cons, List.map_cons, ih, hpq.1]
        refine ⟨?_, ?_, ?_, ?_⟩
        · clear hf hst ho'
          induction hdiv with
          | nil => simp
          | cons hpq _ ih => intro q hq; rcases List.mem_cons.1 hq with rfl | hq; exact hpq.2.2; exact ih q hq
        · rw [hst]; exact ((ho'.map _).nodup_iff).2 g2
        · intro s
          rw [hst, (ho'.map _).mem_iff, g3]
          simp only [List.map_nil, List.not_mem_nil, false_or]
          exact (hperm.map _).mem_iff
        · intro k
          have e1 : val d' * (rs.map fun q => val q.weight * k q.state).sum = (os.map fun p => val p.weight * k p.state).sum := by
            clear hf hst ho'
            induction hdiv with
            | nil => simp
            | cons hpq _ ih => rw [List.map_cons, List.map_cons, List.sum_cons, List.sum_cons, mul_add, ih, ← mul_assoc, hpq.2.1, hpq.1]
          rw [e1, (ho'.map _).sum_eq, g4 val L.plus k]
          simp only [List.map_nil, List.sum_nil, zero_add]
          exact (hperm.map _).sum_eq

/-! ### No failures -/

theorem commonFold_ok {o : DetOps W} (h : ∀ a b, ∃ c, o.common a b = .ok c) : ∀ (ws : List W) (d : W), ∃ d', commonFold o d ws = .ok d' := by
  intro ws
  induction ws with
  | nil => intro d; exact ⟨d, rfl⟩
  | cons w ws ih =>
    intro d
    obtain ⟨c, hc⟩ := h d w
    obtain ⟨d', hd⟩ := ih c
    exact ⟨d', by rw [commonFold, hc]; exact hd⟩

theorem mergeInto_ok {o : DetOps W} (h : ∀ a b, ∃ c, o.plus a b = .ok c) (e : DElt W) : ∀ acc : List (DElt W), ∃ acc', mergeInto o acc e = .ok acc' := by
  intro acc
  induction acc with
  | nil => exact ⟨_, rfl⟩
  | cons a as ih =>
    rw [mergeInto]
    split
    · obtain ⟨c, hc⟩ := h a.weight e.weight
      rw [hc]; exact ⟨_, rfl⟩
    · obtain ⟨c, hc⟩ := ih
      rw [hc]; exact ⟨_, rfl⟩

theorem mergePairs_ok {o : DetOps W} (h : ∀ a b, ∃ c, o.plus a b = .ok c) : ∀ ps acc : List (DElt W), ∃ acc', mergePairs o acc ps = .ok acc' := by
  intro ps
  induction ps with
  | nil => intro acc; exact ⟨acc, rfl⟩
  | cons e ps ih =>
    intro acc
    obtain ⟨c, hc⟩ := mergeInto_ok h e acc
    obtain ⟨d, hd⟩ := ih c
    exact ⟨d, by rw [mergePairs, hc]; exact hd⟩

theorem normTr_ok {o : DetOps W} {good : W → Prop} (T : DetTotal o good) {ord : List (DElt W) → List (DElt W)}
    (ho : ∀ l, (ord l).Perm l) {ps : List (DElt W)} (hg : ∀ p ∈ ps, good p.weight) : ∃ x, normTr o ord ps = .ok x := by
  have hperm := List.perm_insertionSort (fun a b : DElt W => a.state ≤ b.state) ps
  unfold normTr
  simp only
  generalize List.insertionSort (fun a b : DElt W => a.state ≤ b.state) ps = ss at hperm
  obtain ⟨d, hd⟩ := commonFold_ok T.common (ss.map (·.weight)) 0
  obtain ⟨ms, hm⟩ := mergePairs_ok T.plus ss []
  rw [hd, hm]
  simp only
  obtain ⟨g1, _, _, _⟩ := mergePairs_spec.{u, 0} (ws := ss.map (·.weight)) hm (fun e he => List.mem_map_of_mem he) (by simp) (by simp)
  have hall : ∀ x ∈ ss.map (·.weight), good x := by
    intro x hx
    obtain ⟨e, he, rfl⟩ := List.mem_map.1 hx
    exact hg e (hperm.mem_iff.1 he)
  have : ∀ p ∈ ord ms, Sums o (ss.map (·.weight)) p.weight := fun p hp => g1 p ((ho ms).mem_iff.1 hp)
  obtain ⟨qs, hq⟩ : ∃ qs, divideAll o d (ord ms) = .ok qs := by
    generalize ord ms = os at this
    induction os with
    | nil => exact ⟨[], rfl⟩
    | cons p ps ih =>
      obtain ⟨q, q', e1, e2⟩ := T.divide _ _ _ hall hd (this p (by simp))
      obtain ⟨qs, hqs⟩ := ih (fun r hr => this r (by simp [hr]))
      exact ⟨⟨p.state, q'⟩ :: qs, by rw [divideAll, e1]; simp only [e2, hqs]⟩
  rw [hq]
  exact ⟨_, rfl⟩

/-! ### The transitions of a tuple -/

theorem normAll_spec {o : DetOps W} {ord : Label → List (DElt W) → List (DElt W)} : ∀ {m : LabelMap W} {as : List (MTr (DTup W) W)},
    normAll o ord m = .ok as → List.Forall₂ (fun p a => a.ilabel = p.1 ∧ a.olabel = p.1 ∧ a.next.filterState = 0 ∧
      normTr o (ord p.1) p.2 = .ok (a.weight, a.next.subset)) m as := by
  intro m
  induction m with
  | nil => intro as h; simp only [normAll, Except.ok.injEq] at h; subst h; exact .nil
  | cons p m ih =>
    obtain ⟨l, ps⟩ := p
    intro as h
    rw [normAll] at h
    split at h
    · cases h
    · next d qs hn =>
      split at h
      · cases h
      · next bs hb =>
        injection h with h
        subst h
        exact .cons ⟨rfl, rfl, rfl, hn⟩ (ih hb)

theorem normAll_ok {o : DetOps W} {ord : Label → List (DElt W) → List (DElt W)} : ∀ {m : LabelMap W},
    (∀ p ∈ m, ∃ x, normTr o (ord p.1) p.2 = .ok x) → ∃ as, normAll o ord m = .ok as := by
  intro m
  induction m with
  | nil => intro _; exact ⟨[], rfl⟩
  | cons p m ih =>
    obtain ⟨l, ps⟩ := p
    intro h
    obtain ⟨⟨d, qs⟩, hx⟩ := h (l, ps) (by simp)
    obtain ⟨as, ha⟩ := ih (fun p hp => h p (by simp [hp]))
    exact ⟨⟨l, l, d, ⟨qs, 0⟩⟩ :: as, by rw [normAll, hx]; simp only [ha]⟩

/-- The weights of a tuple are good and its states exist. -/
def DGood (f : Fst W) (good : W → Prop) (t : DTup W) : Prop := ∀ e ∈ t.subset, e.state < f.numStates ∧ good e.weight

/-- The order of a hash map is some order. -/
def Orders (ord : DTup W → Label → List (DElt W) → List (DElt W)) : Prop := ∀ t l es, (ord t l es).Perm es

/-- What the transitions `as` of the tuple `t` are. -/
structure DetTrsOk (f : Fst W) (good : W → Prop) (t : DTup W) (as : List (MTr (DTup W) W)) : Prop where
  sorted : (as.map (·.ilabel)).Pairwise (· < ·)
  acceptor : ∀ a ∈ as, a.ilabel = a.olabel
  dgood : ∀ a ∈ as, DGood f good a.next
  nodup : ∀ a ∈ as, (a.next.subset.map (·.state)).Nodup
  filter : ∀ a ∈ as, a.next.filterState = 0
  nonempty : ∀ a ∈ as, a.next.subset ≠ []
  next : ∀ a ∈ as, ∀ s, s ∈ a.next.subset.map (·.state) ↔ ∃ e ∈ t.subset, ∃ tr ∈ f.trsOf e.state, tr.ilabel = a.ilabel ∧ tr.nextstate = s
  all : ∀ e ∈ t.subset, ∀ tr ∈ f.trsOf e.state, ∃ a ∈ as, a.ilabel = tr.ilabel

section
variable [Semiring S] {f : Fst W} {o : DetOps W} {val : W → S} {good : W → Prop} (L : DetLaw o val good)
  {ord : DTup W → Label → List (DElt W) → List (DElt W)} (ho : Orders ord) (hf : f.WF) (hw : ∀ s, ∀ tr ∈ f.trsOf s, good tr.weight)
include L ho hf hw

theorem detTrs_spec {t : DTup W} {as : List (MTr (DTup W) W)} (h : detTrs f o ord t = .ok as) (ht : DGood f good t) :
    DetTrsOk f good t as ∧ ∀ H : Label → StateId → S,
      (as.map fun a => val a.weight * (a.next.subset.map fun q => val q.weight * H a.ilabel q.state).sum).sum =
      (t.subset.map fun e => ((f.trsOf e.state).map fun tr => val (e.weight * tr.weight) * H tr.ilabel tr.nextstate).sum).sum := by
  obtain ⟨m, c1, c2, c3, c4, c5⟩ := detCollect_spec.{u, v} (f := f) t.subset [] (fun e he => (ht e he).1)
  replace c2 := c2 (by simp [LmSorted])
  replace c3 := c3 (by simp [LmFull])
  replace c4 : ∀ l x, LmHas m l x ↔ ∃ e ∈ t.subset, ∃ tr ∈ f.trsOf e.state, l = tr.ilabel ∧ x = ⟨tr.nextstate, e.weight * tr.weight⟩ := by
    intro l x; rw [c4]; simp [LmHas]
  rw [detTrs, c1] at h
  have hall := normAll_spec h
  have hgood : ∀ p ∈ m, ∀ x ∈ p.2, x.state < f.numStates ∧ good x.weight := by
    intro p hp x hx
    obtain ⟨e, he, tr, htr, _, rfl⟩ := (c4 p.1 x).1 ⟨p, hp, rfl, hx⟩
    exact ⟨hf.next_lt _ tr htr, L.good_mul _ _ (ht e he).2 (hw _ tr htr)⟩
  have hlab : as.map (·.ilabel) = m.map Prod.fst := by
    clear h c1 c2 c3 c4 c5 hgood
    induction hall with
    | nil => rfl
    | cons hd _ ih => rw [List.map_cons, List.map_cons, ih, hd.1]
  have hmem : ∀ a ∈ as, ∃ p ∈ m, a.ilabel = p.1 ∧ a.olabel = p.1 ∧ a.next.filterState = 0 ∧ normTr o (ord t p.1) p.2 = .ok (a.weight, a.next.subset) := by
    clear h c1 c2 c3 c4 c5 hgood hlab
    induction hall with
    | nil => simp
    | cons hd _ ih =>
      intro a ha
      rcases List.mem_cons.1 ha with rfl | ha
      · exact ⟨_, by simp, hd⟩
      · obtain ⟨p, hp, h⟩ := ih a ha
        exact ⟨p, by simp [hp], h⟩
  have huniq : ∀ p ∈ m, ∀ q ∈ m, p.1 = q.1 → p = q := by
    unfold LmSorted at c2
    rw [List.pairwise_map] at c2
    clear h c1 c3 c4 c5 hgood hlab hmem hall
    induction m with
    | nil => simp
    | cons p m ih =>
      rw [List.pairwise_cons] at c2
      intro a ha b hb hab
      rcases List.mem_cons.1 ha with ha | ha <;> rcases List.mem_cons.1 hb with hb | hb
      · rw [ha, hb]
      · have := c2.1 b hb; subst ha; omega
      · have := c2.1 a ha; subst hb; omega
      · exact ih c2.2 a ha b hb hab
  have hnx : ∀ a ∈ as, ∀ s, s ∈ a.next.subset.map (·.state) ↔ ∃ e ∈ t.subset, ∃ tr ∈ f.trsOf e.state, tr.ilabel = a.ilabel ∧ tr.nextstate = s := by
    intro a ha s
    obtain ⟨p, hp, h1, _, _, h4⟩ := hmem a ha
    obtain ⟨_, _, n3, _⟩ := normTr_spec L (ho t p.1) h4 (fun x hx => (hgood p hp x hx).2)
    rw [n3]
    constructor
    · intro hs
      obtain ⟨x, hx, rfl⟩ := List.mem_map.1 hs
      obtain ⟨e, he, tr, htr, e1, rfl⟩ := (c4 p.1 x).1 ⟨p, hp, rfl, hx⟩
      exact ⟨e, he, tr, htr, by rw [h1, e1], rfl⟩
    · rintro ⟨e, he, tr, htr, e1, rfl⟩
      obtain ⟨p', hp', e2, e3⟩ := (c4 tr.ilabel ⟨tr.nextstate, e.weight * tr.weight⟩).2 ⟨e, he, tr, htr, rfl, rfl⟩
      have := huniq p hp p' hp' (by rw [e2, e1, h1])
      subst this
      exact List.mem_map.2 ⟨_, e3, rfl⟩
  refine ⟨⟨?_, ?_, ?_, ?_, ?_, ?_, hnx, ?_⟩, ?_⟩
  · rw [hlab]; exact c2
  · intro a ha
    obtain ⟨p, hp, h1, h2, h3, h4⟩ := hmem a ha
    rw [h1, h2]
  · intro a ha e he
    obtain ⟨p, hp, h1, h2, h3, h4⟩ := hmem a ha
    obtain ⟨n1, _, n3, _⟩ := normTr_spec L (ho t p.1) h4 (fun x hx => (hgood p hp x hx).2)
    refine ⟨?_, n1 e he⟩
    obtain ⟨x, hx, e1⟩ := List.mem_map.1 ((n3 e.state).1 (List.mem_map_of_mem he))
    rw [← e1]; exact (hgood p hp x hx).1
  · intro a ha
    obtain ⟨p, hp, h1, h2, h3, h4⟩ := hmem a ha
    exact (normTr_spec L (ho t p.1) h4 (fun x hx => (hgood p hp x hx).2)).2.1
  · intro a ha
    obtain ⟨p, hp, h1, h2, h3, h4⟩ := hmem a ha
    exact h3
  · intro a ha hnil
    obtain ⟨p, hp, h1, h2, h3, h4⟩ := hmem a ha
    obtain ⟨_, _, n3, _⟩ := normTr_spec L (ho t p.1) h4 (fun x hx => (hgood p hp x hx).2)
    obtain ⟨x, hx⟩ := List.exists_mem_of_ne_nil _ (c3 p hp)
    have := (n3 x.state).2 (List.mem_map_of_mem hx)
    rw [hnil] at this; simp at this
  · intro e he tr htr
    obtain ⟨p, hp, e2, _⟩ := (c4 tr.ilabel ⟨tr.nextstate, e.weight * tr.weight⟩).2 ⟨e, he, tr, htr, rfl, rfl⟩
    have : tr.ilabel ∈ as.map (·.ilabel) := by rw [hlab, ← e2]; exact List.mem_map_of_mem hp
    obtain ⟨a, ha, e⟩ := List.mem_map.1 this
    exact ⟨a, ha, e⟩
  · intro H
    have := c5 S (fun l x => val x.weight * H l x.state)
    simp only [List.map_nil, List.sum_nil, zero_add] at this
    rw [← this]
    clear h c1 c2 c3 c4 c5 hlab hmem this huniq hnx
    induction hall with
    | nil => rfl
    | @cons p a m as hd _ ih =>
      obtain ⟨h1, _, _, h4⟩ := hd
      obtain ⟨_, _, _, n4⟩ := normTr_spec L (ho t p.1) h4 (fun x hx => (hgood p (by simp) x hx).2)
      rw [List.map_cons, List.map_cons, List.sum_cons, List.sum_cons, ih (fun p hp => hgood p (by simp [hp])), n4, h1]

theorem detTrs_ok (T : DetTotal o good) {t : DTup W} (ht : DGood f good t) : ∃ as, detTrs f o ord t = .ok as := by
  obtain ⟨m, c1, c2, c3, c4, c5⟩ := detCollect_spec.{u, v} (f := f) t.subset [] (fun e he => (ht e he).1)
  rw [detTrs, c1]
  refine normAll_ok fun p hp => normTr_ok T (ho t p.1) fun x hx => ?_
  have := (c4 p.1 x).1 ⟨p, hp, rfl, hx⟩
  rcases this with ⟨_, h, _⟩ | ⟨e, he, tr, htr, _, rfl⟩
  · cases h
  · exact L.good_mul _ _ (ht e he).2 (hw _ tr htr)

omit ho hf hw in
theorem detFinSum_spec {es : List (DElt W)} : ∀ {acc w : W}, (∀ e ∈ es, e.state < f.numStates) → detFinSum f o acc es = .ok w →
    val w = val acc + (es.map fun e => val e.weight * val ((f.finOf e.state).getD 0)).sum := by
  induction es with
  | nil => intro acc w _ h; simp only [detFinSum, Except.ok.injEq] at h; subst h; simp
  | cons e es ih =>
    intro acc w he h
    have hg : f.finalWeightR e.state = .ok (f.finOf e.state) := by
      have := he e (by simp)
      simp only [Fst.finalWeightR, Fst.finOf]
      rw [List.getElem?_eq_getElem (by simpa [Fst.numStates] using this)]
    rw [detFinSum, hg] at h
    simp only at h
    split at h
    · cases h
    · next c hc =>
      rw [ih (fun e' he' => he e' (by simp [he'])) h, L.plus _ _ _ hc, L.mul, List.map_cons, List.sum_cons, add_assoc]

omit L ho hf hw in
theorem detFinSum_ok (hp : ∀ a b, ∃ c, o.plus a b = .ok c) {es : List (DElt W)} : ∀ {acc : W}, (∀ e ∈ es, e.state < f.numStates) →
    ∃ w, detFinSum f o acc es = .ok w := by
  induction es with
  | nil => intro acc _; exact ⟨acc, rfl⟩
  | cons e es ih =>
    intro acc he
    have hg : f.finalWeightR e.state = .ok (f.finOf e.state) := by
      have := he e (by simp)
      simp only [Fst.finalWeightR, Fst.finOf]
      rw [List.getElem?_eq_getElem (by simpa [Fst.numStates] using this)]
    obtain ⟨c, hc⟩ := hp acc (e.weight * (f.finOf e.state).getD 0)
    obtain ⟨w, hw⟩ := ih (acc := c) (fun e' he' => he e' (by simp [he']))
    exact ⟨w, by rw [detFinSum, hg]; simp only [hc, hw]⟩

/-- The machine of the determinization. -/
abbrev detMachine (f : Fst W) (o : DetOps W) (ord : DTup W → Label → List (DElt W) → List (DElt W)) : Machine (DTup W) W := (detOp f o ord).machine

theorem det_trs_good {t : DTup W} (ht : DGood f good t) : ∀ a ∈ (detMachine f o ord).trs t, DGood f good a.next := by
  intro a ha
  simp only [TupleOp.machine, detOp] at ha
  cases h : detTrs f o ord t with
  | error e => rw [h] at ha; cases ha
  | ok as =>
    rw [h] at ha
    exact (detTrs_spec L ho hf hw h ht).1.dgood a ha

theorem det_reach_good {t : DTup W} (h : (detMachine f o ord).Reach t) : DGood f good t := by
  induction h with
  | @start t h =>
    simp only [TupleOp.machine, detOp, Option.map_eq_some_iff] at h
    obtain ⟨s, hs, rfl⟩ := h
    intro e he
    simp only [List.mem_singleton] at he
    subst he
    exact ⟨hf.start_lt s hs, L.good_one⟩
  | step _ ha ih => exact det_trs_good L ho hf hw ih _ ha

/-- The weight of a tuple is the weighted sum over its elements. -/
theorem det_total (hac : f.Holds .acceptor) (hok : ∀ t, (detMachine f o ord).Reach t → (∃ as, detTrs f o ord t = .ok as) ∧ ∃ w, detFin f o t = .ok w) (n : Nat) :
    ∀ (t : DTup W) (G : List Nat → List Nat → S), (detMachine f o ord).Reach t →
    vtot val ((detMachine f o ord).pathsFrom n t) G = (t.subset.map fun e => val e.weight * vtot val (f.pathsFrom n e.state) G).sum := by
  induction n with
  | zero =>
    intro t G ht
    have hg := det_reach_good L ho hf hw ht
    obtain ⟨w, hfin⟩ := (hok t ht).2
    have hR : ∀ s, vtot val (f.pathsFrom 0 s) G = val ((f.finOf s).getD 0) * G [] [] := by
      intro s
      rw [Fst.pathsFrom]
      cases f.finOf s <;> simp [vtot, L.zero]
    have hL : vtot val ((detMachine f o ord).pathsFrom 0 t) G = val (w.getD 0) * G [] [] := by
      have : (detMachine f o ord).fin t = w := by simp [TupleOp.machine, detOp, hfin]
      rw [Machine.pathsFrom, this]
      cases w <;> simp [vtot, L.zero]
    have hval : val (w.getD 0) = (t.subset.map fun e => val e.weight * val ((f.finOf e.state).getD 0)).sum := by
      unfold detFin at hfin
      split at hfin
      · cases hfin
      · next v hv =>
        have := detFinSum_spec L (fun e he => (hg e he).1) hv
        rw [L.zero, zero_add] at this
        rw [← this]
        split at hfin
        · next h0 => injection hfin with hfin; subst hfin; subst h0; rfl
        · injection hfin with hfin; subst hfin; rfl
    rw [hL, hval, ← List.sum_map_mul_right]
    simp only [hR, mul_assoc]
  | succ n ih =>
    intro t G ht
    have hg := det_reach_good L ho hf hw ht
    obtain ⟨as, has⟩ := (hok t ht).1
    have hM : (detMachine f o ord).trs t = as := by simp [TupleOp.machine, detOp, has]
    obtain ⟨hT, hsum⟩ := detTrs_spec L ho hf hw has hg
    have hl : vtot val ((detMachine f o ord).pathsFrom (n + 1) t) G =
        (as.map fun a => val a.weight * (a.next.subset.map fun q => val q.weight *
          vtot val (f.pathsFrom n q.state) (fun x y => G (strip a.ilabel ++ x) (strip a.ilabel ++ y))).sum).sum := by
      rw [Machine.pathsFrom, vtot_bind, hM, Multiset.map_coe, Multiset.sum_coe]
      congr 1
      refine List.map_congr_left fun a ha => ?_
      rw [vtot_cat L.mul, ih a.next _ (.step ht (by rw [hM]; exact ha))]
      simp only [MTr.asPath, hT.acceptor a ha]
    rw [hl, hsum fun l s => vtot val (f.pathsFrom n s) (fun x y => G (strip l ++ x) (strip l ++ y))]
    congr 1
    refine List.map_congr_left fun e _ => ?_
    rw [Fst.pathsFrom, vtot_bind, Multiset.map_coe, Multiset.sum_coe, ← List.sum_map_mul_left]
    congr 1
    refine List.map_congr_left fun tr htr => ?_
    rw [vtot_cat L.mul, L.mul, mul_assoc]
    simp only [Tr.asPath, hac e.state tr htr]

/-- The determinization has the weights of the input. -/
theorem det_weights (hac : f.Holds .acceptor) (hok : ∀ t, (detMachine f o ord).Reach t → (∃ as, detTrs f o ord t = .ok as) ∧ ∃ w, detFin f o t = .ok w)
    (n : Nat) (x y : List Label) : sumVal val ((detMachine f o ord).accPaths n) x y = sumVal val (f.accPaths n) x y := by
  rw [sumVal_eq, sumVal_eq]
  cases hs : f.start with
  | none =>
    have : (detMachine f o ord).start = none := by simp [TupleOp.machine, detOp, hs]
    rw [Machine.accPaths, this, Fst.accPaths, hs]
  | some i =>
    have : (detMachine f o ord).start = some ⟨[⟨i, 1⟩], i⟩ := by simp [TupleOp.machine, detOp, hs]
    rw [Machine.accPaths, this, Fst.accPaths, hs]
    simp only
    rw [det_total L ho hf hw hac hok n _ _ (.start this)]
    simp [L.one]

end

end Verif
