import Verif.Spec.ShortestFirst

/-!
# Queues over a heap
-/

namespace Verif
universe u

theorem pair_swap (a b : StateId) : (a ::ₘ {b} : Multiset StateId) = b ::ₘ {a} := Multiset.cons_swap a b 0

theorem CmpOrders.mono {cmp : Cmp} {M N : Multiset StateId} (h : CmpOrders cmp N) (hle : M ≤ N) : CmpOrders cmp M := by
  obtain ⟨K, i, key, hk⟩ := h
  exact ⟨K, i, key, fun a b hab => hk a b (hab.trans hle)⟩

/-- A queue over a heap, run on any history without `update`. -/
theorem heap_run {H : Type u} {o : HeapOps H} (L : HeapLaw o) {cmp : Cmp} {K : Type} [LinearOrder K] {key : StateId → K} : ∀ (l : List QueueOp) {h : H} {M : Multiset StateId},
    L.Holds cmp h M → (∀ a b, {a, b} ≤ M + putIn l → cmp a b = .ok (compare (key a) (key b))) → (∀ s, QueueOp.update s ∉ l) →
    ∃ out h', (shortestFirstOps o cmp).run h l = .ok (out, h') ∧ BestSees (fun t s => key s < key t) M l out
  | [], h, M, _, _, _ => ⟨[], h, rfl, .done M⟩
  | .update s :: l, _, _, _, _, hu => absurd (List.mem_cons_self) (hu s)
  | .enqueue s :: l, h, M, hh, hk, hu => by
    have e0 : M + putIn (.enqueue s :: l) = (s ::ₘ M) + putIn l := by simp [putIn]
    rw [e0] at hk
    obtain ⟨h1, e1, hh1⟩ := L.push hh ⟨K, _, key, fun a b hab => hk a b (hab.trans (Multiset.le_add_right _ _))⟩
    obtain ⟨out, h', e', hs⟩ := heap_run L l hh1 hk fun s hs => hu s (List.mem_cons_of_mem _ hs)
    exact ⟨out, h', by simp only [QueueOps.run, shortestFirstOps, e1]; exact e', .enqueue hs⟩
  | .clear :: l, h, M, hh, hk, hu => by
    obtain ⟨out, h', e', hs⟩ := heap_run L l (L.clear hh) (fun a b hab => hk a b (hab.trans (Multiset.add_le_add_iff_right.2 (Multiset.zero_le M)))) fun s hs => hu s (List.mem_cons_of_mem _ hs)
    exact ⟨out, h', by simp only [QueueOps.run, shortestFirstOps]; exact e', .clear hs⟩
  | .isEmpty :: l, h, M, hh, hk, hu => by
    obtain ⟨out, h', e', hs⟩ := heap_run L l hh hk fun s hs => hu s (List.mem_cons_of_mem _ hs)
    refine ⟨.empty (o.isEmpty h) :: out, h', ?_, .isEmpty (L.isEmpty hh) hs⟩
    simp only [QueueOps.run]
    rw [e']
    rfl
  | .dequeue :: l, h, M, hh, hk, hu => by
    have hM : CmpOrders cmp M := ⟨K, _, key, fun a b hab => hk a b (hab.trans (Multiset.le_add_right _ _))⟩
    rcases L.pop hh hM with ⟨s, h1, e1, hs, hh1, hmax⟩ | ⟨rfl, h1, e1, hh1⟩
    · obtain ⟨out, h', e', hb⟩ := heap_run L l hh1 (fun a b hab => hk a b (hab.trans (Multiset.add_le_add_iff_right.2 (Multiset.erase_le s M)))) fun s hs => hu s (List.mem_cons_of_mem _ hs)
      refine ⟨.state (some s) :: out, h', ?_, .dequeue hs (fun t ht hlt => ?_) hb⟩
      · simp only [QueueOps.run]
        have : (shortestFirstOps o cmp).dequeue h = .ok (some s, h1) := e1
        rw [this]; dsimp only; rw [e']
      · have hne : t ≠ s := fun e => lt_irrefl _ (e ▸ hlt)
        have ht' : t ∈ M.erase s := (Multiset.mem_erase_of_ne hne).2 ht
        have hp : ({t, s} : Multiset StateId) ≤ M := by
          rw [← Multiset.cons_erase hs, Multiset.insert_eq_cons, pair_swap t s]
          exact Multiset.cons_le_cons s (Multiset.singleton_le.2 ht')
        have := hk t s (hp.trans (Multiset.le_add_right _ _))
        exact hmax t ht' (by rw [this, compare_gt_iff_gt.2 hlt])
    · obtain ⟨out, h', e', hb⟩ := heap_run L l hh1 hk fun s hs => hu s (List.mem_cons_of_mem _ hs)
      refine ⟨.state none :: out, h', ?_, .dequeueNone hb⟩
      simp only [QueueOps.run]
      have : (shortestFirstOps o cmp).dequeue h = .ok (none, h1) := e1
      rw [this]; dsimp only; rw [e']

/-! ### A heap -/

/-- A list in descending order, with a new element put in. -/
def insDown (cmp : Cmp) (s : StateId) : List StateId → R (List StateId)
  | [] => .ok [s]
  | t :: l =>
    match cmp s t with
    | .error e => .error e
    | .ok .gt => .ok (s :: t :: l)
    | .ok _ =>
      match insDown cmp s l with
      | .error e => .error e
      | .ok l => .ok (t :: l)

/-- A heap that is a list in descending order; only used to show that there is one. -/
def sortedHeap : HeapOps (List StateId) where
  new := []
  peek h := h.head?
  push cmp h s := insDown cmp s h
  pop _ h := .ok (h.head?, h.tail)
  isEmpty h := h.isEmpty
  clear _ := []

theorem insDown_ok {cmp : Cmp} {K : Type} [LinearOrder K] {key : StateId → K} {s : StateId} : ∀ {l : List StateId},
    (∀ a b, {a, b} ≤ (s ::ₘ (l : Multiset StateId)) → cmp a b = .ok (compare (key a) (key b))) → l.Pairwise (fun a b => key b ≤ key a) →
    ∃ l', insDown cmp s l = .ok l' ∧ l'.Perm (s :: l) ∧ l'.Pairwise fun a b => key b ≤ key a
  | [], _, _ => ⟨[s], rfl, .refl _, List.pairwise_singleton _ _⟩
  | t :: l, hk, hp => by
    have e : cmp s t = .ok (compare (key s) (key t)) := hk s t (Multiset.cons_le_cons s (Multiset.singleton_le.2 (by simp)))
    obtain ⟨h1, h2⟩ := List.pairwise_cons.1 hp
    by_cases hgt : key t < key s
    · refine ⟨s :: t :: l, by simp only [insDown, e, compare_gt_iff_gt.2 hgt], .refl _, List.pairwise_cons.2 ⟨fun x hx => ?_, hp⟩⟩
      rcases List.mem_cons.1 hx with rfl | hx
      · exact hgt.le
      · exact (h1 x hx).trans hgt.le
    · obtain ⟨l', e', p', w'⟩ := insDown_ok (l := l) (fun a b hab => hk a b (hab.trans (Multiset.cons_le_cons s (Multiset.le_cons_self (l : Multiset StateId) t)))) h2
      refine ⟨t :: l', ?_, (p'.cons t).trans (List.Perm.swap s t l), List.pairwise_cons.2 ⟨fun x hx => ?_, w'⟩⟩
      · have hn : compare (key s) (key t) ≠ .gt := fun h => hgt (compare_gt_iff_gt.1 h)
        simp only [insDown, e, e']
      · rcases List.mem_cons.1 (p'.mem_iff.1 hx) with rfl | hx
        · exact not_lt.1 hgt
        · exact h1 x hx

/-- The law holds of it. -/
def sortedHeapLaw : HeapLaw sortedHeap where
  Holds cmp h M := (h : Multiset StateId) = M ∧ h.Pairwise fun a b => cmp b a ≠ .ok .gt
  new _ := ⟨rfl, List.Pairwise.nil⟩
  push := by
    rintro cmp h M s ⟨rfl, hp⟩ ⟨K, i, key, hk⟩
    have hle : ∀ {h' : List StateId}, (h' : Multiset StateId) ≤ s ::ₘ (h : Multiset StateId) → (h'.Pairwise (fun a b => cmp b a ≠ .ok .gt) ↔ h'.Pairwise fun a b => key b ≤ key a) := by
      intro h' hle
      induction h' with
      | nil => simp
      | cons a t ih =>
        rw [List.pairwise_cons, List.pairwise_cons, ih ((Multiset.le_cons_self (t : Multiset StateId) a).trans hle)]
        refine and_congr_left fun _ => forall_congr' fun b => forall_congr' fun hb => ?_
        rw [hk b a (le_trans (by
          rw [Multiset.insert_eq_cons, pair_swap b a]
          exact Multiset.cons_le_cons a (Multiset.singleton_le.2 (Multiset.mem_coe.2 hb))) hle)]
        rw [← not_lt, ← compare_gt_iff_gt (a := key b) (b := key a)]
        simp
    obtain ⟨h', e, p, w⟩ := insDown_ok hk ((hle (Multiset.le_cons_self _ _)).1 hp)
    have ep : (h' : Multiset StateId) = s ::ₘ (h : Multiset StateId) := Multiset.coe_eq_coe.2 p
    exact ⟨h', e, ep, (hle ep.le).2 w⟩
  pop := by
    rintro cmp h M ⟨rfl, hp⟩ -
    cases h with
    | nil => exact .inr ⟨rfl, [], rfl, rfl, List.Pairwise.nil⟩
    | cons s l =>
      obtain ⟨h1, h2⟩ := List.pairwise_cons.1 hp
      exact .inl ⟨s, l, rfl, by simp, ⟨by simp, h2⟩, fun t ht => h1 t (by simpa using ht)⟩
  peek := by
    rintro cmp h M s h' - e
    simp only [sortedHeap, Except.ok.injEq, Prod.mk.injEq] at e
    exact e.1
  isEmpty := by
    rintro cmp h M ⟨rfl, -⟩
    cases h <;> simp [sortedHeap]
  clear _ := ⟨rfl, List.Pairwise.nil⟩

end Verif
