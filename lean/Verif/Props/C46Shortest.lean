import Verif.Lemmas.ShortestFirst
import Verif.Lemmas.Weights
import Mathlib.Algebra.Order.Field.Rat

/-!
# C46, queues over a heap: what they deliver

The heap of the external crate is any one that does what is documented (`HeapLaw`).
-/

namespace Verif
universe u

/-- C46, `ShortestFirstQueue` with a comparison of keys: on any history without `update` it does not panic, and a waiting state with a greatest key is delivered. -/
theorem C46_shortest_first {H : Type u} {o : HeapOps H} (L : HeapLaw o) {K : Type} [LinearOrder K] (key : StateId → K) (l : List QueueOp) (hu : ∀ s, QueueOp.update s ∉ l) :
    ∃ out h', (shortestFirstOps o fun a b => .ok (compare (key a) (key b))).run o.new l = .ok (out, h') ∧ BestSees (fun t s => key s < key t) 0 l out :=
  heap_run L l (L.new _) (fun _ _ _ => rfl) hu

/-- C46 fails for `update`: it panics in every state of the queue. -/
theorem C46_shortest_first_update_defect {H : Type u} (o : HeapOps H) (cmp : Cmp) (h : H) (s : StateId) (l : List QueueOp) :
    (shortestFirstOps o cmp).run h (.update s :: l) = .error .panic := rfl

theorem queueLess_fin (a b : ℚ) : queueLess (TW.fin a) (TW.fin b) = decide (a < b) := by
  have e : TW.fin a + TW.fin b = if b < a then TW.fin b else TW.fin a := by
    show TW.plus _ _ = _
    simp [TW.plus, TW.lt]
  unfold queueLess
  rw [e]
  rcases lt_trichotomy a b with h | h | h
  · simp [h, h.ne, not_lt.2 h.le]
  · subst h; simp
  · simp [h, h.ne, not_lt.2 h.le]

theorem BestSees.enqueue_inv {P M s l out} (h : BestSees P M (.enqueue s :: l) out) : BestSees P (s ::ₘ M) l out := by
  cases h with
  | enqueue h => exact h

theorem BestSees.dequeue_inv {P M l out} (h : BestSees P M (.dequeue :: l) out) :
    (∃ s out', out = .state (some s) :: out' ∧ s ∈ M ∧ (∀ t ∈ M, ¬ P t s) ∧ BestSees P (M.erase s) l out') ∨ (M = 0 ∧ ∃ out', out = .state none :: out' ∧ BestSees P 0 l out') := by
  cases h with
  | dequeue h1 h2 h3 => exact .inl ⟨_, _, rfl, h1, h2, h3⟩
  | dequeueNone h => exact .inr ⟨rfl, _, rfl, h⟩

theorem BestSees.nil_inv {P M out} (h : BestSees P M [] out) : out = [] := by
  cases h; rfl

/-- `NaturalShortestFirstQueue` over distances that are finite tropical weights, all different, when every state is put in at most once: of the waiting states the one with
the *greatest* distance is delivered. -/
theorem C46_natural_first_reversed {H : Type u} {o : HeapOps H} (L : HeapLaw o) (ks : List ℚ) (hd : ks.Nodup) (l : List QueueOp) (hu : ∀ s, QueueOp.update s ∉ l)
    (hn : (putIn l).Nodup) (hr : ∀ s ∈ putIn l, s < ks.length) :
    ∃ out h', (naturalFirstOps o (ks.map TW.fin)).run o.new l = .ok (out, h') ∧ BestSees (fun t s => ks.getD s 0 < ks.getD t 0) 0 l out := by
  refine heap_run L l (L.new _) (key := fun s => ks.getD s 0) (fun a b hab => ?_) hu
  rw [Multiset.zero_add] at hab
  have ha : a < ks.length := hr a (Multiset.mem_of_le hab (by simp))
  have hb : b < ks.length := hr b (Multiset.mem_of_le hab (by simp))
  have hne : a ≠ b := by
    rintro rfl
    have := Multiset.nodup_of_le hab hn
    simp at this
  have hk : ks[a] ≠ ks[b] := fun e => hne ((hd.getElem_inj_iff).1 e)
  simp only [naturalCmp, List.getElem?_map, List.getElem?_eq_getElem ha, List.getElem?_eq_getElem hb, Option.map_some, queueLess_fin, List.getD_eq_getElem?_getD, Option.getD_some]
  rcases lt_or_gt_of_ne hk with h | h
  · simp [h, compare_lt_iff_lt.2 h]
  · simp [not_lt.2 h.le, compare_gt_iff_gt.2 h]

/-- C46 fails for `NaturalShortestFirstQueue`: of two states with the distances `1` and `2` the second comes first, whatever heap is used, though a shortest-first queue must
deliver a state such that none has a smaller distance. -/
theorem C46_natural_first_defect {H : Type u} {o : HeapOps H} (L : HeapLaw o) :
    (∃ h', (naturalFirstOps o [TW.fin (1 : ℚ), TW.fin 2]).run o.new [.enqueue 0, .enqueue 1, .dequeue] = .ok ([.state (some 1)], h')) ∧
    ¬ BestSees (fun t s => ([1, 2] : List ℚ).getD t 0 < ([1, 2] : List ℚ).getD s 0) 0 [.enqueue 0, .enqueue 1, .dequeue] [.state (some 1)] := by
  constructor
  · obtain ⟨out, h', e, hb⟩ := C46_natural_first_reversed L [1, 2] (by decide) [.enqueue 0, .enqueue 1, .dequeue] (by simp) (by decide) (by decide)
    refine ⟨h', ?_⟩
    have ho : out = [.state (some 1)] := by
      rcases hb.enqueue_inv.enqueue_inv.dequeue_inv with ⟨s, out', rfl, hs, hmax, h⟩ | ⟨h, -⟩
      · rw [h.nil_inv]
        have : s = 1 ∨ s = 0 := by simpa using hs
        rcases this with rfl | rfl
        · rfl
        · exact absurd (by decide) (hmax 1 (by simp))
      · simp at h
    rw [ho] at e
    exact e
  · intro h
    rcases h.enqueue_inv.enqueue_inv.dequeue_inv with ⟨s, out', e, -, hmin, -⟩ | ⟨h, -⟩
    · simp only [List.cons.injEq, QueueObs.state.injEq, Option.some.injEq] at e
      obtain ⟨rfl, -⟩ := e
      exact hmin 0 (by simp) (by decide)
    · simp at h

/-- There is a heap that does what is documented. -/
example : ∃ h', (shortestFirstOps sortedHeap fun a b => .ok (compare a b)).run sortedHeap.new [.enqueue 3, .enqueue 7, .enqueue 5, .dequeue, .isEmpty, .dequeue, .dequeue, .dequeue] =
    .ok ([.state (some 7), .empty false, .state (some 5), .state (some 3), .state none], h') ∧
    BestSees (fun t s => s < t) 0 [.enqueue 3, .enqueue 7, .enqueue 5, .dequeue, .isEmpty, .dequeue, .dequeue, .dequeue]
      [.state (some 7), .empty false, .state (some 5), .state (some 3), .state none] := by
  obtain ⟨out, h', e, hb⟩ := C46_shortest_first sortedHeapLaw (fun s : StateId => s) [.enqueue 3, .enqueue 7, .enqueue 5, .dequeue, .isEmpty, .dequeue, .dequeue, .dequeue] (by simp)
  have e2 : (shortestFirstOps sortedHeap fun a b => .ok (compare a b)).run sortedHeap.new [.enqueue 3, .enqueue 7, .enqueue 5, .dequeue, .isEmpty, .dequeue, .dequeue, .dequeue] =
    .ok ([.state (some 7), .empty false, .state (some 5), .state (some 3), .state none], []) := by rfl
  rw [e2] at e
  simp only [Except.ok.injEq, Prod.mk.injEq] at e
  exact ⟨[], e2, e.1 ▸ hb⟩

end Verif
