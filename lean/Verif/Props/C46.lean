import Verif.Lemmas.AutoQueue
import Verif.Lemmas.Heap
import Mathlib.Data.Multiset.Basic

/-!
# C46: the queues deliver what was put into them

The history theorems run an arbitrary sequence of operations on an empty queue (`QueueOps.run`) and compare what is seen with a set or
list of waiting states (Spec/Queue.lean).
-/

namespace Verif
universe u

/-- A queue that delivers by increasing key, run on any history. -/
theorem C46_key {Q : Type u} {o : QueueOps Q} {ok : Option StateId → StateId → Prop} {key : StateId → Nat}
    (L : QueueLaw o ok (fun s x => key s < key x)) :
    ∀ (l : List QueueOp) (c : Option StateId) (q : Q) (S : Set StateId), L.Rep c q S →
      (∀ c s, (QueueOp.enqueue s ∈ l ∨ QueueOp.update s ∈ l) → ok c s) → ∃ out q', o.run q l = .ok (out, q') ∧ KeySees key S l out
  | [], c, q, S, _, _ => ⟨[], q, rfl, .done S⟩
  | .enqueue s :: l, c, q, S, h, hok => by
    obtain ⟨q1, e, h1, -⟩ := L.enqueue h (hok c s (.inl (by simp)))
    obtain ⟨out, q', e', h'⟩ := C46_key L l c q1 _ h1 (fun c s hs => hok c s (hs.imp (List.mem_cons_of_mem _) (List.mem_cons_of_mem _)))
    exact ⟨out, q', by simp only [QueueOps.run, e, e'], .enqueue h'⟩
  | .update s :: l, c, q, S, h, hok => by
    obtain ⟨q1, e, h1, -⟩ := L.update h (hok c s (.inr (by simp)))
    obtain ⟨out, q', e', h'⟩ := C46_key L l c q1 _ h1 (fun c s hs => hok c s (hs.imp (List.mem_cons_of_mem _) (List.mem_cons_of_mem _)))
    exact ⟨out, q', by simp only [QueueOps.run, e, e'], .update h'⟩
  | .clear :: l, c, q, S, h, hok => by
    obtain ⟨q1, e, h1, -⟩ := L.clear h
    obtain ⟨out, q', e', h'⟩ := C46_key L l _ q1 _ h1 (fun c s hs => hok c s (hs.imp (List.mem_cons_of_mem _) (List.mem_cons_of_mem _)))
    exact ⟨out, q', by simp only [QueueOps.run, e, e'], .clear h'⟩
  | .isEmpty :: l, c, q, S, h, hok => by
    obtain ⟨b, e, h1⟩ := L.isEmpty h
    obtain ⟨out, q', e', h'⟩ := C46_key L l _ q _ h (fun c s hs => hok c s (hs.imp (List.mem_cons_of_mem _) (List.mem_cons_of_mem _)))
    exact ⟨.empty b :: out, q', by simp only [QueueOps.run, e, e'], .isEmpty h1 h'⟩
  | .dequeue :: l, c, q, S, h, hok => by
    rcases L.dequeue h with ⟨s, q1, S', e, hs, h1, hsub, hsup, hafter, -⟩ | ⟨q1, e, rfl, h1⟩
    · obtain ⟨out, q', e', h'⟩ := C46_key L l _ q1 _ h1 (fun c s hs => hok c s (hs.imp (List.mem_cons_of_mem _) (List.mem_cons_of_mem _)))
      have hS : S' = S \ {s} := by
        ext x
        simp only [Set.mem_diff, Set.mem_singleton_iff]
        constructor
        · intro hx
          exact ⟨hsub hx, fun hxs => by have := hafter x hx; rw [hxs] at this; omega⟩
        · rintro ⟨hx, hne⟩
          exact (hsup hx).resolve_right hne
      refine ⟨.state (some s) :: out, q', by simp only [QueueOps.run, e, e'], .dequeue hs ?_ (hS ▸ h')⟩
      intro x hx hne
      exact hafter x ((hsup hx).resolve_right hne)
    · obtain ⟨out, q', e', h'⟩ := C46_key L l _ q1 _ h1 (fun c s hs => hok c s (hs.imp (List.mem_cons_of_mem _) (List.mem_cons_of_mem _)))
      exact ⟨.state none :: out, q', by simp only [QueueOps.run, e, e'], .dequeueNone h'⟩

/-- **State-order queues**: on any history, no panic, and the smallest waiting state is delivered. -/
theorem C46_state_order (l : List QueueOp) :
    ∃ out q', StateOrderQ.ops.run StateOrderQ.new l = .ok (out, q') ∧ KeySees id ∅ l out := by
  refine C46_key (stateOrderLaw (fun _ _ => True)) l none _ ∅ ⟨?_, ?_, ?_⟩ (fun _ _ _ => trivial)
  · exact fun x => ⟨fun h => absurd h (Set.notMem_empty x), fun h => by cases h⟩
  · intro i hi; exact absurd hi (Set.notMem_empty i)
  · intro b hb; cases hb

/-- **Topological-order queues** made from a numbering `order` of the states `0..n`: on any history of these states, no panic, and the
waiting state with the smallest number is delivered. -/
theorem C46_top_order (order : List Nat) (n : Nat) (ho : order.Perm (List.range n)) (l : List QueueOp)
    (hl : ∀ s, QueueOp.enqueue s ∈ l ∨ QueueOp.update s ∈ l → s < n) :
    ∃ out q', TopOrderQ.ops.run (TopOrderQ.ofOrder order) l = .ok (out, q') ∧ KeySees (fun s => order[s]?.getD 0) ∅ l out := by
  refine C46_key (topOrderLaw order n (AutoQ.perm_orderOk ho) (fun _ s => s < n) (fun _ _ h => h)) l none _ ∅
    ⟨rfl, ?_, ?_, ?_, ?_, ?_⟩ (fun _ s hs => hl s hs)
  · simpa [TopOrderQ.ofOrder] using ho.length_eq
  · intro x
    simp [TopOrderQ.ofOrder, List.getElem?_replicate]
  · intro i x hx
    simp [TopOrderQ.ofOrder, List.getElem?_replicate] at hx
  · rintro i ⟨x, hx⟩
    simp [TopOrderQ.ofOrder, List.getElem?_replicate] at hx
  · intro b hb; cases hb

/-- **FIFO queues**: on any history the states come out in the order in which they were put in. -/
theorem C46_fifo (l : List QueueOp) : ∃ q', fifoOps.run [] l = .ok (listSees (fun w s => w ++ [s]) [] l, q') := by
  suffices ∀ l w, ∃ q', fifoOps.run w l = .ok (listSees (fun w s => w ++ [s]) w l, q') from this l []
  intro l
  induction l with
  | nil => intro w; exact ⟨w, rfl⟩
  | cons a l ih =>
    intro w
    cases a with
    | enqueue s => exact ih (w ++ [s])
    | update s => exact ih w
    | clear => exact ih []
    | isEmpty =>
      obtain ⟨q', e⟩ := ih w
      refine ⟨q', ?_⟩
      simp only [QueueOps.run, listSees]
      rw [e]
      cases w <;> rfl
    | dequeue =>
      obtain ⟨q', e⟩ := ih w.tail
      refine ⟨q', ?_⟩
      cases w with
      | nil => simp only [QueueOps.run, fifoOps] at e ⊢; rw [e]; rfl
      | cons s w => simp only [QueueOps.run, fifoOps] at e ⊢; rw [e]; rfl

/-- **LIFO queues**: on any history the state put in last comes out first. -/
theorem C46_lifo (l : List QueueOp) : ∃ q', lifoOps.run [] l = .ok (listSees (fun w s => s :: w) [] l, q') := by
  suffices ∀ l w, ∃ q', lifoOps.run w l = .ok (listSees (fun w s => s :: w) w l, q') from this l []
  intro l
  induction l with
  | nil => intro w; exact ⟨w, rfl⟩
  | cons a l ih =>
    intro w
    cases a with
    | enqueue s => exact ih (s :: w)
    | update s => exact ih w
    | clear => exact ih []
    | isEmpty =>
      obtain ⟨q', e⟩ := ih w
      refine ⟨q', ?_⟩
      simp only [QueueOps.run, listSees]
      rw [e]
      cases w <;> rfl
    | dequeue =>
      obtain ⟨q', e⟩ := ih w.tail
      refine ⟨q', ?_⟩
      cases w with
      | nil => simp only [QueueOps.run, lifoOps] at e ⊢; rw [e]; rfl
      | cons s w => simp only [QueueOps.run, lifoOps] at e ⊢; rw [e]; rfl

/-- **The automatically chosen queue** is lawful for every well-formed FST with truthful flags, as long as only states of the FST are put
into it, which after a `dequeue` are successors of the dequeued state. -/
theorem C46_auto {W : Type u} [Zero W] [One W] [DecidableEq W] {f : Fst W} (hw : f.WF) (ht : f.Truthful) (sf : SemiringFlags)
    (keep : Tr W → Bool) :
    ∃ q, AutoQ.new sf f keep = .ok q ∧ ∃ L : QueueLaw AutoQ.ops (EdgeOk f keep) (fun _ _ => True), L.Rep none q ∅ :=
  AutoQ.new_lawful hw ht sf keep

/-- **The heap of the n-best search**, for any strict weak order: `push` adds the value, `pop` removes a value than which none is larger,
and both leave a heap behind. -/
theorem C46_heap {V : Type u} {less : V → V → Bool} (hl : Heap.Weak less) {l : List V} (h : Heap.IsHeap less l) :
    (∀ v, Heap.IsHeap less (Heap.push less l v) ∧ (Heap.push less l v : Multiset V) = v ::ₘ l) ∧
    (l ≠ [] → ∃ v l', Heap.pop less l = .ok (v, l') ∧ Heap.IsHeap less l' ∧ (l : Multiset V) = v ::ₘ l' ∧
      ∀ x ∈ l, less v x = false) := by
  refine ⟨fun v => ⟨Heap.push_heap hl h v, Multiset.coe_eq_coe.2 (Heap.push_perm l v)⟩, fun hne => ?_⟩
  obtain ⟨v, l', e, hp, hm, hh⟩ := Heap.pop_spec hl h hne
  exact ⟨v, l', e, hh, Multiset.coe_eq_coe.2 hp, hm⟩

/-- The heaps that can be reached by `push` and `pop`. -/
inductive Heap.Reach {V : Type u} (less : V → V → Bool) : List V → Prop
  | new : Heap.Reach less []
  | push {l} (v) : Heap.Reach less l → Heap.Reach less (Heap.push less l v)
  | pop {l v l'} : Heap.Reach less l → Heap.pop less l = .ok (v, l') → Heap.Reach less l'

/-- Every heap that can be reached is one, so `C46_heap` applies to it. -/
theorem C46_heap_reach {V : Type u} {less : V → V → Bool} (hl : Heap.Weak less) {l : List V} (h : Heap.Reach less l) :
    Heap.IsHeap less l := by
  induction h with
  | new => exact Heap.isHeap_nil
  | push v _ ih => exact Heap.push_heap hl ih v
  | @pop l v l' _ e ih =>
    by_cases hne : l = []
    · subst hne; cases e
    · obtain ⟨v', l'', e', -, -, hh⟩ := Heap.pop_spec hl ih hne
      rw [e] at e'
      cases e'
      exact hh

/-! ## Defects -/

/-- The `head` of an empty state-order queue is a state (state_order_queue.rs 12-14 does not look at `is_empty`). -/
theorem C46_state_order_head_defect :
    StateOrderQ.ops.isEmpty StateOrderQ.new = .ok true ∧ StateOrderQ.ops.head StateOrderQ.new = .ok (some 0) := ⟨rfl, rfl⟩

/-- A queue of components goes wrong when a state of a smaller component is put in after a `dequeue` (which the callers never do): states 1
and 0 are put in and delivered, then `is_empty` denies that the queue is empty and `dequeue` panics. -/
theorem C46_scc_order_defect :
    let q := SccQ.new [InnerQ.fifo [], InnerQ.fifo []] [0, 1]
    (∃ q', (SccQ.ops InnerQ.ops).run q [.enqueue 1, .dequeue, .enqueue 0, .dequeue, .isEmpty] =
      .ok ([.state (some 1), .state (some 0), .empty false], q')) ∧
    (SccQ.ops InnerQ.ops).run q [.enqueue 1, .dequeue, .enqueue 0, .dequeue, .dequeue] = .error .panic := ⟨⟨_, rfl⟩, rfl⟩

/-! ## Examples -/

example : ∃ q', StateOrderQ.ops.run StateOrderQ.new [.enqueue 5, .enqueue 2, .enqueue 5, .dequeue, .isEmpty, .dequeue, .dequeue, .isEmpty] =
    .ok ([.state (some 2), .empty false, .state (some 5), .state none, .empty true], q') := ⟨_, rfl⟩

example : ([2, 0, 1] : List Nat).Perm (List.range 3) := by decide

example : ∃ q', TopOrderQ.ops.run (TopOrderQ.ofOrder [2, 0, 1]) [.enqueue 0, .enqueue 1, .dequeue, .enqueue 2, .dequeue, .dequeue] =
    .ok ([.state (some 1), .state (some 2), .state (some 0)], q') := ⟨_, rfl⟩

example : Heap.Weak (fun a b : Nat => decide (a < b)) := by
  constructor
  · intro a b; simp; omega
  · intro a b c; simp; omega

example : Heap.pop (fun a b : Nat => decide (a < b)) (Heap.push (fun a b : Nat => decide (a < b))
    (Heap.push (fun a b : Nat => decide (a < b)) (Heap.push (fun a b : Nat => decide (a < b)) [] 1) 3) 2) = .ok (3, [2, 1]) := by
  decide +kernel

end Verif
