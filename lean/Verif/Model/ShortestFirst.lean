import Verif.Model.Queues
import Mathlib.Order.Compare

/-!
# Queues that deliver by weight (`algorithms/queues/shortest_first_queue.rs`)

The heap is the `BinaryHeap` of the crate `binary_heap_plus`, whose source is not part of the repository. The queue is modelled over any implementation `HeapOps` of the
methods it calls; what the crate documents about them is `HeapLaw` (Spec/ShortestFirst.lean).
-/

namespace Verif
universe u v

/-- A comparison of states that may panic. -/
abbrev Cmp := StateId → StateId → R Ordering

/-- The methods of `BinaryHeap` that the queue calls (shortest_first_queue.rs 46, 53, 57, 61, 69, 73). -/
structure HeapOps (H : Type u) where
  new : H
  peek : H → Option StateId
  push : Cmp → H → StateId → R H
  pop : Cmp → H → R (Option StateId × H)
  isEmpty : H → Bool
  clear : H → H

/-- `ShortestFirstQueue` (shortest_first_queue.rs 51-79). `update` is `unimplemented!()`. -/
def shortestFirstOps {H : Type u} (o : HeapOps H) (cmp : Cmp) : QueueOps H where
  head q := .ok (o.peek q)
  enqueue q s := o.push cmp q s
  dequeue q := o.pop cmp q
  update _ _ := .error .panic
  isEmpty q := .ok (o.isEmpty q)
  clear q := .ok (o.clear q)

section
variable {W : Type u} [Add W] [DecidableEq W]

/-- `natural_less` (shortest_first_queue.rs 28-30). -/
def queueLess (a b : W) : Bool := decide (a + b = a) && decide (a ≠ b)

/-- The comparison of `NaturalShortestFirstQueue::new` (shortest_first_queue.rs 89-96) with `StateWeightCompare::compare` (23-25): an index out of range panics. -/
def naturalCmp (weights : List W) : Cmp := fun s t =>
  match weights[s]?, weights[t]? with
  | some a, some b => .ok (if queueLess a b then .lt else .gt)
  | _, _ => .error .panic

/-- `NaturalShortestFirstQueue` (shortest_first_queue.rs 82-131). -/
def naturalFirstOps {H : Type v} (o : HeapOps H) (weights : List W) : QueueOps H := shortestFirstOps o (naturalCmp weights)

end
end Verif
