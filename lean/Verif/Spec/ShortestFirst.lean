import Verif.Model.ShortestFirst
import Verif.Spec.Queue
import Mathlib.Data.Multiset.AddSub

/-!
# Specification: heaps, and queues that deliver a greatest element
-/

namespace Verif
universe u

/-- The comparison orders the elements of `M`: for any two of them it compares some keys. -/
def CmpOrders (cmp : Cmp) (M : Multiset StateId) : Prop :=
  ∃ (K : Type) (_ : LinearOrder K) (key : StateId → K), ∀ a b, {a, b} ≤ M → cmp a b = .ok (compare (key a) (key b))

/-- What is documented about `BinaryHeap`: it holds what was pushed, and `pop` and `peek` give a greatest element, if the comparison orders the elements. -/
structure HeapLaw {H : Type u} (o : HeapOps H) where
  Holds : Cmp → H → Multiset StateId → Prop
  new : ∀ cmp, Holds cmp o.new 0
  push : ∀ {cmp h M s}, Holds cmp h M → CmpOrders cmp (s ::ₘ M) → ∃ h', o.push cmp h s = .ok h' ∧ Holds cmp h' (s ::ₘ M)
  pop : ∀ {cmp h M}, Holds cmp h M → CmpOrders cmp M →
    (∃ s h', o.pop cmp h = .ok (some s, h') ∧ s ∈ M ∧ Holds cmp h' (M.erase s) ∧ ∀ t ∈ M.erase s, cmp t s ≠ .ok .gt) ∨
    (M = 0 ∧ ∃ h', o.pop cmp h = .ok (none, h') ∧ Holds cmp h' 0)
  peek : ∀ {cmp h M s h'}, Holds cmp h M → o.pop cmp h = .ok (s, h') → o.peek h = s
  isEmpty : ∀ {cmp h M}, Holds cmp h M → (o.isEmpty h = true ↔ M = 0)
  clear : ∀ {cmp h M}, Holds cmp h M → Holds cmp (o.clear h) 0

/-- The states that a history puts into a queue. -/
def putIn : List QueueOp → Multiset StateId
  | [] => 0
  | .enqueue s :: l => s ::ₘ putIn l
  | _ :: l => putIn l

/-- What must be seen of a queue that delivers a state such that no waiting state is `better`: it behaves as the multiset of the waiting states. -/
inductive BestSees (better : StateId → StateId → Prop) : Multiset StateId → List QueueOp → List QueueObs → Prop
  | done (M) : BestSees better M [] []
  | enqueue {M s l out} : BestSees better (s ::ₘ M) l out → BestSees better M (.enqueue s :: l) out
  | clear {M l out} : BestSees better 0 l out → BestSees better M (.clear :: l) out
  | isEmpty {M b l out} : (b = true ↔ M = 0) → BestSees better M l out → BestSees better M (.isEmpty :: l) (.empty b :: out)
  | dequeue {M s l out} : s ∈ M → (∀ t ∈ M, ¬ better t s) → BestSees better (M.erase s) l out → BestSees better M (.dequeue :: l) (.state (some s) :: out)
  | dequeueNone {l out} : BestSees better 0 l out → BestSees better 0 (.dequeue :: l) (.state none :: out)

end Verif
