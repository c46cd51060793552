import Verif.Model.Queues
import Mathlib.Data.Set.Basic

/-!
# Specification: queues

A queue delivers the states that were put into it. `Rep c q S` says that the queue `q` holds exactly the states of the set `S`, when
`c` is the state dequeued last (`none` before the first `dequeue`). `ok c s` tells which states may be enqueued then; `after s x`
is what the discipline of the queue promises about the states `x` that are still waiting when `s` is dequeued.
-/

namespace Verif
universe u

/-- What an algorithm may rely on. -/
structure QueueLaw {Q : Type u} (o : QueueOps Q) (ok : Option StateId → StateId → Prop) (after : StateId → StateId → Prop) where
  Rep : Option StateId → Q → Set StateId → Prop
  size : Q → Nat
  /-- `enqueue` adds the state. -/
  enqueue : ∀ {c q S s}, Rep c q S → ok c s → ∃ q', o.enqueue q s = .ok q' ∧ Rep c q' (S ∪ {s}) ∧ size q' ≤ size q + 1
  /-- `update` changes nothing. -/
  update : ∀ {c q S s}, Rep c q S → ok c s → ∃ q', o.update q s = .ok q' ∧ Rep c q' S ∧ size q' ≤ size q
  /-- `dequeue` returns a waiting state and keeps the others; it returns `None` only when there is none. -/
  dequeue : ∀ {c q S}, Rep c q S →
    (∃ s q' S', o.dequeue q = .ok (some s, q') ∧ s ∈ S ∧ Rep (some s) q' S' ∧ S' ⊆ S ∧ S ⊆ S' ∪ {s} ∧ (∀ x ∈ S', after s x) ∧
      size q' < size q) ∨
    (∃ q', o.dequeue q = .ok (none, q') ∧ S = ∅ ∧ Rep c q' ∅)
  /-- `is_empty` tells whether a state is waiting. -/
  isEmpty : ∀ {c q S}, Rep c q S → ∃ b, o.isEmpty q = .ok b ∧ (b = true ↔ S = ∅)
  /-- `head` returns the state that `dequeue` is going to return. -/
  head : ∀ {c q S}, Rep c q S → S.Nonempty → ∃ s q', o.head q = .ok (some s) ∧ o.dequeue q = .ok (some s, q')
  /-- `clear` empties the queue. -/
  clear : ∀ {c q S}, Rep c q S → ∃ q', o.clear q = .ok q' ∧ Rep none q' ∅ ∧ size q' = 0

/-- What can be done with a queue. -/
inductive QueueOp where
  | enqueue (s : StateId)
  | dequeue
  | update (s : StateId)
  | isEmpty
  | clear
  deriving DecidableEq

/-- What is seen of it. -/
inductive QueueObs where
  | state (s : Option StateId)
  | empty (b : Bool)
  deriving DecidableEq

/-- A sequence of operations and what is seen, by running the code. -/
def QueueOps.run {Q : Type u} (o : QueueOps Q) : Q → List QueueOp → R (List QueueObs × Q)
  | q, [] => .ok ([], q)
  | q, .enqueue s :: l =>
    match o.enqueue q s with
    | .error e => .error e
    | .ok q => o.run q l
  | q, .update s :: l =>
    match o.update q s with
    | .error e => .error e
    | .ok q => o.run q l
  | q, .clear :: l =>
    match o.clear q with
    | .error e => .error e
    | .ok q => o.run q l
  | q, .isEmpty :: l =>
    match o.isEmpty q with
    | .error e => .error e
    | .ok b =>
      match o.run q l with
      | .error e => .error e
      | .ok (out, q) => .ok (.empty b :: out, q)
  | q, .dequeue :: l =>
    match o.dequeue q with
    | .error e => .error e
    | .ok (s, q) =>
      match o.run q l with
      | .error e => .error e
      | .ok (out, q) => .ok (.state s :: out, q)

/-- What must be seen of a queue that delivers its states by increasing `key`: it behaves as the set of the waiting states. -/
inductive KeySees (key : StateId → Nat) : Set StateId → List QueueOp → List QueueObs → Prop
  | done (S) : KeySees key S [] []
  | enqueue {S s l out} : KeySees key (S ∪ {s}) l out → KeySees key S (.enqueue s :: l) out
  | update {S s l out} : KeySees key S l out → KeySees key S (.update s :: l) out
  | clear {S l out} : KeySees key ∅ l out → KeySees key S (.clear :: l) out
  | isEmpty {S b l out} : (b = true ↔ S = ∅) → KeySees key S l out → KeySees key S (.isEmpty :: l) (.empty b :: out)
  | dequeue {S s l out} : s ∈ S → (∀ x ∈ S, x ≠ s → key s < key x) → KeySees key (S \ {s}) l out →
      KeySees key S (.dequeue :: l) (.state (some s) :: out)
  | dequeueNone {l out} : KeySees key ∅ l out → KeySees key ∅ (.dequeue :: l) (.state none :: out)

/-- What must be seen of a list of waiting states, `put` saying where a new one goes; the first one is delivered. -/
def listSees (put : List StateId → StateId → List StateId) : List StateId → List QueueOp → List QueueObs
  | _, [] => []
  | w, .enqueue s :: l => listSees put (put w s) l
  | w, .update _ :: l => listSees put w l
  | _, .clear :: l => listSees put [] l
  | w, .isEmpty :: l => .empty (decide (w = [])) :: listSees put w l
  | [], .dequeue :: l => .state none :: listSees put [] l
  | s :: w, .dequeue :: l => .state (some s) :: listSees put w l

end Verif
