import Verif.Model.Dfs
import Verif.Model.Weights

/-!
# Queues of states (`algorithms/queue.rs`, `algorithms/queues/*.rs`)

`ShortestFirstQueue` is in Model/ShortestFirst.lean. `AutoQueue` is modelled without distances: it is always called without them
(shortest_distance.rs 321, 326; shortest_path.rs 191; rm_epsilon_static.rs 67) and then never selects a shortest-first queue.
-/

namespace Verif
universe u v

/-- The trait `Queue` (queue.rs 30-38). Every method may panic (index out of range), which is an error here. -/
structure QueueOps (Q : Type u) where
  head : Q → R (Option StateId)
  enqueue : Q → StateId → R Q
  dequeue : Q → R (Option StateId × Q)
  update : Q → StateId → R Q
  isEmpty : Q → R Bool
  clear : Q → R Q

/-- `FifoQueue` (fifo_queue.rs 8-36). -/
def fifoOps : QueueOps (List StateId) where
  head q := .ok q.head?
  enqueue q s := .ok (q ++ [s])
  dequeue q := .ok (q.head?, q.tail)
  update q _ := .ok q
  isEmpty q := .ok q.isEmpty
  clear _ := .ok []

/-- `LifoQueue` (lifo_queue.rs 6-34). The top of the stack is the head of the list. -/
def lifoOps : QueueOps (List StateId) where
  head q := .ok q.head?
  enqueue q s := .ok (s :: q)
  dequeue q := .ok (q.head?, q.tail)
  update q _ := .ok q
  isEmpty q := .ok q.isEmpty
  clear _ := .ok []

/-- `TrivialQueue` (trivial_queue.rs 7-38). -/
def trivialOps : QueueOps (Option StateId) where
  head q := .ok q
  enqueue _ s := .ok (some s)
  dequeue q := .ok (q, none)
  update q _ := .ok q
  isEmpty q := .ok q.isNone
  clear _ := .ok none

/-- `while front <= back && !p(front) { front += 1 }`, where `n = back + 1 - front`. -/
def advance (p : Nat → Bool) : Nat → Nat → Nat
  | 0, i => i
  | n + 1, i => if p i then i else advance p n (i + 1)

/-! ## `StateOrderQueue` (state_order_queue.rs) -/

/-- Lines 4-9. `enqueued` is grown on demand up to `back`: positions beyond its end count as `false`. -/
structure StateOrderQ where
  front : Nat
  back : Option Nat
  enqueued : Nat → Bool

namespace StateOrderQ

/-- `default()`. -/
def new : StateOrderQ := ⟨0, none, fun _ => false⟩

/-- `is_empty` (49-55). -/
def isEmpty (q : StateOrderQ) : Bool :=
  match q.back with
  | some b => decide (b < q.front)
  | none => true

/-- The new `front` and `back` (18-25). -/
def bounds (front : Nat) (back : Option Nat) (s : Nat) : Nat × Option Nat :=
  match back with
  | none => (s, some s)
  | some b =>
    if b < front then (s, some s)
    else if b < s then (front, some s)
    else if s < front then (s, some b)
    else (front, some b)

/-- `enqueue` (16-31). -/
def enqueue (q : StateOrderQ) (s : StateId) : StateOrderQ :=
  ⟨(bounds q.front q.back s).1, (bounds q.front q.back s).2, upd q.enqueued s true⟩

/-- `dequeue` (33-45). -/
def dequeue (q : StateOrderQ) : Option StateId × StateOrderQ :=
  if q.isEmpty then (none, q)
  else
    let e := upd q.enqueued q.front false
    match q.back with
    | some b => (some q.front, ⟨advance e (b + 1 - q.front) q.front, q.back, e⟩)
    | none => (some q.front, ⟨q.front, q.back, e⟩)

/-- `clear` (57-65). -/
def clear (q : StateOrderQ) : StateOrderQ :=
  match q.back with
  | some b => ⟨0, none, fun i => if q.front ≤ i ∧ i ≤ b then false else q.enqueued i⟩
  | none => ⟨0, none, q.enqueued⟩

/-- `impl Queue for StateOrderQueue` (11-70). `head` (12-14) does not look whether the queue is empty. -/
def ops : QueueOps StateOrderQ where
  head q := .ok (some q.front)
  enqueue q s := .ok (q.enqueue s)
  dequeue q := .ok q.dequeue
  update q _ := .ok q
  isEmpty q := .ok q.isEmpty
  clear q := .ok q.clear

end StateOrderQ

/-! ## `TopOrderQueue` (top_order_queue.rs) -/

/-- Lines 11-17. The length of `state` is that of `order`. -/
structure TopOrderQ where
  order : List StateId
  state : List (Option StateId)
  front : Nat
  back : Option Nat

namespace TopOrderQ

/-- `from_precomputed_order` (28-36). -/
def ofOrder (order : List StateId) : TopOrderQ := ⟨order, List.replicate order.length none, 0, none⟩

/-- `is_empty` (69-75). -/
def isEmpty (q : TopOrderQ) : Bool :=
  match q.back with
  | some b => decide (b < q.front)
  | none => true

/-- `enqueue` (44-55): `order[state]` and `self.state[order[state]]` panic out of range. -/
def enqueue (q : TopOrderQ) (s : StateId) : R TopOrderQ :=
  match q.order[s]? with
  | none => .error .panic
  | some o =>
    if o < q.state.length then
      .ok { q with front := (StateOrderQ.bounds q.front q.back o).1, back := (StateOrderQ.bounds q.front q.back o).2,
                   state := q.state.set o (some s) }
    else .error .panic

/-- `dequeue` (57-67). `self.state[front]` panics out of range. -/
def dequeue (q : TopOrderQ) : R (Option StateId × TopOrderQ) :=
  if q.isEmpty then .ok (none, q)
  else
    match q.state[q.front]? with
    | none => .error .panic
    | some h =>
      let st := q.state.set q.front none
      match q.back with
      | some b =>
        .ok (h, { q with state := st, front := advance (fun i => (st[i]?.getD none).isSome) (b + 1 - q.front) q.front })
      | none => .ok (h, { q with state := st })

/-- `clear` (77-85). -/
def clear (q : TopOrderQ) : TopOrderQ :=
  match q.back with
  | some b => { q with state := q.state.mapIdx (fun i x => if q.front ≤ i ∧ i ≤ b then none else x), front := 0, back := none }
  | none => { q with front := 0, back := none }

/-- `impl Queue for TopOrderQueue` (39-90). -/
def ops : QueueOps TopOrderQ where
  head q := match q.state[q.front]? with
    | none => .error .panic
    | some h => .ok h
  enqueue := enqueue
  dequeue := dequeue
  update q _ := .ok q
  isEmpty q := .ok q.isEmpty
  clear q := .ok q.clear

end TopOrderQ

/-! ## `SccQueue` (scc_queue.rs) -/

/-- Lines 5-11. `back` is an `i32` starting at -1. -/
structure SccQ (Q : Type u) where
  front : Nat
  back : Int
  queues : List Q
  sccs : List Nat

namespace SccQ
variable {Q : Type u}

/-- `SccQueue::new` (16-23). -/
def new (queues : List Q) (sccs : List Nat) : SccQ Q := ⟨0, -1, queues, sccs⟩

/-- `update_front` (25-29), `n = back + 1 - front`: the first queue from `front` on that is not empty. -/
def updateFront (o : QueueOps Q) (queues : List Q) : Nat → Nat → R Nat
  | 0, i => .ok i
  | n + 1, i =>
    match queues[i]? with
    | none => .error .panic
    | some q =>
      match o.isEmpty q with
      | .error e => .error e
      | .ok true => updateFront o queues n (i + 1)
      | .ok false => .ok i

/-- `is_empty` (70-76). -/
def isEmpty (o : QueueOps Q) (q : SccQ Q) : R Bool :=
  if (q.front : Int) < q.back then .ok false
  else if q.back < q.front then .ok true
  else
    match q.queues[q.front]? with
    | none => .error .panic
    | some x => o.isEmpty x

/-- `enqueue` (38-49). -/
def enqueue (o : QueueOps Q) (q : SccQ Q) (s : StateId) : R (SccQ Q) :=
  match q.sccs[s]? with
  | none => .error .panic
  | some c =>
    let fb : Nat × Int :=
      if q.back < q.front then (c, c)
      else if q.back < c then (q.front, c)
      else if c < q.front then (c, q.back)
      else (q.front, q.back)
    match q.queues[c]? with
    | none => .error .panic
    | some x =>
      match o.enqueue x s with
      | .error e => .error e
      | .ok x => .ok { q with front := fb.1, back := fb.2, queues := q.queues.set c x }

/-- `dequeue` (51-58). -/
def dequeue (o : QueueOps Q) (q : SccQ Q) : R (Option StateId × SccQ Q) :=
  match q.isEmpty o with
  | .error e => .error e
  | .ok true => .ok (none, q)
  | .ok false =>
    match updateFront o q.queues (q.back + 1 - q.front).toNat q.front with
    | .error e => .error e
    | .ok front =>
      match q.queues[front]? with
      | none => .error .panic
      | some x =>
        match o.dequeue x with
        | .error e => .error e
        | .ok (s, x) => .ok (s, { q with front := front, queues := q.queues.set front x })

/-- `head` (33-36); `update_front` changes only the cursor. -/
def head (o : QueueOps Q) (q : SccQ Q) : R (Option StateId) :=
  match updateFront o q.queues (q.back + 1 - q.front).toNat q.front with
  | .error e => .error e
  | .ok front =>
    match q.queues[front]? with
    | none => .error .panic
    | some x => o.head x

/-- `update` (60-62). -/
def update (o : QueueOps Q) (q : SccQ Q) (s : StateId) : R (SccQ Q) :=
  match q.sccs[s]? with
  | none => .error .panic
  | some c =>
    match q.queues[c]? with
    | none => .error .panic
    | some x =>
      match o.update x s with
      | .error e => .error e
      | .ok x => .ok { q with queues := q.queues.set c x }

/-- The loop of `clear` (79-82): `n` queues from `i` on. -/
def clearFrom (o : QueueOps Q) : Nat → Nat → List Q → R (List Q)
  | 0, _, l => .ok l
  | n + 1, i, l =>
    match l[i]? with
    | none => .error .panic
    | some x =>
      match o.clear x with
      | .error e => .error e
      | .ok x => clearFrom o n (i + 1) (l.set i x)

/-- `clear` (78-85). -/
def clear (o : QueueOps Q) (q : SccQ Q) : R (SccQ Q) :=
  match clearFrom o (q.back + 1 - q.front).toNat q.front q.queues with
  | .error e => .error e
  | .ok l => .ok { q with queues := l, front := 0, back := -1 }

/-- `impl Queue for SccQueue` (32-90). -/
def ops (o : QueueOps Q) : QueueOps (SccQ Q) where
  head := head o
  enqueue := enqueue o
  dequeue := dequeue o
  update := update o
  isEmpty := isEmpty o
  clear := clear o

end SccQ

/-! ## `AutoQueue` (auto_queue.rs) -/

/-- The queues that `AutoQueue::new` gives to the components when it has no distances (80-91). -/
inductive InnerQ where
  | trivial (q : Option StateId)
  | fifo (q : List StateId)

/-- Keep the constructor of `dyn Queue`. -/
def mapR {α : Type u} {β : Type v} (f : α → β) : R α → R β
  | .error e => .error e
  | .ok a => .ok (f a)

namespace InnerQ

/-- `Box<dyn Queue>` of the two kinds. -/
def ops : QueueOps InnerQ where
  head
    | trivial q => trivialOps.head q
    | fifo q => fifoOps.head q
  enqueue
    | trivial q, s => mapR trivial (trivialOps.enqueue q s)
    | fifo q, s => mapR fifo (fifoOps.enqueue q s)
  dequeue
    | trivial q => mapR (fun p => (p.1, trivial p.2)) (trivialOps.dequeue q)
    | fifo q => mapR (fun p => (p.1, fifo p.2)) (fifoOps.dequeue q)
  update
    | trivial q, s => mapR trivial (trivialOps.update q s)
    | fifo q, s => mapR fifo (fifoOps.update q s)
  isEmpty
    | trivial q => trivialOps.isEmpty q
    | fifo q => fifoOps.isEmpty q
  clear
    | trivial q => mapR trivial (trivialOps.clear q)
    | fifo q => mapR fifo (fifoOps.clear q)

end InnerQ

/-- The queue in an `AutoQueue` (18-20). -/
inductive AutoQ where
  | stateOrder (q : StateOrderQ)
  | topOrder (q : TopOrderQ)
  | lifo (q : List StateId)
  | scc (q : SccQ InnerQ)

namespace AutoQ

/-- `impl Queue for AutoQueue` (160-188). -/
def ops : QueueOps AutoQ where
  head
    | stateOrder q => StateOrderQ.ops.head q
    | topOrder q => TopOrderQ.ops.head q
    | lifo q => lifoOps.head q
    | scc q => (SccQ.ops InnerQ.ops).head q
  enqueue
    | stateOrder q, s => mapR stateOrder (StateOrderQ.ops.enqueue q s)
    | topOrder q, s => mapR topOrder (TopOrderQ.ops.enqueue q s)
    | lifo q, s => mapR lifo (lifoOps.enqueue q s)
    | scc q, s => mapR scc ((SccQ.ops InnerQ.ops).enqueue q s)
  dequeue
    | stateOrder q => mapR (fun p => (p.1, stateOrder p.2)) (StateOrderQ.ops.dequeue q)
    | topOrder q => mapR (fun p => (p.1, topOrder p.2)) (TopOrderQ.ops.dequeue q)
    | lifo q => mapR (fun p => (p.1, lifo p.2)) (lifoOps.dequeue q)
    | scc q => mapR (fun p => (p.1, scc p.2)) ((SccQ.ops InnerQ.ops).dequeue q)
  update
    | stateOrder q, s => mapR stateOrder (StateOrderQ.ops.update q s)
    | topOrder q, s => mapR topOrder (TopOrderQ.ops.update q s)
    | lifo q, s => mapR lifo (lifoOps.update q s)
    | scc q, s => mapR scc ((SccQ.ops InnerQ.ops).update q s)
  isEmpty
    | stateOrder q => StateOrderQ.ops.isEmpty q
    | topOrder q => TopOrderQ.ops.isEmpty q
    | lifo q => lifoOps.isEmpty q
    | scc q => (SccQ.ops InnerQ.ops).isEmpty q
  clear
    | stateOrder q => mapR stateOrder (StateOrderQ.ops.clear q)
    | topOrder q => mapR topOrder (TopOrderQ.ops.clear q)
    | lifo q => mapR lifo (lifoOps.clear q)
    | scc q => mapR scc ((SccQ.ops InnerQ.ops).clear q)

variable {W : Type u} [Zero W] [One W] [DecidableEq W]

/-- Component `c` gets a FIFO queue when a kept transition stays in it (121-144; `compare` is `None`). -/
def innerFor (f : Fst W) (keep : Tr W → Bool) (scc : Nat → Int) (c : Nat) : InnerQ :=
  if (List.range f.numStates).any fun s => (f.trsOf s).any fun t => keep t && scc s == scc t.nextstate && scc s == (c : Int)
  then .fifo [] else .trivial none

/-- `all_trivial` (110, 142-144). -/
def allTrivial (f : Fst W) (keep : Tr W → Bool) (scc : Nat → Int) : Bool :=
  (List.range f.numStates).all fun s => (f.trsOf s).all fun t => !(keep t && scc s == scc t.nextstate)

/-- `unweighted` (111, 147-152). -/
def allUnweighted (sf : SemiringFlags) (f : Fst W) (keep : Tr W → Bool) : Bool :=
  (List.range f.numStates).all fun s => (f.trsOf s).all fun t =>
    !keep t || (sf.idempotent && (t.weight == 0 || t.weight == 1))

/-- `AutoQueue::new` (22-96) with `distance = None`. `sf` are the properties of the semiring. The visits panic on a missing
target, and `TopOrderQueue::new` (20-26 there) panics when the kept transitions have a cycle. The component numbers are not negative
after a complete visit. -/
def new (sf : SemiringFlags) (f : Fst W) (keep : Tr W → Bool) : R AutoQ :=
  if f.props .topSorted = true ∨ f.start = none then .ok (.stateOrder StateOrderQ.new)
  else if f.props .acyclic then
    if f.targetsOk = false then .error .panic
    else if (f.topVisit keep).acyclic then .ok (.topOrder (TopOrderQ.ofOrder (f.topVisit keep).order)) else .error .panic
  else if f.props .unweighted && sf.idempotent then .ok (.lifo [])
  else if f.targetsOk = false then .error .panic
  else
    let v := f.sccVisit keep
    let sccs := (List.range f.numStates).map fun s => (v.scc s).toNat
    if allUnweighted sf f keep then .ok (.lifo [])
    else if allTrivial f keep v.scc then .ok (.topOrder (TopOrderQ.ofOrder sccs))
    else .ok (.scc (SccQ.new ((List.range v.nscc.toNat).map (innerFor f keep v.scc)) sccs))

end AutoQ
end Verif
