import Verif.Model.Queues
import Verif.Model.Rational

/-!
# Shortest distance (`algorithms/shortest_distance.rs`)

The vectors `distance`, `adder`, `radder`, `enqueued` have the same length `len`; they are modelled as functions whose values from
`len` on are never read before `ensure_distance_index_is_valid` makes them valid, and there they are zero. `first_path` is left out: every
caller passes `false` (43, and rm_epsilon_state.rs / rm_epsilon_static.rs). `eqv` is `approx_equal(_, delta)`.
-/

namespace Verif
universe u v

/-- `ShortestDistanceState` (48-60). -/
structure SdState (W : Type u) (Q : Type v) where
  queue : Q
  len : Nat
  dist : Nat → W
  adder : Nat → W
  radder : Nat → W
  enq : Nat → Bool
  sources : Nat → Option Nat
  sourceId : Nat

/-- What does not change while the algorithm runs. -/
structure SdEnv (W : Type u) (Q : Type v) where
  ops : QueueOps Q
  eqv : W → W → Bool
  keep : Tr W → Bool
  retain : Bool

namespace SdState
variable {W : Type u} {Q : Type v} [Zero W] [One W] [Add W] [Mul W]

/-- `new` (101-123). -/
def new (q : Q) : SdState W Q := ⟨q, 0, fun _ => 0, fun _ => 0, fun _ => 0, fun _ => false, fun _ => none, 0⟩

/-- `ensure_distance_index_is_valid` (138-145). -/
def ensure (st : SdState W Q) (i : Nat) : SdState W Q := { st with len := max st.len (i + 1) }

/-- Lines 203-211: forget what an earlier source left at `n`. -/
def refresh (e : SdEnv W Q) (st : SdState W Q) (n : Nat) : SdState W Q :=
  if e.retain = true ∧ st.sources n ≠ some st.sourceId then
    { st with dist := upd st.dist n 0, adder := upd st.adder n 0, radder := upd st.radder n 0, enq := upd st.enq n false,
              sources := upd st.sources n (some st.sourceId) }
  else st

/-- Lines 216-226: the distance of `n` changes by `w`. The test `self.enqueued[state]` (221) is on the state being expanded, `s`. -/
def improve (e : SdEnv W Q) (st : SdState W Q) (s n : Nat) (w : W) : R (SdState W Q) :=
  if !st.enq s then
    match e.ops.enqueue st.queue n with
    | .error x => .error x
    | .ok q => .ok { st with adder := upd st.adder n (st.adder n + w), dist := upd st.dist n (st.adder n + w),
                             radder := upd st.radder n (st.radder n + w), queue := q, enq := upd st.enq n true }
  else
    match e.ops.update st.queue n with
    | .error x => .error x
    | .ok q => .ok { st with adder := upd st.adder n (st.adder n + w), dist := upd st.dist n (st.adder n + w),
                             radder := upd st.radder n (st.radder n + w), queue := q }

/-- The body of the loop over the transitions of `s` (194-228). -/
def relax (e : SdEnv W Q) (s : Nat) (r : W) (st : SdState W Q) (t : Tr W) : R (SdState W Q) :=
  if e.keep t then
    let st1 := (st.ensure t.nextstate).refresh e t.nextstate
    if e.eqv (st1.dist t.nextstate) (st1.dist t.nextstate + r * t.weight) then .ok st1
    else st1.improve e s t.nextstate (r * t.weight)
  else .ok st

/-- The loop over the transitions (194). -/
def relaxAll (e : SdEnv W Q) (s : Nat) (r : W) : SdState W Q → List (Tr W) → R (SdState W Q)
  | st, [] => .ok st
  | st, t :: l =>
    match st.relax e s r t with
    | .error x => .error x
    | .ok st => relaxAll e s r st l

/-- One turn of the loop (188-229), or the end of it (`none`). -/
def turn (e : SdEnv W Q) (f : Fst W) (st : SdState W Q) : R (Bool × SdState W Q) :=
  match e.ops.dequeue st.queue with
  | .error x => .error x
  | .ok (none, q) => .ok (false, { st with queue := q })
  | .ok (some s, q) =>
    if s < st.len then
      match f.getTrsR s with
      | .error x => .error x
      | .ok trs =>
        match relaxAll e s (st.radder s) { st with queue := q, enq := upd st.enq s false, radder := upd st.radder s 0 } trs with
        | .error x => .error x
        | .ok st => .ok (true, st)
    else .error .panic

/-- The loop (188-229). It need not end: `none` says that `fuel` turns were not enough. -/
def loop (e : SdEnv W Q) (f : Fst W) : Nat → SdState W Q → Option (R (SdState W Q))
  | 0, _ => none
  | fuel + 1, st =>
    match st.turn e f with
    | .error x => some (.error x)
    | .ok (false, st) => some (.ok st)
    | .ok (true, st) => loop e f fuel st

/-- Lines 170-187: the state before the loop. -/
def prepare (e : SdEnv W Q) (st : SdState W Q) (source : Nat) : R (SdState W Q) :=
  match e.ops.clear st.queue with
  | .error x => .error x
  | .ok q =>
    let st1 : SdState W Q :=
      if e.retain then { st with queue := q }
      else { st with queue := q, len := 0, dist := fun _ => 0, adder := fun _ => 0, radder := fun _ => 0, enq := fun _ => false }
    let st2 := st1.ensure source
    let st3 : SdState W Q := if e.retain then { st2 with sources := upd st2.sources source (some st2.sourceId) } else st2
    match e.ops.enqueue st3.queue source with
    | .error x => .error x
    | .ok q => .ok { st3 with queue := q, dist := upd st3.dist source 1, adder := upd st3.adder source 1,
                              radder := upd st3.radder source 1, enq := upd st3.enq source true }

/-- The vector that is returned (232). -/
def distances (st : SdState W Q) : List W := (List.range st.len).map st.dist

/-- `ShortestDistanceState::shortest_distance` (153-233). -/
def shortestDistance (e : SdEnv W Q) (sf : SemiringFlags) (f : Fst W) (source : Option StateId) (fuel : Nat) (st : SdState W Q) :
    Option (R (List W × SdState W Q)) :=
  match f.start with
  | none => some (.ok ([], st))
  | some start =>
    if sf.right = false then some (.error .err)
    else
      match st.prepare e (source.getD start) with
      | .error x => some (.error x)
      | .ok st =>
        match st.loop e f fuel with
        | none => none
        | some (.error x) => some (.error x)
        | some (.ok st) => some (.ok (st.distances, { st with sourceId := st.sourceId + 1 }))

end SdState

namespace Fst
variable {W : Type u} [Zero W] [One W] [Add W] [Mul W] [DecidableEq W]

/-- `shortest_distance_with_config(fst, false, …)` (313-322) with the automatic queue and `AnyTrFilter`. -/
def shortestDistance (sf : SemiringFlags) (eqv : W → W → Bool) (f : Fst W) (fuel : Nat) : Option (R (List W)) :=
  match AutoQ.new sf f (fun _ => true) with
  | .error x => some (.error x)
  | .ok q =>
    match (SdState.new q).shortestDistance ⟨AutoQ.ops, eqv, fun _ => true, false⟩ sf f none fuel with
    | none => none
    | some (.error x) => some (.error x)
    | some (.ok (d, _)) => some (.ok d)

end Fst

/-- `shortest_distance_with_config(fst, true, …)` (323-334): the distances to the final states. `rev` and `back` are `reverse` and
`reverse_back`; `sf` are the properties of the reversed semiring. The reversed FST always has a start state, so `rdistance` is not
empty (328: `rdistance.len() - 1`). -/
def Fst.shortestDistanceRev {W : Type u} {V : Type v} [Zero W] [One W] [DecidableEq W] [Zero V] [One V] [Add V] [Mul V] [DecidableEq V]
    (rev : W → V) (back : V → W) (sf : SemiringFlags) (eqv : V → V → Bool) (f : Fst W) (fuel : Nat) : Option (R (List W)) :=
  match f.reverse rev with
  | .error x => some (.error x)
  | .ok g =>
    match g.shortestDistance sf eqv fuel with
    | none => none
    | some (.error x) => some (.error x)
    | some (.ok d) => some (.ok (d.tail.map back))

end Verif
