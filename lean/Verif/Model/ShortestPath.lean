import Verif.Model.Queues
import Verif.Model.Rational

/-!
# The single shortest path (`algorithms/shortest_path.rs`)

The vectors `distance`, `enqueued` and `parent` have `num_states` entries; they are modelled as functions, and an index that is too
large is a panic. `==` on weights is exact.
-/

namespace Verif
universe u v

/-- The variables of `single_shortest_path` (180-206). -/
structure SpState (W : Type u) (Q : Type v) where
  queue : Q
  dist : Nat → W
  enq : Nat → Bool
  parent : Nat → Option (Nat × Nat)
  fdist : W
  fparent : Option Nat

namespace SpState
variable {W : Type u} {Q : Type v} [Zero W] [One W] [Add W] [Mul W] [DecidableEq W]

/-- Lines 225-236: one transition, the `pos`-th of `s`. `sd` is the distance of `s`. -/
def relax (o : QueueOps Q) (n : Nat) (s : Nat) (sd : W) (st : SpState W Q) (pos : Nat) (t : Tr W) : R (SpState W Q) :=
  if t.nextstate < n then
    let w := sd * t.weight
    if st.dist t.nextstate = st.dist t.nextstate + w then .ok st
    else
      let st := { st with dist := upd st.dist t.nextstate (st.dist t.nextstate + w), parent := upd st.parent t.nextstate (some (s, pos)) }
      if !st.enq t.nextstate then
        match o.enqueue st.queue t.nextstate with
        | .error x => .error x
        | .ok q => .ok { st with queue := q, enq := upd st.enq t.nextstate true }
      else
        match o.update st.queue t.nextstate with
        | .error x => .error x
        | .ok q => .ok { st with queue := q }
  else .error .panic

/-- The loop over the transitions (224). -/
def relaxAll (o : QueueOps Q) (n : Nat) (s : Nat) (sd : W) : SpState W Q → Nat → List (Tr W) → R (SpState W Q)
  | st, _, [] => .ok st
  | st, pos, t :: l =>
    match st.relax o n s sd pos t with
    | .error x => .error x
    | .ok st => relaxAll o n s sd st (pos + 1) l

/-- Lines 216-222: a path to the final state `s`. -/
def final (f : Fst W) (st : SpState W Q) (s : Nat) : SpState W Q :=
  match f.finOf s with
  | none => st
  | some w =>
    if st.fdist ≠ st.fdist + st.dist s * w then { st with fdist := st.fdist + st.dist s * w, fparent := some s } else st

/-- One turn of the loop (212-238), or the end of it. A state that does not exist would be undefined behaviour in 216 after a panic in
213. -/
def turn (o : QueueOps Q) (f : Fst W) (st : SpState W Q) : R (Bool × SpState W Q) :=
  match o.dequeue st.queue with
  | .error x => .error x
  | .ok (none, q) => .ok (false, { st with queue := q })
  | .ok (some s, q) =>
    if s < f.numStates then
      match relaxAll o f.numStates s (st.dist s) (final f { st with queue := q, enq := upd st.enq s false } s) 0 (f.trsOf s) with
      | .error x => .error x
      | .ok st => .ok (true, st)
    else .error .panic

/-- The loop (212-238). It need not end: `none` says that `fuel` turns were not enough. -/
def loop (o : QueueOps Q) (f : Fst W) : Nat → SpState W Q → Option (R (SpState W Q))
  | 0, _ => none
  | fuel + 1, st =>
    match st.turn o f with
    | .error x => some (.error x)
    | .ok (false, st) => some (.ok st)
    | .ok (true, st) => loop o f fuel st

end SpState

namespace Fst
variable {W : Type u} [Zero W] [One W] [Add W] [Mul W] [DecidableEq W]

/-- `single_shortest_path` (174-240): `f_parent` and `parent`. -/
def singleShortest (sf : SemiringFlags) (f : Fst W) (fuel : Nat) : Option (R (Option Nat × (Nat → Option (Nat × Nat)))) :=
  match f.start with
  | none => some (.ok (none, fun _ => none))
  | some source =>
    match AutoQ.new sf f (fun _ => true) with
    | .error x => some (.error x)
    | .ok q =>
      match AutoQ.ops.clear q with
      | .error x => some (.error x)
      | .ok q =>
        if sf.path = false ∨ sf.right = false then some (.error .err)
        else if source < f.numStates then
          match AutoQ.ops.enqueue q source with
          | .error x => some (.error x)
          | .ok q =>
            match SpState.loop AutoQ.ops f fuel ⟨q, upd (fun _ => 0) source 1, upd (fun _ => false) source true, fun _ => none, 0, none⟩ with
            | none => none
            | some (.error x) => some (.error x)
            | some (.ok st) => some (.ok (st.fparent, st.parent))
        else some (.error .panic)

/-- One turn of the loop of `single_shortest_path_backtrace` (257-275) at `state`: `sp` is the state added last, `d` the state of `f` it
stands for. `add_tr`, `set_final` and `set_start` are applied to states just added, so they succeed. -/
def backStep (f : Fst W) (fparent : Nat) (parent : Nat → Option (Nat × Nat)) (o : Fst W) (sp d : Option Nat) (state : Nat) : R (Fst W) :=
  let o' := o.addState
  match d with
  | some din =>
    match parent din, f.getTrsR state with
    | _, .error x => .error x
    | none, _ => .error .panic
    | some (_, pos), .ok trs =>
      match trs[pos]?, sp with
      | some t, some dp => .ok (o'.addTr o.numStates { t with nextstate := dp })
      | _, _ => .error .panic
  | none =>
    match f.finalWeightR fparent with
    | .error x => .error x
    | .ok none => .ok o'
    | .ok (some w) => .ok (o'.setFinal o.numStates w)

/-- The loop (257-275); the result is the FST and the state added last. -/
def backLoop (f : Fst W) (fparent : Nat) (parent : Nat → Option (Nat × Nat)) : Nat → Fst W → Option Nat → Option Nat → Option Nat →
    Option (R (Fst W × Option Nat))
  | 0, _, _, _, _ => none
  | _ + 1, o, sp, _, none => some (.ok (o, sp))
  | fuel + 1, o, sp, d, some state =>
    match f.backStep fparent parent o sp d state with
    | .error x => some (.error x)
    | .ok o' => backLoop f fparent parent fuel o' (some o.numStates) (some state) ((parent state).map (·.1))

/-- `shortest_path_properties(_, true)` (mutate_properties.rs 662-672). -/
def spProps (p : Props) : Props := p.or (Props.of [.acyclic, .initialAcyclic, .accessible, .unweightedCycles])

/-- `single_shortest_path_backtrace` (242-283). -/
def backtrace (f : Fst W) (fparent : Option Nat) (parent : Nat → Option (Nat × Nat)) (fuel : Nat) : Option (R (Fst W)) :=
  match f.backLoop (fparent.getD 0) parent fuel Fst.new none none fparent with
  | none => none
  | some (.error x) => some (.error x)
  | some (.ok (o, none)) => some (.ok (o.setPropsMask (spProps o.props) Props.allMask))
  | some (.ok (o, some s)) =>
    some (.ok ((o.setStart s).setPropsMask (spProps (o.setStart s).props) Props.allMask))

/-- `shortest_path` with `nshortest = 1` (127-136), without the symbol tables. -/
def shortestPath (sf : SemiringFlags) (f : Fst W) (fuel : Nat) : Option (R (Fst W)) :=
  match f.singleShortest sf fuel with
  | none => none
  | some (.error x) => some (.error x)
  | some (.ok (fp, parent)) => f.backtrace fp parent fuel

end Fst
end Verif
