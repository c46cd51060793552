import Verif.Model.ComputeProps

/-!
# `condense`, `add_super_final_state`, `rm_final_epsilon`
(`algorithms/{condense,add_super_final_state,rm_final_epsilon}.rs`)
-/

namespace Verif
universe u
variable {W : Type u} [Zero W] [One W] [DecidableEq W]

/-- `match old { Some(w) => w.plus(new), None => new }` (condense.rs 36-39). -/
def plusFin [Add W] (old : Option W) (new : W) : W :=
  match old with
  | some w => w + new
  | none => new

namespace Fst

/-- Lines 42-49 of `condense`: one transition of a state of component `c`. -/
def condenseTr (scc : Nat → Int) (c : StateId) (o : Fst W) (t : Tr W) : Fst W :=
  if (scc t.nextstate).toNat ≠ c then o.addTr c { t with nextstate := (scc t.nextstate).toNat } else o

/-- Lines 32-41 of `condense`: start and final weight. -/
def condenseSt [Add W] (f : Fst W) (scc : Nat → Int) (o : Fst W) (s : StateId) : Fst W :=
  let o := if f.start = some s then o.setStart (scc s).toNat else o
  match f.finOf s with
  | some w => o.setFinal (scc s).toNat (plusFin (o.finOf (scc s).toNat) w)
  | none => o

/-- Body of the loop 28-50 of `condense`. -/
def condenseStep [Add W] (f : Fst W) (scc : Nat → Int) (o : Fst W) (s : StateId) : Fst W :=
  (f.trsOf s).foldl (condenseTr scc (scc s).toNat) (f.condenseSt scc o s)

/-- `condense` (condense.rs 15-53). Without a start state `ifst.start().unwrap()` (32) panics at the first state (the visit has
visited nothing then, line 42 is not reached). A missing transition target makes the visit panic. The component numbers are a
function; the code returns its values on `0..num_states`. -/
def condense [Add W] (f : Fst W) : R ((Nat → Int) × Fst W) :=
  if f.numStates = 0 then .ok (fun _ => -1, new)
  else if f.start = none then .error .panic
  else if f.targetsOk = false then .error .panic
  else
    let scc := (f.sccVisit fun _ => true).scc
    let top := ((List.range f.numStates).map fun s => (scc s).toNat).foldl max 0
    .ok (scc, (List.range f.numStates).foldl (f.condenseStep scc) (new.addStates (top + 1)))

/-- Lines 33-54 of `add_super_final_state`: redirect one final state. -/
def redirectFinal (sf : StateId) (f : Fst W) (p : StateId × W) : Fst W := (f.delFinal p.1).addTr p.1 (epsTr p.2 sf)

/-- `add_super_final_state` (add_super_final_state.rs 25-57): new FST and the state returned. -/
def addSuperFinal (f : Fst W) : Fst W × StateId :=
  match f.finals with
  | [(s, w)] =>
    if w = 1 then (f, s)
    else ([(s, w)].foldl (redirectFinal f.numStates) (f.addState.setFinal f.numStates 1), f.numStates)
  | fs => (fs.foldl (redirectFinal f.numStates) (f.addState.setFinal f.numStates 1), f.numStates)

/-- `finals` of `rm_final_epsilon` (23-42): final states none of whose successors reaches a final state. -/
def deadEnds (f : Fst W) (co : StateId → Bool) (s : StateId) : Bool :=
  (f.finOf s).isSome && !(f.trsOf s).any fun t => co t.nextstate

/-- The test of line 50. -/
def toDeadEnd (dead : StateId → Bool) (t : Tr W) : Bool :=
  dead t.nextstate && decide (t.ilabel = EPS) && decide (t.olabel = EPS)

/-- Lines 49-64: the new final weight of `state`. -/
def rmFinalWeight [Add W] [Mul W] (f : Fst W) (dead : StateId → Bool) (s : StateId) : W :=
  ((f.trsOf s).filter (toDeadEnd dead)).foldl (fun w t => w + (f.finOf t.nextstate).getD 0 * t.weight) ((f.finOf s).getD 0)

/-- Lines 49-65: the indices to delete. -/
def rmFinalIdx (f : Fst W) (dead : StateId → Bool) (s : StateId) : List Nat :=
  ((f.trsOf s).zipIdx.filter fun p => toDeadEnd dead p.1).map (·.2)

/-- Body of the loop 45-73 of `rm_final_epsilon`. -/
def rmFinalStep [Add W] [Mul W] (dead : StateId → Bool) (f : R (Fst W)) (s : StateId) : R (Fst W) :=
  match f with
  | .error e => .error e
  | .ok f =>
    if f.rmFinalIdx dead s = [] then .ok f
    else
      let w := f.rmFinalWeight dead s
      let g := if w = 0 then f else f.setFinal s w
      g.delTrsIdSorted s (f.rmFinalIdx dead s)

/-- `rm_final_epsilon` (rm_final_epsilon.rs 15-78). The visit and line 28 panic on a missing transition target; simplification:
without a start state only line 28 can panic, here any missing target does. -/
def rmFinalEpsilon [Add W] [Mul W] (f : Fst W) : R (Fst W) :=
  if f.targetsOk = false then .error .panic
  else
    let v := f.sccVisit fun _ => true
    match (List.range f.numStates).foldl (rmFinalStep (f.deadEnds v.coaccess)) (.ok f) with
    | .error e => .error e
    | .ok g => g.connect

end Fst
end Verif
