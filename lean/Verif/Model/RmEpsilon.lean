import Verif.Model.ShortestDistance
import Verif.Model.Dfs

/-!
# Removal of epsilon transitions (`algorithms/rm_epsilon/`)

Only the default configuration is modelled, the only one that is used: `connect`, no weight threshold and no state threshold
(config.rs 36-38).
-/

namespace Verif
universe u v
variable {W : Type u}

/-- `EpsilonTrFilter::keep` (tr_filters.rs 29-33). -/
def isEps (t : Tr W) : Bool := t.ilabel == EPS && t.olabel == EPS

/-- `Element` (rm_epsilon/element.rs 4-8). -/
def Tr.elem (t : Tr W) : Label × Label × StateId := (t.ilabel, t.olabel, t.nextstate)

/-- `RmEpsilonState` (rm_epsilon_state.rs 16-22). `visited` is a vector that is extended by `false` (57-59, 70-72); `visitedStates` is
a stack, its top first. -/
structure RmEps (W : Type u) (Q : Type v) where
  visited : Nat → Bool
  visitedStates : List StateId
  elements : Label × Label × StateId → Option (Nat × Nat)
  expandId : Nat
  sd : SdState W Q

/-- The local variables of `expand` (53-56): `eps_queue` (a stack, its top first), `trs`, `final_weight`. -/
structure EpsRun (W : Type u) where
  stack : List StateId
  trs : List (Tr W)
  fin : W

namespace RmEps
variable {Q : Type v} [Zero W] [One W] [Add W] [Mul W]

/-- `RmEpsilonState::new` (32-40). -/
def new (q : Q) : RmEps W Q := ⟨fun _ => false, [], fun _ => none, 0, SdState.new q⟩

/-- Lines 78-102: the transition is new, or its weight is added to the transition of this call with the same labels and target. -/
def addElem (r : RmEps W Q) (e : EpsRun W) (t : Tr W) : RmEps W Q × EpsRun W :=
  match r.elements t.elem with
  | none => ({ r with elements := fun x => if x = t.elem then some (r.expandId, e.trs.length) else r.elements x }, { e with trs := e.trs ++ [t] })
  | some (id, i) =>
    if id = r.expandId then (r, { e with trs := e.trs.modify i fun u => { u with weight := u.weight + t.weight } })
    else ({ r with elements := fun x => if x = t.elem then some (r.expandId, e.trs.length) else r.elements x }, { e with trs := e.trs ++ [t] })

/-- The body of the loop over the transitions (65-103); `d` is the distance of the state. -/
def stepTr (d : W) (x : RmEps W Q × EpsRun W) (t : Tr W) : RmEps W Q × EpsRun W :=
  if isEps t then
    if x.1.visited t.nextstate then x else (x.1, { x.2 with stack := t.nextstate :: x.2.stack })
  else x.1.addElem x.2 { t with weight := d * t.weight }

/-- Lines 63-108 for a state that is visited the first time. -/
def visit (f : Fst W) (dist : List W) (r : RmEps W Q) (e : EpsRun W) (s : StateId) : R (RmEps W Q × EpsRun W) :=
  match f.getTrsR s with
  | .error x => .error x
  | .ok trs =>
    match dist[s]? with
    | none => .error .panic
    | some d =>
      let x := trs.foldl (stepTr d) ({ r with visited := upd r.visited s true, visitedStates := s :: r.visitedStates }, e)
      .ok (x.1, { x.2 with fin := x.2.fin + d * (f.finOf s).getD 0 })

/-- The loop over the stack (56-109); `none`: `fuel` turns were not enough. -/
def loop (f : Fst W) (dist : List W) : Nat → RmEps W Q → EpsRun W → Option (R (RmEps W Q × EpsRun W))
  | 0, _, _ => none
  | fuel + 1, r, e =>
    match e.stack with
    | [] => some (.ok (r, e))
    | s :: rest =>
      if r.visited s then loop f dist fuel r { e with stack := rest }
      else
        match visit f dist r { e with stack := rest } s with
        | .error x => some (.error x)
        | .ok (r, e) => loop f dist fuel r e

/-- Lines 111-115. -/
def close (r : RmEps W Q) : RmEps W Q :=
  { r with visited := fun s => if s ∈ r.visitedStates then false else r.visited s, visitedStates := [], expandId := r.expandId + 1 }

/-- `expand` (42-118): the transitions, the final weight, and the state that is kept. -/
def expand (env : SdEnv W Q) (sf : SemiringFlags) (f : Fst W) (source : StateId) (fuel : Nat) (r : RmEps W Q) :
    Option (R (List (Tr W) × W × RmEps W Q)) :=
  match r.sd.shortestDistance env sf f (some source) fuel with
  | none => none
  | some (.error x) => some (.error x)
  | some (.ok (dist, sd)) =>
    match loop f dist fuel { r with sd := sd } ⟨[source], [], 0⟩ with
    | none => none
    | some (.error x) => some (.error x)
    | some (.ok (r, e)) => some (.ok (e.trs, e.fin, r.close))

end RmEps

namespace Fst
variable [Zero W] [One W] [Add W] [Mul W] [DecidableEq W]

/-- `noneps_in` (rm_epsilon_static.rs 84-95). -/
def nonepsIn (f : Fst W) (start s : StateId) : Bool :=
  s == start || (List.range f.numStates).any fun q => (f.trsOf q).any fun t => !isEps t && t.nextstate == s

/-- Lines 110-113: the inverse of the order. -/
def inverseOrder (order : List Nat) : List StateId :=
  order.zipIdx.foldl (fun l p => l.set p.1 p.2) (List.replicate order.length 0)

/-- Lines 120-134: the states by their component. In the code the states of a component are chained up by `first` and `next`, the last one
first. -/
def byComponent (n : Nat) (scc : StateId → Int) : List StateId :=
  (List.range n).flatMap fun c : Nat => ((List.range n).filter fun s => scc s == (c : Int)).reverse

/-- The order in which the states are treated (97-135), before it is reversed. -/
def epsOrder (f : Fst W) : R (List StateId) :=
  if f.props .topSorted then .ok (List.range f.numStates)
  else if f.targetsOk = false then .error .panic
  else if f.props .acyclic then .ok (inverseOrder (f.topVisit isEps).order)
  else .ok (byComponent f.numStates (f.sccVisit isEps).scc)

/-- Lines 146-157: what `expand` returned replaces the transitions and the final weight. -/
def putBack (f : Fst W) (s : StateId) (trs : List (Tr W)) (w : W) : Fst W :=
  let g := (f.delTrs s).setTrs s trs.reverse
  if w ≠ 0 then g.setFinal s w else g.delFinal s

/-- The loop over the states (140-158). -/
def rmEpsLoop {Q : Type v} (env : SdEnv W Q) (sf : SemiringFlags) (keepState : StateId → Bool) (fuel : Nat) :
    List StateId → Fst W → RmEps W Q → Option (R (Fst W))
  | [], f, _ => some (.ok f)
  | s :: l, f, r =>
    if keepState s = false then rmEpsLoop env sf keepState fuel l f r
    else
      match r.expand env sf f s fuel with
      | none => none
      | some (.error x) => some (.error x)
      | some (.ok (trs, w, r)) => rmEpsLoop env sf keepState fuel l (f.putBack s trs w) r

/-- Lines 160-166. -/
def dropTrs (keepState : StateId → Bool) (f : Fst W) : Fst W :=
  (List.range f.numStates).foldl (fun g s => if keepState s then g else g.delTrs s) f

/-- `rm_epsilon_with_internal_config` (71-177) with the default configuration. A transition without a target panics (93, or in a visit;
whether it does for an epsilon transition of an FST flagged top-sorted depends on the queue, here it does). -/
def rmEpsilonWith {Q : Type v} (env : SdEnv W Q) (sf : SemiringFlags) (q : Q) (f : Fst W) (fuel : Nat) : Option (R (Fst W)) :=
  match f.start with
  | none => some (.ok f)
  | some i =>
    if f.numStates ≤ i ∨ f.targetsOk = false then some (.error .panic)
    else
      match f.epsOrder with
      | .error x => some (.error x)
      | .ok order =>
        match rmEpsLoop env sf (f.nonepsIn i) fuel order.reverse f (RmEps.new q) with
        | none => none
        | some (.error x) => some (.error x)
        | some (.ok g) =>
          let h := dropTrs (f.nonepsIn i) g
          some ((h.setProps (h.props.rmepsilon false)).connect)

/-- `rm_epsilon` (65-70). -/
def rmEpsilon (sf : SemiringFlags) (eqv : W → W → Bool) (f : Fst W) (fuel : Nat) : Option (R (Fst W)) :=
  match AutoQ.new sf f isEps with
  | .error x => some (.error x)
  | .ok q => f.rmEpsilonWith ⟨AutoQ.ops, eqv, isEps, true⟩ sf q fuel

end Fst

/-- `RmEpsilonOp::compute_trs_and_final_weight` (rm_epsilon_op.rs 62-79): the lazy version, on the FST itself and with a queue first in,
first out; the `RefCell` is the state that is handed over. -/
def RmEps.computeTrs [Zero W] [One W] [Add W] [Mul W] [DecidableEq W] (eqv : W → W → Bool) (sf : SemiringFlags) (f : Fst W) (s : StateId) (fuel : Nat)
    (r : RmEps W (List StateId)) : Option (R ((List (Tr W) × Option W) × RmEps W (List StateId))) :=
  match r.expand ⟨fifoOps, eqv, isEps, true⟩ sf f s fuel with
  | none => none
  | some (.error x) => some (.error x)
  | some (.ok (trs, w, r)) => some (.ok ((trs.reverse, if w ≠ 0 then some w else none), r))

end Verif
