import Verif.Model.ShortestDistance
import Verif.Model.ComputeProps

/-!
# `reweight` and weight pushing (`algorithms/reweight.rs`, `algorithms/push.rs` 74-176)

`divL` and `divR` are `divide(_, DivideLeft)` and `divide(_, DivideRight)`. When a division fails the error is returned; the half
changed FST the caller is left with is not modelled. `times` never fails (as for every weight type whose product is defined).
`set_weight_unchecked` (trs_iter_mut.rs 174-182) has the effect of the checked setter on an existing transition, and
`set_final_unchecked` that of `set_final` on an existing state. Label pushing is in Model/PushLabels.
-/

namespace Verif
universe u v
variable {W : Type u}

/-- `ReweightType` (reweight.rs 11-16). -/
inductive ReweightType where
  | toInitial
  | toFinal
deriving DecidableEq, Repr

namespace Fst
variable [Zero W] [One W] [DecidableEq W]

/-- One turn of the loops over transitions (reweight.rs 60-78, 112-121, push.rs 162-166): `h` computes the new weight, `none` is
`continue`. -/
def weighTr (h : Tr W → R (Option W)) (s : StateId) (f : Fst W) (i : Nat) : R (Fst W) :=
  match (f.trsOf s)[i]? with
  | none => .error .panic
  | some t =>
    match h t with
    | .error e => .error e
    | .ok none => .ok f
    | .ok (some w) => .ok (f.setWeightR s i w).1

/-- Those loops. -/
def weighTrs (h : Tr W → R (Option W)) (f : Fst W) (s : StateId) : R (Fst W) :=
  (List.range (f.trsOf s).length).foldlM (weighTr h s) f

/-- Replacing the final weight of a final state (reweight.rs 45-48, 83-100, 123-132, push.rs 154-157, 167-170). -/
def weighFin (h : W → R (Option W)) (f : Fst W) (s : StateId) : R (Fst W) :=
  match f.finOf s with
  | none => .ok f
  | some w =>
    match h w with
    | .error e => .error e
    | .ok none => .ok f
    | .ok (some w') => .ok (f.setFinal s w')

variable [Add W] [Mul W]

/-- `potentials.get(state).unwrap_or(&zero)` (54, 63, 84, 107). -/
def pot (d : List W) (s : StateId) : W := d[s]?.getD 0

/-- The new weight of a transition (63-76). -/
def reweightTr (divL divR : W → W → R W) (ty : ReweightType) (d : List W) (s : StateId) (t : Tr W) : R (Option W) :=
  if pot d t.nextstate = 0 then .ok none
  else
    match ty with
    | .toInitial => (divL (t.weight * pot d t.nextstate) (pot d s)).map some
    | .toFinal => (divR (pot d s * t.weight) (pot d t.nextstate)).map some

/-- Body of the first loop (38-80). -/
def reweightState (divL divR : W → W → R W) (ty : ReweightType) (d : List W) (f : Fst W) (s : StateId) : R (Fst W) :=
  if d.length ≤ s then
    match ty with
    | .toInitial => .ok f
    | .toFinal => f.weighFin (fun w => .ok (some (0 * w))) s
  else if pot d s = 0 then .ok f
  else f.weighTrs (reweightTr divL divR ty d s) s

/-- The new final weight (86-97). -/
def reweightFin (divL : W → W → R W) (ty : ReweightType) (d : List W) (s : StateId) (w : W) : R (Option W) :=
  match ty with
  | .toFinal => .ok (some (w * pot d s))
  | .toInitial => if pot d s = 0 then .ok none else (divL w (pot d s)).map some

/-- What is put in front of the start state (114-119, 125-130, 137-142). -/
def startFactor (divR : W → W → R W) (ty : ReweightType) (ds : W) : R W :=
  match ty with
  | .toInitial => .ok ds
  | .toFinal => divR 1 ds

/-- Lines 108-146: the potential `ds` of the start state `i`. -/
def reweightStart (divR : W → W → R W) (ty : ReweightType) (ds : W) (i : StateId) (f : Fst W) : R (Fst W) :=
  if ds = 1 ∨ ds = 0 then .ok f
  else
    match f.computeAndUpdate (Props.of [.initialAcyclic]) with
    | .error e => .error e
    | .ok (f, _) =>
      if f.props .initialAcyclic then
        match f.weighTrs (fun t => (startFactor divR ty ds).map fun c => some (c * t.weight)) i with
        | .error e => .error e
        | .ok f => f.weighFin (fun w => (startFactor divR ty ds).map fun c => some (c * w)) i
      else
        match startFactor divR ty ds with
        | .error e => .error e
        | .ok c => .ok ((f.addState.addTr f.numStates ⟨EPS, EPS, c, i⟩).setStart f.numStates)

/-- Lines 106-147. -/
def reweightAtStart (divR : W → W → R W) (ty : ReweightType) (d : List W) (f : Fst W) : R (Fst W) :=
  match f.start with
  | none => .ok f
  | some i => f.reweightStart divR ty (pot d i) i

/-- `reweight` (27-154). -/
def reweight (divL divR : W → W → R W) (ty : ReweightType) (d : List W) (f : Fst W) : R (Fst W) :=
  if f.numStates = 0 then .ok f
  else
    match (List.range f.numStates).foldlM (reweightState divL divR ty d) f with
    | .error e => .error e
    | .ok f =>
      match (List.range f.numStates).foldlM (fun f s => f.weighFin (reweightFin divL ty d s) s) f with
      | .error e => .error e
      | .ok f =>
        match f.reweightAtStart divR ty d with
        | .error e => .error e
        | .ok f => .ok (f.setPropsMask (Props.reweight f.props) Props.allMask)

/-! ## `push.rs` -/

/-- `compute_total_weight` (122-142). -/
def totalWeight (ty : ReweightType) (d : List W) (f : Fst W) : W :=
  match ty with
  | .toInitial => (f.start.map (pot d)).getD 0
  | .toFinal => (List.range d.length).foldl (fun a s => a + pot d s * (f.finOf s).getD 0) 0

/-- `remove_weight` (144-176): `at_final` is `ty = toFinal` (112). -/
def removeWeight (divL divR : W → W → R W) (ty : ReweightType) (c : W) (f : Fst W) : R (Fst W) :=
  if c = 1 ∨ c = 0 then .ok f
  else
    match ty with
    | .toFinal => (List.range f.numStates).foldlM (fun f s => f.weighFin (fun w => (divR w c).map some) s) f
    | .toInitial =>
      match f.start with
      | none => .ok f
      | some i =>
        match f.weighTrs (fun t => (divL t.weight c).map some) i with
        | .error e => .error e
        | .ok f => f.weighFin (fun w => (divL w c).map some) i

/-- Lines 105-118, after the distances are known. -/
def pushWith (divL divR : W → W → R W) (ty : ReweightType) (removeTotal : Bool) (d : List W) (f : Fst W) : R (Fst W) :=
  if removeTotal then
    match f.reweight divL divR ty d with
    | .error e => .error e
    | .ok g => g.removeWeight divL divR ty (f.totalWeight ty d)
  else f.reweight divL divR ty d

/-- `push_weights_with_config(fst, ReweightToInitial, …)` (90-120); the parameters are those of `shortestDistanceRev`. -/
def pushInitial {V : Type v} [Zero V] [One V] [Add V] [Mul V] [DecidableEq V] (divL divR : W → W → R W) (rev : W → V) (back : V → W)
    (sf : SemiringFlags) (eqv : V → V → Bool) (removeTotal : Bool) (f : Fst W) (fuel : Nat) : Option (R (Fst W)) :=
  match f.shortestDistanceRev rev back sf eqv fuel with
  | none => none
  | some (.error e) => some (.error e)
  | some (.ok d) => some (f.pushWith divL divR .toInitial removeTotal d)

/-- `push_weights_with_config(fst, ReweightToFinal, …)` (90-120). -/
def pushFinal (divL divR : W → W → R W) (sf : SemiringFlags) (eqv : W → W → Bool) (removeTotal : Bool) (f : Fst W) (fuel : Nat) :
    Option (R (Fst W)) :=
  match f.shortestDistance sf eqv fuel with
  | none => none
  | some (.error e) => some (.error e)
  | some (.ok d) => some (f.pushWith divL divR .toFinal removeTotal d)

end Fst
end Verif
