import Verif.Model.Dfs

/-!
# `compute_fst_properties` (`fst_properties/compute_fst_properties.rs`) and its users in `MutableFst`
-/

namespace Verif
universe u
variable {W : Type u} [Zero W] [One W] [DecidableEq W]

namespace Props

/-- `dfs_props` (compute_fst_properties.rs 32-39). -/
def dfsMask : Props := of
  [.acyclic, .cyclic, .initialAcyclic, .initialCyclic, .accessible, .notAccessible, .coaccessible, .notCoaccessible]
/-- `WEIGHTED_CYCLES | UNWEIGHTED_CYCLES`. -/
def cycleMask : Props := of [.weightedCycles, .unweightedCycles]
/-- `I_DETERMINISTIC | NOT_I_DETERMINISTIC`. -/
def iDetMask : Props := of [.iDeterministic, .notIDeterministic]
/-- `O_DETERMINISTIC | NOT_O_DETERMINISTIC`. -/
def oDetMask : Props := of [.oDeterministic, .notODeterministic]

/-- The test of lines 41-42: the graph visit is needed. -/
def needsVisit (mask : Props) : Bool := mask.intersects (dfsMask.or cycleMask)
/-- The test of line 56: the scan is needed. -/
def needsScan (mask : Props) : Bool := mask.intersects (binaryMask.or dfsMask).not

/-- Lines 57-79: the flags assumed before the scan. -/
def scanInit (p mask : Props) : Props :=
  let p := p.or (of [.acceptor, .noEpsilons, .noIEpsilons, .noOEpsilons, .iLabelSorted, .oLabelSorted, .unweighted, .topSorted,
    .isString])
  let p := if mask.intersects iDetMask then p.set .iDeterministic else p
  let p := if mask.intersects oDetMask then p.set .oDeterministic else p
  if mask.intersects (cycleMask.or dfsMask) then p.set .unweightedCycles else p

end Props

/-- The variables of the loop over the transitions of a state (84-101). The label sets are lists. -/
structure ScanTr (W : Type u) where
  props : Props
  prev : Option (Tr W)
  ilabels : Option (List Label)
  olabels : Option (List Label)

/-- `ilabels_in.contains(&l)` on an optional set. -/
def seenIn (s : Option (List Label)) (l : Label) : Bool :=
  match s with
  | none => false
  | some ls => decide (l ∈ ls)

/-- `tr.label < prev.label`, false for the first transition. -/
def decreases (lab : Tr W → Label) (prev : Option (Tr W)) (t : Tr W) : Bool :=
  match prev with
  | none => false
  | some p => decide (lab t < lab p)

/-- Body of the loop over transitions (102-181). `!is_one && !is_zero` is the test of line 150. -/
def scanTr (scc : Nat → Int) (s : StateId) (a : ScanTr W) (t : Tr W) : ScanTr W :=
  let p := a.props
  let p := p.flipIf (seenIn a.ilabels t.ilabel) .notIDeterministic .iDeterministic
  let p := p.flipIf (seenIn a.olabels t.olabel) .notODeterministic .oDeterministic
  let p := p.flipIf (decide (t.ilabel ≠ t.olabel)) .notAcceptor .acceptor
  let p := p.flipIf (decide (t.ilabel = 0) && decide (t.olabel = 0)) .epsilons .noEpsilons
  let p := p.flipIf (decide (t.ilabel = 0)) .iEpsilons .noIEpsilons
  let p := p.flipIf (decide (t.olabel = 0)) .oEpsilons .noOEpsilons
  let p := p.flipIf (decreases (·.ilabel) a.prev t) .notILabelSorted .iLabelSorted
  let p := p.flipIf (decreases (·.olabel) a.prev t) .notOLabelSorted .oLabelSorted
  let heavy := decide (t.weight ≠ 1) && decide (t.weight ≠ 0)
  let p := p.flipIf heavy .weighted .unweighted
  let p := p.flipIf (heavy && (p .unweightedCycles && decide (scc s = scc t.nextstate))) .weightedCycles .unweightedCycles
  let p := p.flipIf (decide (t.nextstate ≤ s)) .notTopSorted .topSorted
  let p := p.flipIf (decide (t.nextstate ≠ s + 1)) .notString .isString
  { props := p, prev := some t, ilabels := a.ilabels.map (t.ilabel :: ·), olabels := a.olabels.map (t.olabel :: ·) }

/-- Lines 183-197 for a final weight (`is_final` is false for weight zero, fst.rs 117-122). -/
def scanFinal (p : Props) (nfinal : Nat) (fin : Option W) (ntrs : Nat) : Props × Nat :=
  let p := p.flipIf (decide (nfinal > 0)) .notString .isString
  match fin with
  | some w =>
    if w ≠ 0 then (p.flipIf (decide (w ≠ 1)) .weighted .unweighted, nfinal + 1)
    else (p.flipIf (decide (ntrs ≠ 1)) .notString .isString, nfinal)
  | none => (p.flipIf (decide (ntrs ≠ 1)) .notString .isString, nfinal)

namespace Fst

/-- Body of the loop over states (82-198); the second component is `nfinal`. -/
def scanState (f : Fst W) (mask : Props) (scc : Nat → Int) (a : Props × Nat) (s : StateId) : Props × Nat :=
  let a0 : ScanTr W :=
    { props := a.1, prev := none
      ilabels := if mask.intersects Props.iDetMask then some [] else none
      olabels := if mask.intersects Props.oDetMask then some [] else none }
  scanFinal ((f.trsOf s).foldl (scanTr scc s) a0).props a.2 (f.finOf s) (f.trsOf s).length

/-- Lines 56-206. -/
def scan (f : Fst W) (mask : Props) (scc : Nat → Int) (p : Props) : Props :=
  let p := ((List.range f.numStates).foldl (f.scanState mask scc) (p.scanInit mask, 0)).1
  match f.start with
  | none => p
  | some i => p.flipIf (decide (i ≠ 0)) .notString .isString

/-- `compute_fst_properties` (15-209): computed flags and known flags. The visit panics on a missing transition target; an FST
without start state is not visited and can only panic in line 155, which is not told apart here. -/
def computeProps (f : Fst W) (mask : Props) (useStored : Bool) : R (Props × Props) :=
  if useStored && f.props.known.containsAll mask then .ok (f.props, f.props.known)
  else if mask.needsVisit && !f.targetsOk then .error .panic
  else
    let p := f.props.and Props.binaryMask
    let v := f.sccVisit (fun _ => true)
    let p := if mask.needsVisit then p.or (Props.dfsMask.and v.props) else p
    let p := if mask.needsScan then f.scan mask v.scc p else p
    .ok (p, p.known)

/-- `compute_and_update_properties` (mutable_fst.rs 435-441): the FST with its new flags, and the flags returned. -/
def computeAndUpdate (f : Fst W) (mask : Props) : R (Fst W × Props) :=
  match f.computeProps mask true with
  | .error e => .error e
  | .ok (p, k) => .ok (f.setPropsMask p k, p.and mask)

/-- `properties_check` (fst.rs 166-176). -/
def propertiesCheck (f : Fst W) (k : Props) : R Props := if f.props.knows k then .ok f.props else .error .err

/-- `union` (union_static.rs 56-119). -/
def union (f g : Fst W) : R (Fst W) :=
  match f.computeAndUpdate (Props.of [.initialAcyclic]) with
  | .error e => .error e
  | .ok (f, p) => .ok (unionWith (p .initialAcyclic) f g)

end Fst
end Verif
