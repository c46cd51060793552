import Verif.Model.PropBits

/-!
# Property updates (`fst_properties/mutate_properties.rs`, `trs_iter_mut.rs` 241-350)
-/

namespace Verif
universe u
variable {W : Type u}

/-- `ProjectType` (algorithms/projection.rs 8-13). -/
inductive ProjectType where
  | projectInput
  | projectOutput
deriving DecidableEq, Repr

namespace Props

/-- `(A | B | ...) & p`. -/
def keep (l : List PropBit) (p : Props) : Props := (of l).and p

/-- `if cond { out |= q }`. -/
def orIf (c : Bool) (p q : Props) : Props := if c then p.or q else p

theorem orIf_apply (c : Bool) (p q : Props) (x) : (orIf c p q) x = (p x || (c && q x)) := by
  cases c <;> simp [orIf]

/-- `set_start_properties` (mutate_properties.rs 7-13). -/
def setStart (p : Props) : Props := setIf (p.has .acyclic) (p.and setStartMask) .initialAcyclic

/-- `add_state_properties` (mutate_properties.rs 39-41). -/
def addState (p : Props) : Props := p.and addStateMask

/-- `delete_states_properties` (mutate_properties.rs 102-104). -/
def deleteStates (p : Props) : Props := p.and deleteStatesMask

/-- `delete_all_states_properties` (mutate_properties.rs 106-108). -/
def deleteAllStates : Props := nullMask

/-- `delete_trs_properties` (mutate_properties.rs 110-112). -/
def deleteTrs (p : Props) : Props := p.and deleteArcsMask

/-- The mask of `del_trs_id_sorted_unchecked` when some transitions remain (mutable_fst.rs 217-232). -/
def delTrsIdMask : Props := of
  [.acceptor, .iDeterministic, .oDeterministic, .noEpsilons, .noIEpsilons, .noOEpsilons, .iLabelSorted,
   .oLabelSorted, .unweighted, .topSorted, .notAccessible, .notCoaccessible, .unweightedCycles]

section weights
variable [Zero W] [One W] [DecidableEq W]

/-- Whether an optional weight is present and non-trivial. -/
def nontrivialO : Option W → Bool
  | some w => nontrivialW w
  | none => false

/-- `set_final_properties` (mutate_properties.rs 15-37). -/
def setFinal (p : Props) (old new : Option W) : Props :=
  let p := clearIf (nontrivialO old) p .weighted
  let p := flipIf (nontrivialO new) p .weighted .unweighted
  p.and (setFinalMask.or (of [.weighted, .unweighted]))

/-- `add_tr_properties` (mutate_properties.rs 43-100). -/
def addTr (p : Props) (s : StateId) (t : Tr W) (prev : Option (Tr W)) : Props :=
  let p := flipIf (t.ilabel != t.olabel) p .notAcceptor .acceptor
  let p := flipIf (t.ilabel == EPS) p .iEpsilons .noIEpsilons
  let p := flipIf (t.ilabel == EPS && t.olabel == EPS) p .epsilons .noEpsilons
  let p := flipIf (t.olabel == EPS) p .oEpsilons .noOEpsilons
  let p := match prev with
    | some q =>
      let p := flipIf (decide (q.ilabel > t.ilabel)) p .notILabelSorted .iLabelSorted
      flipIf (decide (q.olabel > t.olabel)) p .notOLabelSorted .oLabelSorted
    | none => p
  let p := flipIf (nontrivialW t.weight) p .weighted .unweighted
  let p := flipIf (decide (t.nextstate ≤ s)) p .notTopSorted .topSorted
  let p := p.and (addArcMask.or (of [.acceptor, .noEpsilons, .noIEpsilons, .noOEpsilons, .iLabelSorted,
    .oLabelSorted, .unweighted, .topSorted]))
  if p.has .topSorted then p.or (of [.acyclic, .initialAcyclic]) else p

/-- `update_properties_labels` (trs_iter_mut.rs 241-277). -/
def updLabels (p : Props) (oi oo ni no : Label) : Props :=
  let p := clearIf (oi != oo) p .notAcceptor
  let p := clearIf (oi == EPS) p .iEpsilons
  let p := clearIf (oi == EPS && oo == EPS) p .epsilons
  let p := clearIf (oo == EPS) p .oEpsilons
  let p := flipIf (ni != no) p .notAcceptor .acceptor
  let p := flipIf (ni == EPS) p .iEpsilons .noIEpsilons
  let p := flipIf (ni == EPS && no == EPS) p .epsilons .noEpsilons
  flipIf (no == EPS) p .oEpsilons .noOEpsilons

/-- `update_properties_weights` (trs_iter_mut.rs 279-291). -/
def updWeights (p : Props) (old new : W) : Props :=
  let p := clearIf (nontrivialW old) p .weighted
  flipIf (nontrivialW new) p .weighted .unweighted

/-- `keep_only_relevant_properties` (trs_iter_mut.rs 293-305). -/
def keepRelevant (p : Props) : Props :=
  p.and (setArcMask.or (of [.acceptor, .notAcceptor, .epsilons, .noEpsilons, .iEpsilons, .noIEpsilons,
    .oEpsilons, .noOEpsilons, .weighted, .unweighted]))

/-- `compute_new_properties_all` (trs_iter_mut.rs 307-322). -/
def newAll (p : Props) (old new : Tr W) : Props :=
  keepRelevant (updWeights (updLabels p old.ilabel old.olabel new.ilabel new.olabel) old.weight new.weight)

/-- `compute_new_properties_labels` (trs_iter_mut.rs 324-340). -/
def newLabels (p : Props) (oi oo ni no : Label) : Props := keepRelevant (updLabels p oi oo ni no)

/-- `compute_new_properties_weights` (trs_iter_mut.rs 342-350). -/
def newWeights (p : Props) (old new : W) : Props := keepRelevant (updWeights p old new)

end weights

/-- `closure_properties` (mutate_properties.rs 114-145). -/
def closure (p : Props) (delayed : Bool) : Props :=
  let o := keep [.acceptor, .unweighted, .accessible] p
  let o := setIf (p.has .unweighted) o .unweightedCycles
  let o := orIf (!delayed) o (keep [.coaccessible, .notTopSorted, .notString] p)
  let c := !delayed || p.has .accessible
  let o := orIf c o (keep [.notAcceptor, .notIDeterministic, .notODeterministic, .notILabelSorted,
    .notOLabelSorted, .weighted, .weightedCycles, .notAccessible, .notCoaccessible] p)
  setIf (c && p.has .weighted && p.has .accessible && p.has .coaccessible) o .weightedCycles

/-- `compose_properties` (mutate_properties.rs 151-184). -/
def compose (p q : Props) : Props :=
  let pq := p.and q
  if p.has .acceptor && q.has .acceptor then
    let o := (of [.acceptor, .accessible]).or
      (keep [.noEpsilons, .noIEpsilons, .noOEpsilons, .acyclic, .initialAcyclic] pq)
    orIf (p.has .noIEpsilons && q.has .noIEpsilons) o (keep [.iDeterministic, .oDeterministic] pq)
  else
    let o := (of [.accessible]).or (keep [.acceptor, .noIEpsilons, .acyclic, .initialAcyclic] pq)
    orIf (p.has .noIEpsilons && q.has .noIEpsilons) o (keep [.iDeterministic] pq)

/-- `concat_properties` (mutate_properties.rs 186-245). -/
def concat (p q : Props) (delayed : Bool) : Props :=
  let existBits : List PropBit := [.notAcceptor, .notIDeterministic, .notODeterministic, .epsilons, .iEpsilons,
    .oEpsilons, .notILabelSorted, .notOLabelSorted, .weighted, .weightedCycles, .cyclic, .notAccessible,
    .notCoaccessible]
  let o := keep [.acceptor, .unweighted, .unweightedCycles, .acyclic] (p.and q)
  let empty1 := delayed
  let empty2 := delayed
  let o := orIf (!delayed) o ((keep [.notTopSorted, .notString] p).or (keep [.notTopSorted, .notString] q))
  let o := orIf (!empty1) o (keep [.initialAcyclic, .initialCyclic] p)
  let o := orIf (!delayed || p.has .accessible) o (keep existBits p)
  if p.has .accessible && p.has .coaccessible && !empty1 then
    let o := o.or (keep [.accessible] q)
    let o := orIf (!empty2) o (keep [.coaccessible] q)
    orIf (!delayed || q.has .accessible) o (keep existBits q)
  else o

/-- `determinize_properties` (mutate_properties.rs 247-279). -/
def determinize (p : Props) (hasSub distinctPsub : Bool) : Props :=
  let o := of [.accessible]
  let o := setIf (p.has .acceptor || (p.has .noIEpsilons && distinctPsub) || (hasSub && distinctPsub)) o
    .iDeterministic
  let o := o.or (keep [.acceptor, .acyclic, .initialAcyclic, .coaccessible, .isString] p)
  let o := orIf (p.has .noIEpsilons && distinctPsub) o (keep [.noEpsilons] p)
  let o := orIf (p.has .accessible) o (keep [.iEpsilons, .oEpsilons, .cyclic] p)
  let o := orIf (p.has .acceptor) o (keep [.noIEpsilons, .noOEpsilons] p)
  setIf (p.has .noIEpsilons && hasSub) o .noIEpsilons

/-- `factor_weight_properties` (mutate_properties.rs 281-300). -/
def factorWeight (p : Props) : Props :=
  let o := keep [.acceptor, .acyclic, .accessible, .coaccessible] p
  orIf (p.has .accessible) o (keep [.notAcceptor, .notIDeterministic, .notODeterministic, .epsilons, .iEpsilons,
    .oEpsilons, .cyclic, .notILabelSorted, .notOLabelSorted] p)

/-- `invert_properties` (mutate_properties.rs 302-363). -/
def invert (p : Props) : Props :=
  let o := keep [.acceptor, .notAcceptor, .epsilons, .noEpsilons, .weighted, .unweighted, .weightedCycles,
    .unweightedCycles, .cyclic, .acyclic, .initialCyclic, .initialAcyclic, .topSorted, .notTopSorted, .accessible,
    .notAccessible, .coaccessible, .notCoaccessible, .isString, .notString] p
  let o := setIf (p.has .iDeterministic) o .oDeterministic
  let o := setIf (p.has .notIDeterministic) o .notODeterministic
  let o := setIf (p.has .oDeterministic) o .iDeterministic
  let o := setIf (p.has .notODeterministic) o .notIDeterministic
  let o := setIf (p.has .iEpsilons) o .oEpsilons
  let o := setIf (p.has .noIEpsilons) o .noOEpsilons
  let o := setIf (p.has .oEpsilons) o .iEpsilons
  let o := setIf (p.has .noOEpsilons) o .noIEpsilons
  let o := setIf (p.has .iLabelSorted) o .oLabelSorted
  let o := setIf (p.has .notILabelSorted) o .notOLabelSorted
  let o := setIf (p.has .oLabelSorted) o .iLabelSorted
  setIf (p.has .notOLabelSorted) o .notILabelSorted

/-- `project_properties` (mutate_properties.rs 365-447). -/
def project (p : Props) (ty : ProjectType) : Props :=
  let o := (of [.acceptor]).or (keep [.weighted, .unweighted, .weightedCycles, .unweightedCycles, .cyclic, .acyclic,
    .initialCyclic, .initialAcyclic, .topSorted, .notTopSorted, .accessible, .notAccessible, .coaccessible,
    .notCoaccessible, .isString, .notString] p)
  match ty with
  | .projectInput =>
    let o := o.or (keep [.iDeterministic, .notIDeterministic, .iEpsilons, .noIEpsilons, .iLabelSorted,
      .notILabelSorted] p)
    let o := setIf (p.has .iDeterministic) o .oDeterministic
    let o := setIf (p.has .notIDeterministic) o .notODeterministic
    let o := orIf (p.has .iEpsilons) o (of [.oEpsilons, .epsilons])
    let o := orIf (p.has .noIEpsilons) o (of [.noOEpsilons, .noEpsilons])
    let o := setIf (p.has .iLabelSorted) o .oLabelSorted
    setIf (p.has .notILabelSorted) o .notOLabelSorted
  | .projectOutput =>
    let o := o.or (keep [.oDeterministic, .notODeterministic, .oEpsilons, .noOEpsilons, .oLabelSorted,
      .notOLabelSorted] p)
    let o := setIf (p.has .oDeterministic) o .iDeterministic
    let o := setIf (p.has .notODeterministic) o .notIDeterministic
    let o := orIf (p.has .oEpsilons) o (of [.iEpsilons, .epsilons])
    let o := orIf (p.has .noOEpsilons) o (of [.noIEpsilons, .noEpsilons])
    let o := setIf (p.has .oLabelSorted) o .iLabelSorted
    setIf (p.has .notOLabelSorted) o .notILabelSorted

/-- `relabel_properties` (mutate_properties.rs 475-493). -/
def relabel (p : Props) : Props :=
  keep [.weighted, .unweighted, .weightedCycles, .unweightedCycles, .cyclic, .acyclic, .initialCyclic,
    .initialAcyclic, .topSorted, .notTopSorted, .accessible, .notAccessible, .coaccessible, .notCoaccessible,
    .isString, .notString] p

/-- `reverse_properties` (mutate_properties.rs 622-638). -/
def reverse (p : Props) (hasSuperinitial : Bool) : Props :=
  let o := keep [.acceptor, .notAcceptor, .epsilons, .iEpsilons, .oEpsilons, .unweighted, .cyclic, .acyclic,
    .weightedCycles, .unweightedCycles] p
  orIf hasSuperinitial o (keep [.weighted] p)

/-- `reweight_properties` (mutate_properties.rs 640-644). -/
def reweight (p : Props) : Props := (p.and weightInvariantMask).clear .coaccessible

/-- `rmepsilon_properties` (mutate_properties.rs 646-660). -/
def rmepsilon (p : Props) (delayed : Bool) : Props :=
  let o := (of [.noEpsilons]).or (keep [.acceptor, .acyclic, .initialAcyclic] p)
  let o := orIf (p.has .acceptor) o (of [.noIEpsilons, .noOEpsilons])
  let o := orIf (!delayed) o (keep [.topSorted] p)
  orIf (!delayed || p.has .accessible) o (keep [.notAcceptor] p)

/-- `shortest_path_properties` (mutate_properties.rs 662-672). -/
def shortestPath (p : Props) (tree : Bool) : Props :=
  let o := p.or (of [.acyclic, .initialAcyclic, .accessible, .unweightedCycles])
  setIf (!tree) o .coaccessible

/-- `union_properties` (mutate_properties.rs 692-748). -/
def union (p q : Props) (delayed : Bool) : Props :=
  let o := keep [.acceptor, .unweighted, .unweightedCycles, .acyclic, .accessible] (p.and q)
  let o := o.set .initialAcyclic
  let o := orIf (!delayed) o ((keep [.notTopSorted] p).or (keep [.notTopSorted] q))
  let o := orIf (!delayed) o ((of [.epsilons, .iEpsilons, .oEpsilons]).or (keep [.coaccessible] (p.and q)))
  let o := orIf (!delayed || p.has .accessible) o (keep [.notAcceptor, .notIDeterministic, .notODeterministic,
    .epsilons, .iEpsilons, .oEpsilons, .notILabelSorted, .notOLabelSorted, .weighted, .weightedCycles, .cyclic,
    .notAccessible] p)
  orIf (!delayed || q.has .accessible) o (keep [.notAcceptor, .notIDeterministic, .notODeterministic,
    .epsilons, .iEpsilons, .oEpsilons, .notILabelSorted, .notOLabelSorted, .weighted, .weightedCycles, .cyclic,
    .notAccessible, .notCoaccessible] q)

end Props
end Verif
