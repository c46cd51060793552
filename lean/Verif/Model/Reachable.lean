import Verif.Model.FinalOps
import Verif.Model.TrMap
import Verif.Model.TrOrder
import Verif.Model.Rational
import Verif.Model.IntervalSet

/-!
# Reachability of final states and of labels
(`algorithms/compose/{interval_reach_visitor,state_reachable,label_reachable}.rs`)
-/

namespace Verif
universe u
variable {W : Type u}

/-- `UNASSIGNED` (interval_reach_visitor.rs 8, state_reachable.rs 13): `usize::MAX`. -/
def UNASSIGNED : Nat := 18446744073709551615

/-! ## The visitor -/

/-- `IntervalReachVisitor` (interval_reach_visitor.rs 10-15). The two vectors are functions with their lengths; `failed` records that a
callback panicked (or that `normalize` did not end). -/
structure ReachV where
  isets : Nat → IntervalSet
  nIsets : Nat
  state2index : Nat → Nat
  nIndex : Nat
  index : Nat
  failed : Bool

namespace ReachV

/-- `IntervalReachVisitor::new` (interval_reach_visitor.rs 17-26). -/
def new : ReachV where
  isets := fun _ => .empty
  nIsets := 0
  state2index := fun _ => UNASSIGNED
  nIndex := 0
  index := 1
  failed := false

section
variable [Zero W] [DecidableEq W]

/-- `final_weight(s)` is there and not zero (lines 40-41, 80-82). -/
def hasFinal (f : Fst W) (s : StateId) : Bool :=
  match f.finOf s with
  | some w => decide (w ≠ 0)
  | none => false

/-- `init_state` (interval_reach_visitor.rs 33-60). The counter `index` is unbounded here, so that it never becomes `UNASSIGNED` and the
lines 43-51 are not reached. -/
def initState (f : Fst W) (v : ReachV) (s : StateId) : ReachV :=
  let v := { v with nIsets := max v.nIsets (s + 1), nIndex := max v.nIndex (s + 1) }
  if hasFinal f s then
    { v with
      isets := upd v.isets s ((v.isets s).push ⟨v.index, v.index + 1⟩)
      state2index := upd v.state2index s v.index
      index := v.index + 1 }
  else v

/-- `union_vec_isets_unordered` (interval_reach_visitor.rs 99-114): the set of `j` is added to that of `i`; panics for `i = j`. -/
def unionSets (v : ReachV) (i j : StateId) : ReachV :=
  if i = j then { v with failed := true } else { v with isets := upd v.isets i ((v.isets i).union (v.isets j)) }

/-- `intervals[0].end = self.index` (line 85). -/
def closeFirst (s : IntervalSet) (e : Nat) : IntervalSet :=
  match s.intervals with
  | [] => s
  | i :: l => { s with intervals := { i with last := e } :: l }

/-- Lines 79-87 of `finish_state`. An index into an empty vector would panic in line 84; `init_state` has pushed an interval there. -/
def finishOwn (f : Fst W) (v : ReachV) (s : StateId) : ReachV :=
  let own := if hasFinal f s then closeFirst (v.isets s) v.index else v.isets s
  match own.normalize own.intervals.length with
  | some (.ok t) => { v with isets := upd v.isets s t }
  | _ => { v with failed := true }

/-- `finish_state` (interval_reach_visitor.rs 78-91). -/
def finishState (f : Fst W) (v : ReachV) (s : StateId) (parent : Option StateId) : ReachV :=
  match parent with
  | none => finishOwn f v s
  | some p => unionSets (finishOwn f v s) p s

/-- The callbacks (interval_reach_visitor.rs 28-95). `back_tr` panics. -/
def visitor (f : Fst W) : Visitor W ReachV where
  initState v s _ := (initState f v s, true)
  treeTr v _ _ := (v, true)
  backTr v _ _ := ({ v with failed := true }, true)
  crossTr v s t := (unionSets v s t.nextstate, true)
  finishState v s p := finishState f v s p
  finishVisit v := v

end
end ReachV

/-! ## Final states -/

/-- `StateReachable` (state_reachable.rs 19-22), with the lengths of its vectors. -/
structure StateReachable where
  isets : Nat → IntervalSet
  nIsets : Nat
  state2index : Nat → Nat
  nIndex : Nat

namespace StateReachable
variable [Zero W] [One W] [DecidableEq W]

/-- `new_acyclic` (state_reachable.rs 70-77). -/
def newAcyclic (f : Fst W) : R StateReachable :=
  if f.start ≠ none ∧ f.targetsOk = false then .error .panic
  else
    let v := Dfs.visit f (ReachV.visitor f) (fun _ => true) ReachV.new
    if v.failed then .error .panic else .ok ⟨v.isets, v.nIsets, v.state2index, v.nIndex⟩

/-- `nscc[c]` (state_reachable.rs 40-47): the number of states of component `c`. -/
def sccSize (n : Nat) (scc : Nat → Int) (c : Nat) : Nat := ((List.range n).filter fun s => (scc s).toNat = c).length

/-- `new_cyclic` (state_reachable.rs 35-68). The loop returns an error if any state is in a component with more states that is final in
the condensed FST; an index out of range in lines 56-57 panics. -/
def newCyclic [Add W] (f : Fst W) : R StateReachable :=
  match f.condense with
  | .error _ => .error .panic
  | .ok (scc, cfst) =>
    match newAcyclic cfst with
    | .error e => .error e
    | .ok r =>
      if (List.range f.numStates).any fun s => decide (r.nIsets ≤ (scc s).toNat) then .error .panic
      else if (List.range f.numStates).any fun s =>
          cfst.isFinalUnchecked (scc s).toNat && decide (1 < sccSize f.numStates scc (scc s).toNat) then .error .err
      else .ok ⟨fun s => r.isets (scc s).toNat, f.numStates, fun s => r.state2index (scc s).toNat, f.numStates⟩

/-- `new` (state_reachable.rs 25-33). -/
def new [Add W] (f : Fst W) : R StateReachable :=
  match f.propertiesCheck (Props.of [.acyclic]) with
  | .error e => .error e
  | .ok p => if p .acyclic then newAcyclic f else newCyclic f

/-- `reach` (state_reachable.rs 81-87): an index out of range panics. -/
def reach (r : StateReachable) (cur s : StateId) : R Bool :=
  if s < r.nIndex then
    if cur < r.nIsets then .ok ((r.isets cur).member (r.state2index s)) else .error .panic
  else .error .err

end StateReachable

/-! ## Labels -/

/-- The entries of a `HashMap<Label, _>` in the order of their insertion. Only look-ups and the number of entries are observable in the
functions below, except for the order of `relabel_pairs`. -/
abbrev ReachMap := List (Label × Nat)

/-- `map.get(label)`. -/
def ReachMap.get (m : ReachMap) (l : Label) : Option Nat := (m.find? fun p => p.1 == l).map Prod.snd

/-- `LabelReachableData` (label_reachable.rs 16-22). `interval_sets` is a function with its length. -/
structure LabelReachableData where
  reachInput : Bool
  finalLabel : Label
  label2index : ReachMap
  isets : Nat → IntervalSet
  nIsets : Nat

namespace LabelReachableData

/-- `relabel` (label_reachable.rs 52-61): new data and the new label. -/
def relabel (d : LabelReachableData) (l : Label) : LabelReachableData × Label :=
  if l = EPS then (d, EPS)
  else
    match d.label2index.get l with
    | some x => (d, x)
    | none => ({ d with label2index := d.label2index ++ [(l, d.label2index.length + 1)] }, d.label2index.length + 1)

/-- `interval_set` (label_reachable.rs 34-38). -/
def intervalSet (d : LabelReachableData) (s : StateId) : R IntervalSet := if s < d.nIsets then .ok (d.isets s) else .error .err

section
variable [Zero W] [One W] [DecidableEq W]

/-- Body of loop 71-80 of `relabel_fst`; the unchecked setters (trs_iter_mut.rs 154-183) have the effect of the checked ones on an
existing transition. -/
def relabelFstTr (input : Bool) (a : LabelReachableData × Fst W) (s : StateId) (i : Nat) : LabelReachableData × Fst W :=
  match (a.2.trsOf s)[i]? with
  | none => a
  | some t =>
    if input then ((a.1.relabel t.ilabel).1, (a.2.setIlabelR s i (a.1.relabel t.ilabel).2).1)
    else ((a.1.relabel t.olabel).1, (a.2.setOlabelR s i (a.1.relabel t.olabel).2).1)

/-- Loop 71-80 of `relabel_fst`: the transitions of one state. -/
def relabelFstSt (input : Bool) (a : LabelReachableData × Fst W) (s : StateId) : LabelReachableData × Fst W :=
  (List.range (a.2.trsOf s).length).foldl (fun a i => relabelFstTr input a s i) a

/-- `relabel_fst` (label_reachable.rs 63-93). Symbol tables are not modelled. -/
def relabelFst (d : LabelReachableData) (f : Fst W) (input : Bool) : LabelReachableData × Fst W :=
  let a := (List.range f.numStates).foldl (relabelFstSt input) (d, f)
  (a.1, a.2.trSort (if input then .ilabel else .olabel))

end

/-- The pairs of `relabel_pairs` (label_reachable.rs 98-116). -/
def relabelPairs (d : LabelReachableData) (avoid : Bool) : List (Label × Label) :=
  (d.label2index.filter fun p => p.2 ≠ d.finalLabel) ++
    if avoid then
      ((List.range d.label2index.length).map (· + 1)).filterMap fun i =>
        match d.label2index.get i with
        | none => some (i, d.label2index.length + 1)
        | some x => if x = d.finalLabel then some (i, d.label2index.length + 1) else none
    else []

end LabelReachableData

/-- The local variables of `transform_fst` (label_reachable.rs 175-181): `label2state`, `ons`, `indeg`. -/
structure RedirSt where
  l2s : ReachMap
  ons : Nat
  indeg : Nat → Nat

namespace RedirSt

/-- `label2state.entry(label)` with its two cases (195-203, 213-221). -/
def entry (r : RedirSt) (l : Label) : RedirSt × StateId :=
  match r.l2s.get l with
  | some s => (r, s)
  | none => (⟨r.l2s ++ [(l, r.ons)], r.ons + 1, upd r.indeg r.ons 0⟩, r.ons)

/-- `indeg[nextstate] += 1` (207, 228). -/
def bump (r : RedirSt) (s : StateId) : RedirSt := { r with indeg := upd r.indeg s (r.indeg s + 1) }

/-- Body of the loop 185-209. -/
def redirectTr (input : Bool) (r : RedirSt) (t : Tr W) : RedirSt × Tr W :=
  let l := if input then t.ilabel else t.olabel
  let q := if l ≠ EPS then r.entry l else (r, t.nextstate)
  (q.1.bump q.2, { t with nextstate := q.2 })

/-- Loop 185-209. -/
def redirectTrs (input : Bool) : RedirSt → List (Tr W) → RedirSt × List (Tr W)
  | r, [] => (r, [])
  | r, t :: ts =>
    let a := redirectTr input r t
    let b := redirectTrs input a.1 ts
    (b.1, a.2 :: b.2)

variable [Zero W] [One W] [DecidableEq W]

/-- Lines 184-209 for state `s`: the transitions are rewritten in place (the ε counters do not change); each `set_nextstate_unchecked`
reduces the flags (trs_iter_mut.rs 222-225), which has the same effect once or more often. -/
def redirectState (input : Bool) (a : RedirSt × Fst W) (s : StateId) : RedirSt × Fst W :=
  let b := redirectTrs input a.1 (a.2.trsOf s)
  let g := a.2.modifySt s fun st => { st with trs := b.2 }
  (b.1, if (a.2.trsOf s).isEmpty then g else { g with props := Props.keepRelevant g.props })

/-- Lines 211-231 for state `s`: the final weight. -/
def redirectFin (a : RedirSt × Fst W) (s : StateId) : RedirSt × Fst W :=
  match a.2.finOf s with
  | none => a
  | some w =>
    if w = 0 then a
    else
      let e := a.1.entry NO_LABEL
      (e.1.bump e.2, (a.2.addTr s ⟨NO_LABEL, NO_LABEL, w, e.2⟩).delFinal s)

/-- Body of loop 235-238: one state final with weight one. -/
def addFinalState (g : Fst W) : Fst W := g.addState.setFinal g.numStates 1

end RedirSt

namespace LabelReachable
variable [Zero W] [One W] [DecidableEq W]
open RedirSt

/-- `transform_fst` (label_reachable.rs 172-248): the new FST and `label2state`. -/
def transformFst (f : Fst W) (input : Bool) : Fst W × ReachMap :=
  let r0 : RedirSt := ⟨[], f.numStates, fun _ => 0⟩
  let a := (List.range f.numStates).foldl (fun a s => redirectFin (redirectState input a s) s) (r0, f)
  let g := (List.range (a.1.ons - f.numStates)).foldl (fun g _ => addFinalState g) a.2
  let start := g.numStates
  let g := g.addState.setStart start
  let g := (List.range start).foldl (fun g s => if a.1.indeg s = 0 then g.addTr start ⟨EPS, EPS, 1, s⟩ else g) g
  (g, a.1.l2s)

/-- `compute_data` (label_reachable.rs 135-150) with `find_intervals` (250-273). -/
def computeData [Add W] (f : Fst W) (input : Bool) : R LabelReachableData :=
  let f := f.convert
  let n := f.numStates
  let (g, l2s) := transformFst f input
  match g.computeAndUpdate (Props.of [.acyclic]) with
  | .error e => .error e
  | .ok (g, _) =>
    match StateReachable.new g with
    | .error e => .error e
    | .ok r =>
      if l2s.any fun p => decide (r.nIndex ≤ p.2) then .error .panic
      else
        .ok {
          reachInput := input
          finalLabel := ((l2s.get NO_LABEL).map r.state2index).getD NO_LABEL
          label2index := l2s.map fun p => (p.1, r.state2index p.2)
          isets := fun s => if s < r.nIsets then r.isets s else .empty
          nIsets := n }

/-- `reach_label` (label_reachable.rs 294-302). -/
def reachLabel (d : LabelReachableData) (cur : StateId) (l : Label) : R Bool :=
  if l = EPS then .ok false
  else
    match d.intervalSet cur with
    | .error e => .error e
    | .ok s => .ok (s.member l)

/-- `reach_final` (label_reachable.rs 305-310). -/
def reachFinal (d : LabelReachableData) (cur : StateId) : R Bool :=
  match d.intervalSet cur with
  | .error e => .error e
  | .ok s => .ok (s.member d.finalLabel)

/-- The label compared (label_reachable.rs 329-333, 388-392). -/
def side (fstInput : Bool) (t : Tr W) : Label := if fstInput then t.ilabel else t.olabel

/-- The local variables of `reach` (label_reachable.rs 320-322): `reach_begin`, `reach_end` (both assigned or both not), `reach_weight`. -/
structure Found (W : Type u) where
  range : Option (Nat × Nat)
  weight : W

/-- Lines 336-342, 354-363: the positions `a .. b` are found. -/
def Found.add [Add W] (o : Found W) (compute : Bool) (a b : Nat) (ws : List W) : Found W :=
  ⟨some ((o.range.map Prod.fst).getD a, b), if compute then ws.foldl (· + ·) o.weight else o.weight⟩

/-- Loop 327-344: transitions in turn. -/
def reachScan [Add W] (set : IntervalSet) (fstInput compute : Bool) : List (Tr W) → Nat → Label → Found W → Found W
  | [], _, _, o => o
  | t :: ts, pos, last, o =>
    let l := side fstInput t
    if l = last ∨ (l ≠ EPS ∧ set.member l = true) then
      reachScan set fstInput compute ts (pos + 1) l (o.add compute pos (pos + 1) [t.weight])
    else reachScan set fstInput compute ts (pos + 1) last o

/-- `lower_bound` (label_reachable.rs 375-402): the loop, with `high - low` as fuel. -/
def lowerBoundLoop (fstInput : Bool) (ts : List (Tr W)) (x : Label) : Nat → Nat → Nat → Nat
  | 0, low, _ => low
  | n + 1, low, high =>
    if low < high then
      let mid := low + (high - low) / 2
      match ts[mid]? with
      | none => low
      | some t =>
        if side fstInput t < x then lowerBoundLoop fstInput ts x n (mid + 1) high
        else lowerBoundLoop fstInput ts x n low mid
    else low

/-- `lower_bound` (label_reachable.rs 375-402). -/
def lowerBound (fstInput : Bool) (ts : List (Tr W)) (low high : Nat) (x : Label) : Nat := lowerBoundLoop fstInput ts x (high - low) low high

/-- Loop 348-365: intervals in turn. -/
def reachIntervals [Add W] (fstInput compute : Bool) (ts : List (Tr W)) (hi : Nat) : List IntInterval → Nat → Found W → Found W
  | [], _, o => o
  | i :: is, low, o =>
    let a := lowerBound fstInput ts low hi i.first
    let b := lowerBound fstInput ts a hi i.last
    reachIntervals fstInput compute ts hi is b (if a < b then o.add compute a b (((ts.drop a).take (b - a)).map Tr.weight) else o)

/-- `reach_init` (label_reachable.rs 275-290): the FST must be sorted by the side in use. -/
def reachInit [Add W] (f : Fst W) (input : Bool) : R Unit :=
  match f.propertiesCheck (Props.of [if input then .iLabelSorted else .oLabelSorted]) with
  | .error e => .error e
  | .ok p => if p (if input then .iLabelSorted else .oLabelSorted) then .ok () else .error .err

/-- `reach` (label_reachable.rs 312-373) on the transitions `ts`, from position `lo` to before `hi`. -/
def reach [Add W] (d : LabelReachableData) (fstInput : Bool) (cur : StateId) (ts : List (Tr W)) (lo hi : Nat) (compute : Bool) :
    R (Option (Nat × Nat × W)) :=
  match d.intervalSet cur with
  | .error e => .error e
  | .ok set =>
    let o : Found W :=
      if 2 * (hi - lo) < set.intervals.length then reachScan set fstInput compute ((ts.drop lo).take (hi - lo)) lo NO_LABEL ⟨none, 0⟩
      else reachIntervals fstInput compute ts hi set.intervals lo ⟨none, 0⟩
    .ok (o.range.map fun p => (p.1, p.2, o.weight))

end LabelReachable
end Verif
