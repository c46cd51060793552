import Verif.Model.Rational

/-!
# Depth-first visits (`algorithms/dfs_visit.rs`) and the algorithms built on them
(`algorithms/visitors/scc_visitors.rs`, `algorithms/{connect,top_sort,condense}.rs`)

Arrays indexed by state (`Vec` of length `num_states`) are total functions on `Nat`. An index out of range panics in the code;
that can only come from `state_color[tr.nextstate]`, and `Fst.targetsOk` is tested before the visit by the callers.
-/

namespace Verif
universe u v
variable {W : Type u}

/-- `a[i] = x`. -/
def upd {α : Type v} (a : Nat → α) (i : Nat) (x : α) : Nat → α := fun j => if j = i then x else a j

/-- `DfsStateColor` (dfs_visit.rs 10-18). -/
inductive Color where
  | white
  | grey
  | black
deriving DecidableEq

/-- The `Visitor` trait (dfs_visit.rs 20-43). Each callback returns the new visitor and, where the trait returns a `bool`,
that Boolean. `init_visit` is empty in all modelled visitors; the transition passed to `finish_state` is never used. -/
structure Visitor (W : Type u) (V : Type v) where
  initState : V → StateId → StateId → V × Bool
  treeTr : V → StateId → Tr W → V × Bool
  backTr : V → StateId → Tr W → V × Bool
  crossTr : V → StateId → Tr W → V × Bool
  finishState : V → StateId → Option StateId → V
  finishVisit : V → V

/-- The local variables of `dfs_visit`: colours, stack (top first; each entry is a state with the transitions its iterator
has not passed), visitor and the flag `dfs`. -/
structure DfsSt (W : Type u) (V : Type v) where
  color : Nat → Color
  stack : List (StateId × List (Tr W))
  vis : V
  dfs : Bool

namespace Dfs
variable {V : Type v}

/-- Lines 126-137: the state on top of the stack is finished. -/
def finishTop (vt : Visitor W V) (st : DfsSt W V) (s : StateId) (k : List (StateId × List (Tr W))) : DfsSt W V :=
  match k with
  | [] => { st with color := upd st.color s .black, stack := [], vis := vt.finishState st.vis s none }
  | (p, rest) :: k =>
    { st with color := upd st.color s .black, stack := (p, rest.tail) :: k, vis := vt.finishState st.vis s (some p) }

/-- Lines 138-162: one transition of the state on top of the stack. If `tree_tr` returns `false` the loop is left at once (148);
nothing happens after that, so the stack is dropped. -/
def followTr (f : Fst W) (vt : Visitor W V) (keep : Tr W → Bool) (root : StateId) (st : DfsSt W V) (s : StateId) (t : Tr W)
    (rest : List (Tr W)) (k : List (StateId × List (Tr W))) : DfsSt W V :=
  if keep t then
    match st.color t.nextstate with
    | .white =>
      let (v, d) := vt.treeTr st.vis s t
      if d then
        let (v, d) := vt.initState v t.nextstate root
        { color := upd st.color t.nextstate .grey, stack := (t.nextstate, f.trsOf t.nextstate) :: (s, t :: rest) :: k,
          vis := v, dfs := d }
      else { st with stack := [], vis := v, dfs := false }
    | .grey =>
      let (v, d) := vt.backTr st.vis s t
      { st with stack := (s, rest) :: k, vis := v, dfs := d }
    | .black =>
      let (v, d) := vt.crossTr st.vis s t
      { st with stack := (s, rest) :: k, vis := v, dfs := d }
  else { st with stack := (s, rest) :: k }

/-- Body of the `while !state_stack.is_empty()` loop (dfs_visit.rs 122-168); no effect on an empty stack. -/
def step (f : Fst W) (vt : Visitor W V) (keep : Tr W → Bool) (root : StateId) (st : DfsSt W V) : DfsSt W V :=
  match st.stack with
  | [] => st
  | (s, ts) :: k =>
    if st.dfs then
      match ts with
      | [] => finishTop vt st s k
      | t :: rest => followTr f vt keep root st s t rest k
    else finishTop vt st s k

/-- `n` iterations of the loop (fewer if the stack becomes empty). -/
def steps (f : Fst W) (vt : Visitor W V) (keep : Tr W → Bool) (root : StateId) : Nat → DfsSt W V → DfsSt W V
  | 0, st => st
  | n + 1, st => steps f vt keep root n (step f vt keep root st)

/-- Enough iterations to empty the stack (`steps_empty` in `Lemmas/Dfs.lean`). -/
def fuel (f : Fst W) : Nat := (f.states.map fun st => st.trs.length + 2).sum + 1

/-- One round of the outer loop (115-169) with a white root. -/
def visitRoot (f : Fst W) (vt : Visitor W V) (keep : Tr W → Bool) (root : StateId) (st : DfsSt W V) : DfsSt W V :=
  let (v, d) := vt.initState st.vis root root
  steps f vt keep root (fuel f)
    { color := upd st.color root .grey, stack := [(root, f.trsOf root)], vis := v, dfs := d }

/-- `root = …` (175-179) followed by the test 112-114 and the round for that root: roots after the first are the white states in
increasing order. -/
def nextRoot (f : Fst W) (vt : Visitor W V) (keep : Tr W → Bool) (st : DfsSt W V) (r : StateId) : DfsSt W V :=
  if st.dfs && st.color r = .white then visitRoot f vt keep r st else st

/-- `dfs_visit` (dfs_visit.rs 98-188) with `access_only = false` (as all callers have it). -/
def visit (f : Fst W) (vt : Visitor W V) (keep : Tr W → Bool) (v : V) : V :=
  match f.start with
  | none => vt.finishVisit v
  | some start =>
    let st : DfsSt W V := { color := fun _ => .white, stack := [], vis := v, dfs := true }
    let st := if start < f.numStates then
      (List.range f.numStates).foldl (nextRoot f vt keep) (visitRoot f vt keep start st) else st
    vt.finishVisit st.vis

end Dfs

/-! ## Strongly connected components -/

/-- State of `SccVisitor` (scc_visitors.rs 12-26) and of `ConnectVisitor` (connect.rs 69-81): the two visitors run the same code
on the common fields, so one model serves both. `access` is the field of `SccVisitor`, `accessC` that of `ConnectVisitor`;
`scc`, `nscc` and `props` exist only in `SccVisitor`. `dfnumber` and `lowlink` of an undiscovered state (-1 in the code) are
never read. The top of `scc_stack` is the head of the list. -/
structure SccV where
  scc : Nat → Int
  access : Nat → Bool
  accessC : Nat → Bool
  coaccess : Nat → Bool
  nstates : Nat
  dfnumber : Nat → Nat
  lowlink : Nat → Nat
  onstack : Nat → Bool
  sccStack : List StateId
  nscc : Int
  props : Props

namespace SccV

/-- `SccVisitor::new` (scc_visitors.rs 29-59), `ConnectVisitor::new` (connect.rs 83-97). -/
def new : SccV where
  scc := fun _ => -1
  access := fun _ => false
  accessC := fun _ => false
  coaccess := fun _ => false
  nstates := 0
  dfnumber := fun _ => 0
  lowlink := fun _ => 0
  onstack := fun _ => false
  sccStack := []
  nscc := 0
  props := Props.of [.acyclic, .initialAcyclic, .accessible, .coaccessible]

/-- Set a flag and clear its opposite (`props |= A; props &= !B`). -/
def flip (p : Props) (b : PropBit) : Props := fun x => if x = b then true else if x = b.neg then false else p x

/-- `init_state` (scc_visitors.rs 65-85, connect.rs 103-112). `start` is the start state. -/
def initState (start : StateId) (v : SccV) (s root : StateId) : SccV :=
  { v with
    sccStack := s :: v.sccStack
    dfnumber := upd v.dfnumber s v.nstates
    lowlink := upd v.lowlink s v.nstates
    onstack := upd v.onstack s true
    access := upd v.access s true
    accessC := upd v.accessC s (decide (root = start))
    props := if root = start then v.props else flip v.props .notAccessible
    nstates := v.nstates + 1 }

/-- `if self.coaccess[t] { self.coaccess[s] = true; }`. -/
def copyCo (co : Nat → Bool) (s t : StateId) : Nat → Bool := if co t then upd co s true else co

/-- `back_tr` (scc_visitors.rs 91-107, connect.rs 118-128). -/
def backTr (start : StateId) (v : SccV) (s : StateId) (t : StateId) : SccV :=
  { v with
    lowlink := if v.dfnumber t < v.lowlink s then upd v.lowlink s (v.dfnumber t) else v.lowlink
    coaccess := copyCo v.coaccess s t
    props := if t = start then flip (flip v.props .cyclic) .initialCyclic else flip v.props .cyclic }

/-- `forward_or_cross_tr` (scc_visitors.rs 109-123, connect.rs 130-144). -/
def crossTr (v : SccV) (s : StateId) (t : StateId) : SccV :=
  { v with
    lowlink := if v.dfnumber t < v.dfnumber s ∧ v.onstack t = true ∧ v.dfnumber t < v.lowlink s then
      upd v.lowlink s (v.dfnumber t) else v.lowlink
    coaccess := copyCo v.coaccess s t }

/-- The loops over the top of `scc_stack` down to `s`: the states passed and what remains below. -/
def popTo (s : StateId) : List StateId → List StateId × List StateId
  | [] => ([], [])
  | t :: ts => if t = s then ([t], ts) else ((t :: (popTo s ts).1), (popTo s ts).2)

/-- Lines 131-163 of `finish_state` (connect.rs 152-175): `s` is the root of a component. -/
def popScc (v : SccV) (s : StateId) : SccV :=
  let g := (popTo s v.sccStack).1
  let co := g.any v.coaccess
  { v with
    scc := fun q => if q ∈ g then v.nscc else v.scc q
    coaccess := fun q => if co ∧ q ∈ g then true else v.coaccess q
    onstack := fun q => if q ∈ g then false else v.onstack q
    sccStack := (popTo s v.sccStack).2
    props := if co then v.props else flip v.props .notCoaccessible
    nscc := v.nscc + 1 }

/-- Lines 164-172 of `finish_state` (connect.rs 176-184): pass the results to the parent. -/
def toParent (v : SccV) (s : StateId) : Option StateId → SccV
  | none => v
  | some p =>
    { v with
      coaccess := copyCo v.coaccess p s
      lowlink := if v.lowlink s < v.lowlink p then upd v.lowlink p (v.lowlink s) else v.lowlink }

/-- `finish_state` (scc_visitors.rs 125-173, connect.rs 146-185). -/
def finishState (fin : StateId → Bool) (v : SccV) (s : StateId) (parent : Option StateId) : SccV :=
  let v := if fin s then { v with coaccess := upd v.coaccess s true } else v
  let v := if v.dfnumber s = v.lowlink s then popScc v s else v
  toParent v s parent

/-- `finish_visit` (scc_visitors.rs 175-181). -/
def finishVisit (v : SccV) : SccV := { v with scc := fun q => v.nscc - 1 - v.scc q }

end SccV

namespace Fst

/-- All transition targets exist. -/
def targetsOk (f : Fst W) : Bool := f.states.all fun st => st.trs.all fun t => decide (t.nextstate < f.numStates)

/-- `SccVisitor` as a `Visitor` (scc_visitors.rs 62-182). `start` is `NO_STATE_ID` when the FST has no start state
(49); the visit then calls no callback that uses it. -/
def sccVisitor (f : Fst W) : Visitor W SccV where
  initState v s root := (v.initState (f.start.getD NO_STATE_ID) s root, true)
  treeTr v _ _ := (v, true)
  backTr v s t := (v.backTr (f.start.getD NO_STATE_ID) s t.nextstate, true)
  crossTr v s t := (v.crossTr s t.nextstate, true)
  finishState v s p := v.finishState (fun q => (f.finOf q).isSome) s p
  finishVisit v := v.finishVisit

/-- `SccVisitor::new` and `dfs_visit` with a transition filter. -/
def sccVisit (f : Fst W) (keep : Tr W → Bool) : SccV := Dfs.visit f f.sccVisitor keep SccV.new

section weights
variable [Zero W] [One W] [DecidableEq W]

/-- `connect` (connect.rs 52-67). A missing transition target makes the visit panic. -/
def connect (f : Fst W) : R (Fst W) :=
  if f.start ≠ none ∧ f.targetsOk = false then .error .panic
  else
    let v := f.sccVisit (fun _ => true)
    let ds := (List.range f.numStates).filter fun s => !v.accessC s || !v.coaccess s
    match f.delStates ds with
    | .error e => .error e
    | .ok g => .ok (g.setPropsMask (Props.of [.accessible, .coaccessible]) (Props.of [.accessible, .coaccessible]))

end weights
end Fst

/-! ## Topological order -/

/-- `TopOrderVisitor` (top_sort.rs 12-26). -/
structure TopV where
  order : List StateId
  acyclic : Bool
  finish : List StateId

namespace TopV

/-- `TopOrderVisitor::new`. -/
def new : TopV := ⟨[], true, []⟩

/-- Loop 54-58 of `finish_visit`: `order[finish[len - s - 1]] = s`. A state beyond the array panics in the code; when the visit
was complete `finish` is a permutation of `0..len`. -/
def number (finish : List StateId) : List StateId :=
  ((finish.reverse).zipIdx).foldl (fun o (p : StateId × Nat) => o.set p.1 p.2) (List.replicate finish.length 0)

/-- The callbacks (top_sort.rs 28-61). -/
def visitor : Visitor W TopV where
  initState v _ _ := (v, true)
  treeTr v _ _ := (v, true)
  backTr v _ _ := ({ v with acyclic := false }, false)
  crossTr v _ _ := (v, true)
  finishState v s _ := { v with finish := v.finish ++ [s] }
  finishVisit v := if v.acyclic then { v with order := number v.finish } else v

end TopV

namespace Fst

/-- `TopOrderVisitor` run with a filter (top_sort.rs 81-82, top_order_queue.rs 21-22). -/
def topVisit (f : Fst W) (keep : Tr W → Bool) : TopV := Dfs.visit f TopV.visitor keep TopV.new

section weights
variable [Zero W] [One W] [DecidableEq W]

/-- `top_sort` (top_sort.rs 76-94). -/
def topSort (f : Fst W) : R (Fst W) :=
  if f.start ≠ none ∧ f.targetsOk = false then .error .panic
  else
    let v := f.topVisit (fun _ => true)
    if v.acyclic then
      match f.stateSort v.order with
      | .error e => .error e
      | .ok g =>
        .ok (g.setPropsMask (Props.of [.acyclic, .initialAcyclic, .topSorted]) (Props.of [.acyclic, .initialAcyclic, .topSorted]))
    else .ok (f.setPropsMask (Props.of [.cyclic, .notTopSorted]) (Props.of [.cyclic, .notTopSorted]))

end weights
end Fst
end Verif
