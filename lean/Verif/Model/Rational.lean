import Verif.Model.TrOrder

/-!
# Static rational and per-transition operations
(`algorithms/{inversion,projection,tr_sort,tr_sum,tr_unique,reverse,state_sort}.rs`,
`algorithms/{union,concat,closure}/*_static.rs`)

`reserve_*` calls only affect capacity and are dropped. The second argument of `union` and `concat` is any expanded FST in
the code; here it is a `VectorFst`. Symbol tables are not modelled.
-/

namespace Verif
universe u v
variable {W : Type u}

namespace Fst
section weights
variable [Zero W] [One W] [DecidableEq W]

/-! ## Label rewriting -/

/-- `for idx in 0..len { upd(idx) }` on one state (the loops of inversion.rs 36-42, projection.rs 71-75, 81-85). -/
def forTrs (upd : Fst W → StateId → Nat → Fst W) (f : Fst W) (s : StateId) : Fst W :=
  (List.range (f.trsOf s).length).foldl (fun f i => upd f s i) f

/-- `for state in fst.states_range() { … }` (inversion.rs 35, projection.rs 69, 79). -/
def forStates (body : Fst W → StateId → Fst W) (f : Fst W) : Fst W :=
  (List.range f.numStates).foldl body f

/-- Body 37-41 of `invert`. -/
def invertTr (f : Fst W) (s : StateId) (i : Nat) : Fst W :=
  match (f.trsOf s)[i]? with
  | none => f
  | some t => f.setLabels s i t.olabel t.ilabel

/-- `invert` (inversion.rs 32-48). -/
def invert (f : Fst W) : Fst W :=
  (forStates (forTrs invertTr) f).setPropsMask (Props.invert f.props) Props.allMask

/-- Bodies 72-74 and 82-84 of `project`; `set_olabel_unchecked` and `set_ilabel_unchecked` (trs_iter_mut.rs 150-172) have
the effect of the checked setters on an existing transition. -/
def projectTr (ty : ProjectType) (f : Fst W) (s : StateId) (i : Nat) : Fst W :=
  match (f.trsOf s)[i]? with
  | none => f
  | some t =>
    match ty with
    | .projectInput => (f.setOlabelR s i t.ilabel).1
    | .projectOutput => (f.setIlabelR s i t.olabel).1

/-- `project` (projection.rs 65-93). -/
def project (f : Fst W) (ty : ProjectType) : Fst W :=
  (forStates (forTrs (projectTr ty)) f).setPropsMask (Props.project f.props ty) Props.allMask

/-! ## Sorting and merging transitions -/

end weights

/-- The two shipped comparators (tr_sort.rs 14-47). -/
inductive SortSide where
  | ilabel
  | olabel
deriving DecidableEq

/-- `TrCompare::compare(a, b) != Greater` of the comparator (tr_sort.rs 17-19, 35-37). -/
def SortSide.le : SortSide → Tr W → Tr W → Bool
  | .ilabel => ilabelLe
  | .olabel => olabelLe

/-- `TrCompare::properties` of the comparator (tr_sort.rs 21-28, 39-46). -/
def SortSide.props (p : Props) : SortSide → Props
  | .ilabel => Props.setIf (p.has .acceptor) ((p.and Props.arcsortMask).set .iLabelSorted) .oLabelSorted
  | .olabel => Props.setIf (p.has .acceptor) ((p.and Props.arcsortMask).set .oLabelSorted) .iLabelSorted

/-- `tr_sort` (tr_sort.rs 51-62). -/
def trSort (f : Fst W) (c : SortSide) : Fst W :=
  ((List.range f.numStates).foldl (fun f s => f.sortTrs s c.le) f).setPropsMask (c.props f.props) Props.allMask

/-- `tr_sum` (tr_sum.rs 7-22). -/
def trSum [Add W] (f : Fst W) : Fst W :=
  let g := (List.range f.numStates).foldl (fun f s => f.sumTrs s) f
  let o := ((f.props.and Props.arcsortMask).and Props.deleteArcsMask).and Props.weightInvariantMask
  g.setPropsMask (if g.numStates = 0 then o.or Props.nullMask else o) Props.allMask

/-- `tr_unique` (tr_unique.rs 38-51). -/
def trUnique [DecidableEq W] (f : Fst W) : Fst W :=
  let g := (List.range f.numStates).foldl (fun f s => f.uniqueTrs s) f
  let o := (f.props.and Props.arcsortMask).and Props.deleteArcsMask
  g.setPropsMask (if g.numStates = 0 then o.or Props.nullMask else o) Props.allMask

section weights
variable [Zero W] [One W] [DecidableEq W]

/-! ## Union, concatenation, closure -/

/-- A transition with its target shifted (`new_tr.nextstate += numstates1`). -/
def shiftTr (n : Nat) (t : Tr W) : Tr W := { t with nextstate := t.nextstate + n }

/-- Body of the copy loop for state `s2` of `g` (union_static.rs 74-84, concat_static.rs 69-79). `n1` is `numstates1`. -/
def appendState (n1 : Nat) (g : Fst W) (f : Fst W) (s2 : StateId) : Fst W :=
  let s1 := f.numStates
  let f := f.addState
  let f := match g.finOf s2 with
    | some w => f.setFinal s1 w
    | none => f
  (g.trsOf s2).foldl (fun f t => f.addTr s1 (shiftTr n1 t)) f

/-- The copy loop (union_static.rs 73-85, concat_static.rs 68-80): appends the states of `g` to `f`. -/
def appendFst (f g : Fst W) : Fst W :=
  (List.range g.numStates).foldl (appendState f.numStates g) f

/-- An ε-transition. -/
def epsTr (w : W) (q : StateId) : Tr W := ⟨EPS, EPS, w, q⟩

/-- `union` (union_static.rs 56-119) after its first statement: `ia` is `initial_acyclic_1` and `f` already carries the
updated flags. -/
def unionWith (ia : Bool) (f g : Fst W) : Fst W :=
  match g.start with
  | none => f
  | some start2 =>
    let n1 := f.numStates
    let h := f.appendFst g
    match h.start with
    | none => (h.setStart start2).setPropsMask g.props Props.copyMask
    | some start1 =>
      let h := if ia then h.addTr start1 (epsTr 1 (start2 + n1))
        else
          let ns := h.numStates
          ((h.addState.setStart ns).addTr ns (epsTr 1 start1)).addTr ns (epsTr 1 (start2 + n1))
      h.setPropsMask (Props.union f.props g.props false) Props.allMask

/-- Body of loop 83-101 of `concat`. -/
def concatState (start2 : Option StateId) (n1 : Nat) (f : Fst W) (s1 : StateId) : Fst W :=
  match f.finOf s1 with
  | none => f
  | some w =>
    (match start2 with
      | some s2 => f.addTr s1 (epsTr w (s2 + n1))
      | none => f).delFinal s1

/-- `concat` (concat_static.rs 53-109). -/
def concat (f g : Fst W) : Fst W :=
  match f.start with
  | none => f
  | some _ =>
    let n1 := f.numStates
    let h := f.appendFst g
    let h := (List.range n1).foldl (concatState g.start n1) h
    match g.start with
    | none => h
    | some _ => h.setPropsMask (Props.concat f.props g.props false) Props.allMask

/-- `ClosureType` (closure/mod.rs). -/
inductive ClosureType where
  | star
  | plus
deriving DecidableEq

/-- `final_states_iter` zipped with the final weights (fst_traits/final_states_iterator.rs 22-32, closure_static.rs 34-37). -/
def finals (f : Fst W) : List (StateId × W) :=
  (List.range f.numStates).filterMap fun s => (f.finOf s).map fun w => (s, w)

/-- Lines 33-46 of `closure`: a back transition from every final state. -/
def closeLoops (f : Fst W) : Fst W :=
  match f.start with
  | none => f
  | some s => f.finals.foldl (fun g p => g.addTr p.1 (epsTr p.2 s)) f

/-- `closure` (closure_static.rs 27-71). -/
def closure (f : Fst W) (ty : ClosureType) : Fst W :=
  let g := f.closeLoops
  let g := match ty with
    | .plus => g
    | .star =>
      let ns := g.numStates
      let h := g.addState
      let h := match h.start with
        | some s => h.addTr ns (epsTr 1 s)
        | none => h
      (h.setStart ns).setFinal ns 1
  g.setPropsMask (Props.closure f.props false) Props.allMask

/-! ## Reversal -/

/-- Lines 67-70 of `reverse`: push the reversed transition `t` of state `is` on `states_trs[t.nextstate + 1]`. -/
def revPush {V : Type v} (rev : W → V) (is : StateId) (bs : List (List (Tr V))) (t : Tr W) : List (List (Tr V)) :=
  bs.modify (t.nextstate + 1) (· ++ [⟨t.ilabel, t.olabel, rev t.weight, is + 1⟩])

/-- Body of loop 55-72 of `reverse` on `(ofst, states_trs)`. -/
def revState {V : Type v} [Zero V] [One V] [DecidableEq V] (rev : W → V) (f : Fst W)
    (a : Fst V × List (List (Tr V))) (is : StateId) : Fst V × List (List (Tr V)) :=
  let o := if f.start = some is then a.1.setFinal (is + 1) 1 else a.1
  let bs := match f.finOf is with
    | some w => a.2.modify 0 (· ++ [⟨EPS, EPS, rev w, is + 1⟩])
    | none => a.2
  (o, (f.trsOf is).foldl (revPush rev is) bs)

/-- `reverse` (reverse.rs 33-87). `rev` is `Semiring::reverse`, which never fails in the shipped semirings. The counting loop
46-51 indexes `c_trs[nextstate + 1]` and panics on a missing target; later accesses are then in range. -/
def reverse {V : Type v} [Zero V] [One V] [DecidableEq V] (rev : W → V) (f : Fst W) : R (Fst V) :=
  if f.states.all (fun st => st.trs.all fun t => t.nextstate < f.numStates) then
    let o : Fst V := (Fst.new.addState).addStates f.numStates
    let r := (List.range f.numStates).foldl (revState rev f) (o, List.replicate (f.numStates + 1) [])
    let o := (r.2.zipIdx).foldl (fun o (p : List (Tr V) × Nat) => o.setTrs p.2 p.1) r.1
    let o := o.setStart 0
    .ok (o.setPropsMask ((Props.reverse f.props true).or o.props) Props.allMask)
  else .error .panic

/-! ## Renumbering the states -/

/-- The renumbered transition (state_sort.rs 63-65): `order[tr.nextstate]` panics out of range. -/
def renumTr (order : List StateId) (t : Tr W) : R (Tr W) :=
  match order[t.nextstate]? with
  | none => .error .panic
  | some q => .ok { t with nextstate := q }

/-- Loop 62-67 of `state_sort`: `add_tr(s2, …)?` for every transition. -/
def addRenumbered (order : List StateId) (s2 : StateId) : Fst W → List (Tr W) → R (Fst W)
  | f, [] => .ok f
  | f, t :: ts =>
    match renumTr order t with
    | .error e => .error e
    | .ok t' => if s2 < f.numStates then addRenumbered order s2 (f.addTr s2 t') ts else .error .err

/-- Lines 57-60 of `state_sort`: set or delete the final weight. -/
def putFinal (f : Fst W) (s : StateId) : Option W → Fst W
  | none => f.delFinal s
  | some v => f.setFinal s v

/-- `while` loop 51-74 of `state_sort`. The first argument bounds the number of iterations (each iteration marks a new
state, so `order.len() + 1` suffices; see `stateSort_ok`); running out of it counts as a failure. -/
def sortCycle (order : List StateId) :
    Nat → Fst W → List Bool → StateId → Option W → Option W → List (Tr W) → List (Tr W) → R (Fst W × List Bool)
  | 0, _, _, _, _, _, _, _ => .error .panic
  | k + 1, f, done, s1, fin1, fin2, trsa, trsb =>
    match done[s1]? with
    | none => .error .panic
    | some true => .ok (f, done)
    | some false =>
      match order[s1]? with
      | none => .error .panic
      | some s2 =>
        match done[s2]? with
        | none => .error .panic
        | some d2 =>
          let fin2 := if d2 then fin2 else f.finOf s2
          let trsb := if d2 then trsb else f.trsOf s2
          if s2 < f.numStates then
            match addRenumbered order s2 ((f.putFinal s2 fin1).delTrs s2) trsa with
            | .error e => .error e
            | .ok g => sortCycle order k g (done.set s1 true) s2 fin2 fin2 trsb trsa
          else .error .err

/-- Body of the outer loop 43-75 of `state_sort`. -/
def sortFrom (order : List StateId) (a : R (Fst W × List Bool)) (s1 : StateId) : R (Fst W × List Bool) :=
  match a with
  | .error e => .error e
  | .ok (f, done) =>
    match done[s1]? with
    | none => .error .panic
    | some true => .ok (f, done)
    | some false => sortCycle order (order.length + 1) f done s1 (f.finOf s1) none (f.trsOf s1) []

/-- `state_sort` (state_sort.rs 21-80). `properties_with_mask` is `properties & mask`. -/
def stateSort (f : Fst W) (order : List StateId) : R (Fst W) :=
  if order.length ≠ f.numStates then .error .err
  else match f.start with
    | none => .ok f
    | some st =>
      match order[st]? with
      | none => .error .panic
      | some st' =>
        if st' < f.numStates then
          match (List.range f.numStates).foldl (sortFrom order)
              (.ok (f.setStart st', List.replicate order.length false)) with
          | .error e => .error e
          | .ok (g, _) => .ok (g.setPropsMask (f.props.and Props.statesortMask) Props.allMask)
        else .error .err

end weights
end Fst
end Verif
