import Verif.Model.VectorFst

/-!
# Paths: `FstPath`, the path iterator, `check_path_in_fst`, linear FSTs
(`fst_path.rs`, `fst_traits/paths_iterator.rs`, `utils/{labels_to_fst,fst_to_labels,epsilon_machine}.rs`)
-/

namespace Verif
universe u
variable {W : Type u}

/-- `FstPath` (fst_path.rs 13-20). -/
structure FstPath (W : Type u) where
  ilabels : List Label
  olabels : List Label
  weight : W
deriving DecidableEq

namespace FstPath
section
variable [Mul W]

/-- `if label != EPS_LABEL { labels.push(label) }` (fst_path.rs 36-42). -/
def pushLabel (l : List Label) (a : Label) : List Label := if a ≠ EPS then l ++ [a] else l

/-- `FstPath::add_to_path` (fst_path.rs 35-45). -/
def addToPath (p : FstPath W) (i o : Label) (w : W) : FstPath W := ⟨pushLabel p.ilabels i, pushLabel p.olabels o, p.weight * w⟩

/-- `FstPath::add_weight` (fst_path.rs 48-50). -/
def addWeight (p : FstPath W) (w : W) : FstPath W := { p with weight := p.weight * w }

/-- `FstPath::concat` (fst_path.rs 53-57). -/
def concat (p q : FstPath W) : FstPath W := ⟨p.ilabels ++ q.ilabels, p.olabels ++ q.olabels, p.weight * q.weight⟩
end

variable [One W]

/-- `FstPath::default` (fst_path.rs 64-73). -/
def default : FstPath W := ⟨[], [], 1⟩

/-- `FstPath::is_empty` (fst_path.rs 59-61). -/
def isEmpty [DecidableEq W] (p : FstPath W) : Bool := p.ilabels.isEmpty && p.olabels.isEmpty && decide (p.weight = 1)

end FstPath

namespace Fst

/-! ## The iterator -/

section
variable [Mul W]

/-- The queue of the iterator (paths_iterator.rs 15). -/
abbrev PathQueue (W : Type u) := List (StateId × FstPath W)

/-- The queue entries pushed for the transitions of a state (paths_iterator.rs 45-51). -/
def pathExts (f : Fst W) (s : StateId) (p : FstPath W) : PathQueue W :=
  (f.trsOf s).map fun t => (t.nextstate, p.addToPath t.ilabel t.olabel t.weight)

/-- `PathsIterator::next` (paths_iterator.rs 41-61). `fuel` bounds the turns of the `while` loop; `none` when it is not enough. The
`_unchecked` accesses are undefined for states that do not exist; here these have no transitions. -/
def nextPath (f : Fst W) : Nat → PathQueue W → Option (Option (FstPath W) × PathQueue W)
  | _, [] => some (none, [])
  | 0, _ :: _ => none
  | n + 1, (s, p) :: q =>
    match f.finOf s with
    | some w => some (some (p.addWeight w), q ++ f.pathExts s p)
    | none => f.nextPath n (q ++ f.pathExts s p)

/-- The results of `k` calls of `next`. -/
def nextPaths (f : Fst W) (fuel : Nat) : Nat → PathQueue W → Option (List (Option (FstPath W)) × PathQueue W)
  | 0, q => some ([], q)
  | k + 1, q =>
    match f.nextPath fuel q with
    | none => none
    | some (r, q) =>
      match f.nextPaths fuel k q with
      | none => none
      | some (l, q) => some (r :: l, q)

/-- `PathsIterator::new` (paths_iterator.rs 23-31). -/
def pathsIter [One W] (f : Fst W) : PathQueue W :=
  match f.start with
  | none => []
  | some s => [(s, FstPath.default)]

/-- `decode_linear_fst` (fst_to_labels.rs 29-36). -/
def decodeLinear [One W] (f : Fst W) (fuel : Nat) : Option (R (FstPath W)) :=
  match f.nextPath fuel f.pathsIter with
  | none => none
  | some (p, q) =>
    match f.nextPath fuel q with
    | none => none
    | some (some _, _) => some (.error .err)
    | some (none, _) => some (.ok (p.getD FstPath.default))
end

/-! ## Builders -/

section
variable [Zero W] [One W] [DecidableEq W]

/-- The loop body of `transducer` and `acceptor` (labels_to_fst.rs 56-67, 118-125): a new state after `state_cour`. -/
def addLinear (a : Fst W × StateId) (io : Label × Label) : Fst W × StateId :=
  let n := a.1.numStates
  (a.1.addState.addTr a.2 ⟨io.1, io.2, 1, n⟩, n)

/-- `transducer` (labels_to_fst.rs 43-73). -/
def transducer (li lo : List Label) (w : W) : Fst W :=
  let f := (Fst.new.addState).setStart 0
  let a := ((List.range (max li.length lo.length)).map fun k => (li[k]?.getD 0, lo[k]?.getD 0)).foldl addLinear (f, 0)
  a.1.setFinal a.2 w

/-- `acceptor` (labels_to_fst.rs 111-131). -/
def acceptor (l : List Label) (w : W) : Fst W :=
  let f := (Fst.new.addState).setStart 0
  let a := (l.map fun x => (x, x)).foldl addLinear (f, 0)
  a.1.setFinal a.2 w

/-- `epsilon_machine` (epsilon_machine.rs 6-12). -/
def epsilonMachine : Fst W := ((Fst.new.addState).setStart 0).setFinal 0 1

end

/-! ## `check_path_in_fst` -/

section
variable [One W] [Mul W] [DecidableEq W]

/-- `BfsState` (fst_path.rs 84-89). -/
structure Bfs (W : Type u) where
  state : StateId
  weight : W
  inext : Nat
  onext : Nat

/-- `v[i]`: panics outside the vector. -/
def index {α : Type} (v : List α) (i : Nat) : R α :=
  match v[i]? with
  | none => .error .panic
  | some a => .ok a

/-- `next_olabel_idx < olabels.len() && tr.olabel == olabels[next_ilabel_idx]` (fst_path.rs 128-129). The index is that of the input
labels. -/
def matchOlabel (p : FstPath W) (b : Bfs W) (t : Tr W) : R Bool :=
  if b.onext < p.olabels.length then
    match index p.olabels b.inext with
    | .error x => .error x
    | .ok l => .ok (decide (t.olabel = l))
  else .ok false

/-- `next_ilabel_idx < ilabels.len() && tr.ilabel == ilabels[next_ilabel_idx]` (fst_path.rs 126-127). -/
def matchIlabel (p : FstPath W) (b : Bfs W) (t : Tr W) : Bool := p.ilabels[b.inext]? == some t.ilabel

/-- The body of the `for` loop (fst_path.rs 126-157): the entry pushed, if any. -/
def checkTr (p : FstPath W) (b : Bfs W) (t : Tr W) : R (Option (Bfs W)) :=
  match matchOlabel p b t with
  | .error x => .error x
  | .ok mo =>
    let mi := matchIlabel p b t
    let push := fun i o => .ok (some ⟨t.nextstate, b.weight * t.weight, i, o⟩)
    if t.ilabel = EPS ∧ t.olabel = EPS then push b.inext b.onext
    else if t.ilabel ≠ EPS ∧ t.olabel = EPS then if mi then push (b.inext + 1) b.onext else .ok none
    else if t.ilabel = EPS ∧ t.olabel ≠ EPS then if mo then push b.inext (b.onext + 1) else .ok none
    else if mi && mo then push (b.inext + 1) (b.onext + 1) else .ok none

/-- The `for` loop (fst_path.rs 125-158). -/
def checkTrs (p : FstPath W) (b : Bfs W) : List (Tr W) → R (List (Bfs W))
  | [] => .ok []
  | t :: l =>
    match checkTr p b t with
    | .error x => .error x
    | .ok e =>
      match checkTrs p b l with
      | .error x => .error x
      | .ok es => .ok (e.toList ++ es)

/-- The test for the end of a path (fst_path.rs 114-123). -/
def checkEnd (f : Fst W) (p : FstPath W) (b : Bfs W) : Bool :=
  decide (p.ilabels.length ≤ b.inext) && decide (p.olabels.length ≤ b.onext) &&
    match f.finOf b.state with
    | some w => decide (b.weight * w = p.weight)
    | none => false

/-- The `while` loop (fst_path.rs 107-161). -/
def checkLoop (f : Fst W) (p : FstPath W) : Nat → List (Bfs W) → Option (R Bool)
  | _, [] => some (.ok false)
  | 0, _ :: _ => none
  | n + 1, b :: q =>
    if f.checkEnd p b then some (.ok true)
    else
      match checkTrs p b (f.trsOf b.state) with
      | .error x => some (.error x)
      | .ok es => f.checkLoop p n (q ++ es)

/-- `check_path_in_fst` (fst_path.rs 97-166). -/
def checkPath (f : Fst W) (p : FstPath W) (fuel : Nat) : Option (R Bool) :=
  match f.start with
  | none => some (.ok p.isEmpty)
  | some s => f.checkLoop p fuel [⟨s, 1, 0, 0⟩]

end
end Fst
end Verif
