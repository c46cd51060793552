import Verif.Model.SymTable
import Verif.Model.TrMap
import Verif.Model.Paths

/-!
# FSTs with symbol tables: `relabel_tables` and `string_paths_iter`

`VectorFst` carries two optional symbol tables (vector_fst/data_structure.rs 25-31) that the other models leave out. `Arc`s are the
tables they point to.
-/

namespace Verif
universe u
variable {W : Type u}

/-- An FST with its attached symbol tables (vector_fst/data_structure.rs 25-31). -/
structure SymFst (W : Type u) where
  fst : Fst W
  isymt : Option SymTable
  osymt : Option SymTable

/-- Run a fallible step for every element of a list and stop at the first failure. The FST changed so far is kept: this is `?` in a
`for` loop over `&mut self`. -/
def tryEach {β : Type} (step : Fst W → β → Fst W × R Unit) : List β → Fst W → Fst W × R Unit
  | [], f => (f, .ok ())
  | b :: l, f =>
    match step f b with
    | (g, .ok ()) => tryEach step l g
    | (g, .error e) => (g, .error e)

/-- The label that the new table gives to the symbol of `l` in the old table (mutable_fst.rs 507-513, 515-527). `none`: one of the two
look-ups fails. -/
def newLabel (old new : SymTable) (l : Label) : Option Label :=
  match old.getSymbol l with
  | none => none
  | some x => new.getLabel x

section
variable [Zero W] [One W]

/-- The body of the inner loop (mutable_fst.rs 503-531), for transition `i` of state `s`. Both look-ups happen before the transition is
touched. `trs.get(i).unwrap()` panics on a missing index. -/
def relabelTablesTr (mi mo : Label → Option Label) (f : Fst W) (s : StateId) (i : Nat) : Fst W × R Unit :=
  match (f.trsOf s)[i]? with
  | none => (f, .error .panic)
  | some t =>
    match mi t.ilabel with
    | none => (f, .error .err)
    | some a =>
      match mo t.olabel with
      | none => (f, .error .err)
      | some b =>
        match f.setIlabelR s i a with
        | (g, .error e) => (g, .error e)
        | (g, .ok ()) => g.setOlabelR s i b

/-- The loop over the transitions of one state (mutable_fst.rs 500-532). The state exists, so `tr_iter_mut` succeeds. -/
def relabelTablesSt (mi mo : Label → Option Label) (f : Fst W) (s : StateId) : Fst W × R Unit :=
  tryEach (fun f i => relabelTablesTr mi mo f s i) (List.range (f.trsOf s).length) f

/-- `relabel_tables` (mutable_fst.rs 477-545). -/
def SymFst.relabelTables (x : SymFst W) (oldI : Option SymTable) (newI : SymTable) (attachI : Bool) (oldO : Option SymTable)
    (newO : SymTable) (attachO : Bool) : SymFst W × R Unit :=
  match oldI.or x.isymt with
  | none => (x, .error .err)
  | some oi =>
    match oldO.or x.osymt with
    | none => (x, .error .err)
    | some oo =>
      match tryEach (relabelTablesSt (newLabel oi newI) (newLabel oo newO)) (List.range x.fst.numStates) x.fst with
      | (g, .error e) => ({ x with fst := g }, .error e)
      | (g, .ok ()) => (⟨g, if attachI then some newI else none, if attachO then some newO else none⟩, .ok ())
end

/-! ## Paths with their strings -/

/-- `StringPath` (string_path.rs 7-11). -/
structure StringPath (W : Type u) where
  path : FstPath W
  isymt : SymTable
  osymt : SymTable

/-- The symbols of a list of labels, or an error for the first one that the table lacks (string_path.rs 36-46, 52-62). -/
def symbolsOf (t : SymTable) : List Label → R (List String)
  | [] => .ok []
  | l :: ls =>
    match t.getSymbol l with
    | none => .error .err
    | some x =>
      match symbolsOf t ls with
      | .error e => .error e
      | .ok xs => .ok (x :: xs)

/-- `res?.join(" ")` (string_path.rs 47-48, 63-64). -/
def spellLabels (t : SymTable) (ls : List Label) : R String :=
  match symbolsOf t ls with
  | .error e => .error e
  | .ok xs => .ok (String.intercalate " " xs)

/-- `StringPath::istring` (string_path.rs 34-49). -/
def StringPath.istring (p : StringPath W) : R String := spellLabels p.isymt p.path.ilabels
/-- `StringPath::ostring` (string_path.rs 51-66). -/
def StringPath.ostring (p : StringPath W) : R String := spellLabels p.osymt p.path.olabels

/-- `StringPathsIterator` (string_paths_iterator.rs 9-17). -/
structure StringPaths (W : Type u) where
  isymt : SymTable
  osymt : SymTable
  queue : Fst.PathQueue W

/-- `StringPathsIterator::new` (string_paths_iterator.rs 24-38) and `string_paths_iter` (fst.rs). -/
def SymFst.stringPathsIter [One W] (x : SymFst W) : R (StringPaths W) :=
  match x.isymt with
  | none => .error .err
  | some i =>
    match x.osymt with
    | none => .error .err
    | some o => .ok ⟨i, o, x.fst.pathsIter⟩

/-- `StringPathsIterator::next` (string_paths_iterator.rs 48-53); fuel as in `Fst.nextPath`. -/
def StringPaths.next [Mul W] (f : Fst W) (fuel : Nat) (it : StringPaths W) : Option (Option (StringPath W) × StringPaths W) :=
  match f.nextPath fuel it.queue with
  | none => none
  | some (r, q) => some (r.map fun p => ⟨p, it.isymt, it.osymt⟩, { it with queue := q })

/-- The results of `k` calls of `next`. -/
def StringPaths.nexts [Mul W] (f : Fst W) (fuel : Nat) : Nat → StringPaths W → Option (List (Option (StringPath W)))
  | 0, _ => some []
  | k + 1, it =>
    match it.next f fuel with
    | none => none
    | some (r, it) =>
      match StringPaths.nexts f fuel k it with
      | none => none
      | some l => some (r :: l)

end Verif
