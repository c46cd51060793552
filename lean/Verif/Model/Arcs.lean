import Verif.Model.History
import Verif.Model.BinFst

/-!
# Shared transition lists (`trs.rs`, and every use of `Arc` in `vector_fst/*.rs`, `const_fst/*.rs`)

Everywhere else in this development an FST is a value. In the code the transitions of a state live behind an
`Arc<Vec<Tr>>`: `get_trs` hands out a second pointer to the same vector, and the mutators go through `Arc::make_mut`, which
writes in place when the pointer is the only one and copies otherwise. Here the memory is explicit: cells with a
reference count, objects that hold pointers into it, and the program's calls as steps.

Capacities, weak pointers and symbol table pointers are left out. A freed cell is emptied and never reused.
-/

namespace Verif.Arcs
universe u
variable {W : Type u}

/-! ## The memory -/

/-- What an `Arc<Vec<Tr<W>>>` points to: the strong count and the vector. -/
structure Cell (W : Type u) where
  count : Nat
  val : List (Tr W)
deriving DecidableEq, Repr

/-- All cells ever allocated; a pointer is a position in the list. -/
abbrev Mem (W : Type u) := List (Cell W)

namespace Mem

/-- `Arc::strong_count`; `0` for what was never allocated. -/
def count (m : Mem W) (a : Nat) : Nat :=
  match m[a]? with
  | some c => c.count
  | none => 0

/-- Dereference a pointer. -/
def read (m : Mem W) (a : Nat) : List (Tr W) :=
  match m[a]? with
  | some c => c.val
  | none => []

/-- `Arc::new(v)` (trs.rs 43-45, 57-59, 62-66). -/
def alloc (m : Mem W) (v : List (Tr W)) : Mem W × Nat := (m ++ [⟨1, v⟩], m.length)

/-- `Arc::clone(&a)` (trs.rs 24-26, 79-81): one more pointer to the same vector. -/
def share (m : Mem W) (a : Nat) : Mem W := m.modify a fun c => { c with count := c.count + 1 }

/-- Dropping a pointer: the vector is freed with the last one. -/
def release (m : Mem W) (a : Nat) : Mem W :=
  m.modify a fun c => if c.count ≤ 1 then ⟨0, []⟩ else { c with count := c.count - 1 }

/-- Assign through a `&mut Vec`. -/
def write (m : Mem W) (a : Nat) (v : List (Tr W)) : Mem W := m.modify a fun c => { c with val := v }

/-- `Arc::make_mut(&mut a)`: the pointer itself when it is the only one, else a pointer to a fresh copy that replaces it. -/
def makeMut (m : Mem W) (a : Nat) : Mem W × Nat :=
  if m.count a = 1 then (m, a)
  else
    let r := m.alloc (m.read a)
    (r.1.release a, r.2)

/-- `Arc::make_mut(&mut a)` followed by a change of the vector. -/
def update (m : Mem W) (a : Nat) (g : List (Tr W) → List (Tr W)) : Mem W × Nat :=
  let r := m.makeMut a
  (r.1.write r.2 (g (r.1.read r.2)), r.2)

end Mem

/-! ## `VectorFst` over the memory -/

/-- `VectorFstState` (data_structure.rs 28-34), with the pointer. -/
structure AState (W : Type u) where
  fin : Option W
  arc : Nat
  niepsilons : Nat
  noepsilons : Nat
deriving DecidableEq, Repr

/-- `VectorFst` (data_structure.rs 15-22). -/
structure AFst (W : Type u) where
  states : List (AState W)
  start : Option StateId
  props : Props

/-- What the state looks like to a reader. -/
def AState.view (m : Mem W) (st : AState W) : State W := ⟨st.fin, m.read st.arc, st.niepsilons, st.noepsilons⟩

/-- What the FST looks like to a reader. -/
def AFst.view (m : Mem W) (f : AFst W) : Fst W := ⟨f.states.map (·.view m), f.start, f.props⟩

namespace AFst

/-- Go through `Arc::make_mut(&mut state.trs.0)` and change transitions, final weight and counters of state `s`. -/
def onSt (m : Mem W) (f : AFst W) (s : StateId) (g : State W → State W) : Mem W × AFst W :=
  match f.states[s]? with
  | none => (m, f)
  | some st =>
    let r := m.update st.arc fun v => (g ⟨st.fin, v, st.niepsilons, st.noepsilons⟩).trs
    let st' := g (st.view m)
    (r.1, { f with states := f.states.set s ⟨st'.fin, r.2, st'.niepsilons, st'.noepsilons⟩ })

/-- Change the final weight of `s`; the pointer stays. -/
def onFin (f : AFst W) (s : StateId) (w : Option W) : AFst W :=
  { f with states := f.states.modify s fun st => { st with fin := w } }

/-- The final weight of `s`. -/
def finOf (f : AFst W) (s : StateId) : Option W :=
  match f.states[s]? with
  | some st => st.fin
  | none => none

/-- `VectorFstState::new` `n` times (data_structure.rs 55-62; mutable_fst.rs 80-91): a fresh empty vector for each. -/
def newStates (m : Mem W) : Nat → Mem W × List (AState W)
  | 0 => (m, [])
  | n + 1 =>
    let r := m.alloc []
    let q := newStates r.1 n
    (q.1, ⟨none, r.2, 0, 0⟩ :: q.2)

/-- Drop states: their pointers go. -/
def dropStates (m : Mem W) : List (AState W) → Mem W
  | [] => m
  | st :: sts => dropStates (m.release st.arc) sts

/-- Loop 141-149 of `del_states`: the states are swapped with their pointers. -/
def compact : List Int → Nat → Nat → List (AState W) → List Int × List (AState W) × Nat
  | [], _, ns, sts => ([], sts, ns)
  | x :: todo, s, ns, sts =>
    if x ≠ -1 then
      let sts' := if s ≠ ns then swapAt sts ns s else sts
      let r := compact todo (s + 1) (ns + 1) sts'
      ((ns : Int) :: r.1, r.2)
    else
      let r := compact todo (s + 1) ns sts
      (x :: r.1, r.2)

/-- Loop 153-175 of `del_states`: `make_mut` on each state, then renaming and removing. -/
def renameSts (newId : List Int) (m : Mem W) : List (AState W) → R (Mem W × List (AState W))
  | [] => .ok (m, [])
  | st :: sts =>
    match Fst.renameSt newId (m.read st.arc) st.niepsilons st.noepsilons with
    | .error e => .error e
    | .ok (ts, ni, no) =>
      let r := m.update st.arc fun _ => ts
      match renameSts newId r.1 sts with
      | .error e => .error e
      | .ok (m', sts') => .ok (m', ⟨st.fin, r.2, ni, no⟩ :: sts')

/-- `del_states` (mutable_fst.rs 132-189). -/
def delStates (m : Mem W) (f : AFst W) (ds : List StateId) : R (Mem W × AFst W) :=
  match Fst.markDeleted f.states.length ds with
  | .error e => .error e
  | .ok marks =>
    let r := compact marks 0 0 f.states
    let m' := dropStates m (r.2.1.drop r.2.2)
    match renameSts r.1 m' (r.2.1.take r.2.2) with
    | .error e => .error e
    | .ok (m'', sts) =>
      match Fst.renameStart r.1 f.start with
      | .error e => .error e
      | .ok st => .ok (m'', ⟨sts, st, Props.deleteStates f.props⟩)

/-- Loop 204-212 of `del_trs_id_sorted_unchecked`: each `trs.remove(i)` goes through `make_mut` (trs.rs 30-32). -/
def delTrIdx (m : Mem W) (st : AState W) : List Nat → R (Mem W × AState W)
  | [] => .ok (m, st)
  | i :: is =>
    match delTrIdx m st is with
    | .error e => .error e
    | .ok (m', st') =>
      match (m'.read st'.arc)[i]? with
      | none => .error .panic
      | some t =>
        let r := m'.update st'.arc fun v => v.eraseIdx i
        .ok (r.1, ⟨st'.fin, r.2,
          if t.ilabel = EPS then st'.niepsilons - 1 else st'.niepsilons,
          if t.olabel = EPS then st'.noepsilons - 1 else st'.noepsilons⟩)

/-- `tr_iter_mut(s)?` (mutable_fst.rs 93-105), then a `set_*` method of `TrsIterMut` on transition `idx`: `k` gives the new
transition, the changes of the counters and the new flags; `p0` are the flags when there is no such transition. -/
def editTr (m : Mem W) (f : AFst W) (s : StateId) (idx : Nat) (p0 : Props)
    (k : Tr W → Tr W × (Nat → Nat) × (Nat → Nat) × Props) : Mem W × AFst W × Bool :=
  match f.states[s]? with
  | none => (m, f, false)
  | some st =>
    match (m.read st.arc)[idx]? with
    | none =>
      let r := m.update st.arc id
      (r.1, { f with states := f.states.set s { st with arc := r.2 }, props := p0 }, false)
    | some t =>
      let r := m.update st.arc fun v => v.set idx (k t).1
      (r.1, { f with
        states := f.states.set s ⟨st.fin, r.2, (k t).2.1 st.niepsilons, (k t).2.2.1 st.noepsilons⟩
        props := (k t).2.2.2 }, true)

/-- `set_final` and its kin on an existing state, an error otherwise. -/
def checked (f : AFst W) (s : StateId) (x : Mem W × AFst W) (m : Mem W) : Option (Mem W × AFst W × Bool) :=
  if s < f.states.length then some (x.1, x.2, true) else some (m, f, false)

variable [Zero W] [One W] [Add W] [DecidableEq W]

/-- One call of the `MutableFst` API (mutable_fst.rs): memory and FST afterwards and whether it returned `Ok`. `none` as in `step`. -/
def call (m : Mem W) (f : AFst W) : Op W → Option (Mem W × AFst W × Bool)
  | .setStart s => f.checked s (m, { f with start := some s, props := Props.setStart f.props }) m
  | .setFinal s w =>
    f.checked s (m, { f.onFin s (some w) with props := Props.setFinal f.props (f.finOf s) (some w) }) m
  | .delFinal s => f.checked s (m, { f.onFin s none with props := Props.setFinal f.props (f.finOf s) none }) m
  | .takeFinal s => f.checked s (m, { f.onFin s none with props := Props.setFinal f.props (f.finOf s) none }) m
  | .addState =>
    let r := newStates m 1
    some (r.1, { f with states := f.states ++ r.2, props := Props.addState f.props }, true)
  | .addStates n =>
    let r := newStates m n
    some (r.1, { f with states := f.states ++ r.2, props := Props.addState f.props }, true)
  | .addTr s t =>
    let r := f.onSt m s (fun st => Fst.State.pushTr st t)
    f.checked s (r.1, { r.2 with props := Props.addTr f.props s t ((f.view m).trsOf s).getLast? }) m
  | .delTrs s =>
    let r := f.onSt m s (fun st => { st with trs := [], niepsilons := 0, noepsilons := 0 })
    f.checked s (r.1, { r.2 with props := Props.deleteTrs f.props }) m
  | .popTrs s =>
    let r := f.onSt m s (fun st => { st with trs := [], niepsilons := 0, noepsilons := 0 })
    f.checked s (r.1, { r.2 with props := Props.deleteTrs f.props }) m
  | .delState s =>
    if s < f.states.length then
      match { f with props := Props.deleteStates f.props }.delStates m [s] with
      | .ok (m', g) => some (m', g, true)
      | .error .err => some (m, f, false)
      | .error .panic => none
    else some (m, f, false)
  | .delStates ds =>
    match f.delStates m ds with
    | .ok (m', g) => some (m', g, true)
    | .error .err => some (m, f, false)
    | .error .panic => none
  | .delAllStates => some (dropStates m f.states, ⟨[], none, Props.nullMask⟩, true)
  | .delTrsIdSorted s is =>
    match f.states[s]? with
    | none => none
    | some st =>
      match delTrIdx m st is with
      | .error _ => none
      | .ok (m', st') =>
        some (m', { f with
          states := f.states.set s st'
          props := if (m'.read st'.arc).length = 0 then Props.deleteTrs f.props
                   else f.props.and Props.delTrsIdMask }, true)
  | .setTrs s ts =>
    if s < f.states.length then
      let r := f.onSt m s (fun st => { st with
        trs := ts
        niepsilons := Fst.countEps (ts.map (·.ilabel))
        noepsilons := Fst.countEps (ts.map (·.olabel)) })
      some (r.1, { r.2 with props := Fst.foldAddTrProps f.props s none ts }, true)
    else none
  | .setIlabel s i l => some (f.editTr m s i f.props fun t =>
      ({ t with ilabel := l }, Fst.updEps t.ilabel l, id, Props.newLabels f.props t.ilabel t.olabel l t.olabel))
  | .setOlabel s i l => some (f.editTr m s i f.props fun t =>
      ({ t with olabel := l }, id, Fst.updEps t.olabel l, Props.newLabels f.props t.ilabel t.olabel t.ilabel l))
  | .setWeight s i w => some (f.editTr m s i f.props fun t =>
      ({ t with weight := w }, id, id, Props.newWeights f.props t.weight w))
  | .setNextstate s i q => some (f.editTr m s i (Props.keepRelevant f.props) fun t =>
      ({ t with nextstate := q }, id, id, Props.keepRelevant f.props))
  | .setTr s i t' => some (f.editTr m s i f.props fun t =>
      (t', Fst.updEps t.ilabel t'.ilabel, Fst.updEps t.olabel t'.olabel, Props.newAll f.props t t'))
  | .sortTrs s le =>
    if s < f.states.length then
      let r := f.onSt m s (fun st => { st with trs := sortTrsBy le st.trs })
      some (r.1, r.2, true)
    else none
  | .uniqueTrs s =>
    if s < f.states.length then
      let r := f.onSt m s Fst.uniqueSt
      some (r.1, r.2, true)
    else none
  | .sumTrs s =>
    if s < f.states.length then
      let r := f.onSt m s Fst.sumSt
      some (r.1, r.2, true)
    else none

end AFst

/-! ## The objects a program holds -/

/-- `ConstFst` (const_fst/data_structure.rs 8-16): one pointer for all transitions. -/
structure ACFst (W : Type u) where
  states : List (CState W)
  arc : Nat
  start : Option StateId
  props : Props

/-- An object held by the program. -/
inductive Obj (W : Type u) where
  /-- a `VectorFst` -/
  | fst (f : AFst W)
  /-- a `TrsVec` (trs.rs 11-12) -/
  | trs (a : Nat)
  /-- a `ConstFst` -/
  | cfst (c : ACFst W)
  /-- a `TrsConst` (trs.rs 67-72) -/
  | ctrs (a pos n : Nat)
  /-- moved away or dropped -/
  | gone

/-- The pointers an object holds. -/
def Obj.arcs : Obj W → List Nat
  | .fst f => f.states.map (·.arc)
  | .trs a => [a]
  | .cfst c => [c.arc]
  | .ctrs a _ _ => [a]
  | .gone => []

/-- What an object is to a program that knows nothing of pointers. -/
inductive Val (W : Type u) where
  | fst (f : Fst W)
  | trs (v : List (Tr W))
  | cfst (c : ConstFst W)
  | ctrs (v : List (Tr W)) (pos n : Nat)
  | gone

/-- What a reader of the object sees. -/
def Obj.view (m : Mem W) : Obj W → Val W
  | .fst f => .fst (f.view m)
  | .trs a => .trs (m.read a)
  | .cfst c => .cfst ⟨c.states, m.read c.arc, c.start, none, none, c.props⟩
  | .ctrs a pos n => .ctrs (m.read a) pos n
  | .gone => .gone

/-- Memory and objects. -/
structure World (W : Type u) where
  mem : Mem W
  objs : List (Obj W)

/-- Before the first call. -/
def World.init : World W := ⟨[], []⟩

/-- What a reader sees of the whole world. -/
def World.view (w : World W) : List (Val W) := w.objs.map (·.view w.mem)

/-- What a call gives back: success or failure, or the data of a consumed FST. -/
inductive Out (W : Type u) where
  | done (ok : Bool)
  | items (l : List (Option W × List (Tr W)))

/-- A call of the program. Objects are named by the position at which they were created. -/
inductive Act (W : Type u) where
  /-- `VectorFst::new()` -/
  | new
  /-- a mutator of a `VectorFst` -/
  | call (i : Nat) (op : Op W)
  /-- `clone()` of any object -/
  | clone (i : Nat)
  /-- `get_trs(s)` of an FST, keeping the result -/
  | getTrs (i : Nat) (s : StateId)
  /-- `shallow_clone()` of transitions -/
  | shallow (i : Nat)
  /-- `to_trs_vec()` of transitions -/
  | toVec (i : Nat)
  /-- `TrsVec::push` -/
  | push (i : Nat) (t : Tr W)
  /-- `TrsVec::remove` -/
  | remove (i : Nat) (k : Nat)
  /-- `TrsVec::clear` -/
  | clear (i : Nat)
  /-- `reserve_trs`, `shrink_to_fit_trs` -/
  | reserve (i : Nat) (s : StateId)
  /-- `ConstFst::from(fst)` -/
  | toConst (i : Nat)
  /-- `fst_into_iter()`, run to the end -/
  | intoIter (i : Nat)
  /-- the object goes out of scope -/
  | drop (i : Nat)

/-- The object a call may change; every other object is only looked at. -/
def Act.target : Act W → Option Nat
  | .call i _ => some i
  | .push i _ => some i
  | .remove i _ => some i
  | .clear i => some i
  | .reserve i _ => some i
  | .toConst i => some i
  | .intoIter i => some i
  | .drop i => some i
  | _ => none

/-- `VectorFstState::clone` for all states (`derive(Clone)`, data_structure.rs 14, 28) with `TrsVec::clone` (trs.rs 42-46), which copies the
vector. -/
def cloneStates (m : Mem W) : List (AState W) → Mem W × List (AState W)
  | [] => (m, [])
  | st :: sts =>
    let r := m.alloc (m.read st.arc)
    let q := cloneStates r.1 sts
    (q.1, { st with arc := r.2 } :: q.2)

/-- Take the vectors out of the states one after the other: `make_mut` and `drain(..)` (vector_fst/iterators.rs 30-44) or `append`
(const_fst/converters.rs 15-28), both of which leave the vector empty, and then the state is dropped. -/
def drainStates (m : Mem W) : List (AState W) → Mem W × List (State W)
  | [] => (m, [])
  | st :: sts =>
    let r := m.makeMut st.arc
    let v := r.1.read r.2
    let q := drainStates ((r.1.write r.2 []).release r.2) sts
    (q.1, ⟨st.fin, v, st.niepsilons, st.noepsilons⟩ :: q.2)

/-- The loop of `fst_into_iter` of a `ConstFst` (const_fst/iterators.rs 32-34): `drain(0..ntrs)` panics when there are not enough. -/
def drainConst : List (CState W) → List (Tr W) → R (List (Option W × List (Tr W)))
  | [], _ => .ok []
  | st :: sts, v =>
    if st.ntrs ≤ v.length then
      match drainConst sts (v.drop st.ntrs) with
      | .error e => .error e
      | .ok l => .ok ((st.fin, v.take st.ntrs) :: l)
    else .error .panic

/-- The pairs (final weight, transitions) that `fst_into_iter` of a `VectorFst` yields. -/
def itemsOf (l : List (State W)) : List (Option W × List (Tr W)) := l.map fun st => (st.fin, st.trs)

section step
variable [Zero W] [One W] [Add W] [DecidableEq W]

/-- Put object `i` in its new form. -/
def World.put (w : World W) (m : Mem W) (i : Nat) (o : Obj W) : World W := ⟨m, w.objs.set i o⟩

/-- A new object. -/
def World.add (w : World W) (m : Mem W) (o : Obj W) : World W := ⟨m, w.objs ++ [o]⟩

/-- The flags computed by `compute_and_update_properties_all().unwrap()` (const_fst/converters.rs 10). -/
def constProps (f : Fst W) : R Props :=
  match f.computeAndUpdate Props.allMask with
  | .ok (_, p) => .ok p
  | .error _ => .error .panic

/-- One call. `none`: it panicked. A call on an object that is not of the right kind does not compile; here it does nothing. -/
def World.step (w : World W) : Act W → Option (World W × Out W)
  | .new => some (w.add w.mem (.fst ⟨[], none, Props.nullMask⟩), .done true)
  | .call i op =>
    match w.objs[i]? with
    | some (.fst f) =>
      match f.call w.mem op with
      | none => none
      | some (m, f', b) => some (w.put m i (.fst f'), .done b)
    | _ => some (w, .done false)
  | .clone i =>
    match w.objs[i]? with
    | some (.fst f) =>
      let r := cloneStates w.mem f.states
      some (w.add r.1 (.fst { f with states := r.2 }), .done true)
    | some (.trs a) =>
      let r := w.mem.alloc (w.mem.read a)
      some (w.add r.1 (.trs r.2), .done true)
    | some (.cfst c) => some (w.add (w.mem.share c.arc) (.cfst c), .done true)
    | some (.ctrs a pos n) =>
      let r := w.mem.alloc (w.mem.read a)
      some (w.add r.1 (.ctrs r.2 pos n), .done true)
    | _ => some (w, .done false)
  | .getTrs i s =>
    match w.objs[i]? with
    | some (.fst f) =>
      match f.states[s]? with
      | some st => some (w.add (w.mem.share st.arc) (.trs st.arc), .done true)
      | none => some (w, .done false)
    | some (.cfst c) =>
      match c.states[s]? with
      | some st => some (w.add (w.mem.share c.arc) (.ctrs c.arc st.pos st.ntrs), .done true)
      | none => some (w, .done false)
    | _ => some (w, .done false)
  | .shallow i =>
    match w.objs[i]? with
    | some (.trs a) => some (w.add (w.mem.share a) (.trs a), .done true)
    | some (.ctrs a pos n) => some (w.add (w.mem.share a) (.ctrs a pos n), .done true)
    | _ => some (w, .done false)
  | .toVec i =>
    match w.objs[i]? with
    | some (.trs a) => some (w.add (w.mem.share a) (.trs a), .done true)
    | some (.ctrs a _ _) => some (w.add (w.mem.share a) (.trs a), .done true)
    | _ => some (w, .done false)
  | .push i t =>
    match w.objs[i]? with
    | some (.trs a) =>
      let r := w.mem.update a fun v => v ++ [t]
      some (w.put r.1 i (.trs r.2), .done true)
    | _ => some (w, .done false)
  | .remove i k =>
    match w.objs[i]? with
    | some (.trs a) =>
      if k < (w.mem.read a).length then
        let r := w.mem.update a fun v => v.eraseIdx k
        some (w.put r.1 i (.trs r.2), .done true)
      else none
    | _ => some (w, .done false)
  | .clear i =>
    match w.objs[i]? with
    | some (.trs a) =>
      let r := w.mem.update a fun _ => []
      some (w.put r.1 i (.trs r.2), .done true)
    | _ => some (w, .done false)
  | .reserve i s =>
    match w.objs[i]? with
    | some (.fst f) =>
      if s < f.states.length then
        let r := f.onSt w.mem s id
        some (w.put r.1 i (.fst r.2), .done true)
      else some (w, .done false)
    | _ => some (w, .done false)
  | .toConst i =>
    match w.objs[i]? with
    | some (.fst f) =>
      match constProps (f.view w.mem) with
      | .error _ => none
      | .ok p =>
        let r := drainStates w.mem f.states
        let l := toConstLoop 0 r.2
        let q := r.1.alloc l.2
        some (w.put q.1 i (.cfst ⟨l.1, q.2, f.start, p⟩), .done true)
    | _ => some (w, .done false)
  | .intoIter i =>
    match w.objs[i]? with
    | some (.fst f) =>
      let r := drainStates w.mem f.states
      some (w.put r.1 i .gone, .items (itemsOf r.2))
    | some (.cfst c) =>
      match drainConst c.states (w.mem.read c.arc) with
      | .error _ => none
      | .ok l =>
        let r := w.mem.update c.arc fun v => v.drop ((c.states.map (·.ntrs)).sum)
        some (w.put (r.1.release r.2) i .gone, .items l)
    | _ => some (w, .done false)
  | .drop i =>
    match w.objs[i]? with
    | some (.fst f) => some (w.put (AFst.dropStates w.mem f.states) i .gone, .done true)
    | some (.trs a) => some (w.put (w.mem.release a) i .gone, .done true)
    | some (.cfst c) => some (w.put (w.mem.release c.arc) i .gone, .done true)
    | some (.ctrs a _ _) => some (w.put (w.mem.release a) i .gone, .done true)
    | _ => some (w, .done false)

/-- Run a program: the world at the end and what the calls gave back. -/
def World.run (w : World W) : List (Act W) → Option (World W × List (Out W))
  | [] => some (w, [])
  | a :: as =>
    match w.step a with
    | none => none
    | some (w', o) =>
      match w'.run as with
      | none => none
      | some (w'', os) => some (w'', o :: os)

end step
end Verif.Arcs
