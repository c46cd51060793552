import Verif.Model.VectorFst
import Verif.Model.StateTable
import Verif.Spec.Machine

/-!
# Lazy FSTs: caches, queries and expansion

Rust's lazy FSTs answer queries through `&self` and keep a cache and the operation's tables behind locks. Here a query returns the
answer and the new value of cache and tables. `CacheStatus<T>` is `Option T`: `none` is `NotComputed`.
-/

namespace Verif
universe u v w
variable {W : Type u}

/-! ### Operations -/

/-- `FstOp` (lazy/fst_op.rs 9-17) with the interior state `σ` of the operation. -/
structure LazyOp (σ : Type v) (W : Type u) where
  computeStart : σ → R (Option StateId) × σ
  computeTrs : StateId → σ → R (List (Tr W)) × σ
  computeFinal : StateId → σ → R (Option W) × σ
  props : Props

/-- An operation described on tuples: the part of a `FstOp` between the calls of the state table. -/
structure TupleOp (T : Type v) (W : Type u) where
  start : R (Option T)
  trs : T → R (List (MTr T W))
  fin : T → R (Option W)
  props : Props

section table
variable {T : Type v} {τ : Type w}

/-- A sequence of transitions to tuples is turned into transitions to ids, in order. -/
def nameAll (find : τ → T → StateId × τ) (m : τ) : List (MTr T W) → List (Tr W) × τ
  | [] => ([], m)
  | a :: as =>
    let (s, m1) := find m a.next
    let (l, m2) := nameAll find m1 as
    (⟨a.ilabel, a.olabel, a.weight, s⟩ :: l, m2)

/-- The usual shape of a lazy operation: look the tuple up, compute with tuples, and number the results (e.g.
replace_fst_op.rs 60-113, compose_fst_op.rs, factor_weight_op.rs 43-131, determinize_fsa_op.rs 44-119). Simplification: when
computing the transitions fails, no tuple is numbered. -/
def TupleOp.withTable (O : TupleOp T W) (find : τ → T → StateId × τ) (tuple : τ → StateId → R T) : LazyOp τ W where
  computeStart m := match O.start with
    | .error e => (.error e, m)
    | .ok none => (.ok none, m)
    | .ok (some t) => (.ok (some (find m t).1), (find m t).2)
  computeTrs s m := match tuple m s with
    | .error e => (.error e, m)
    | .ok t => match O.trs t with
      | .error e => (.error e, m)
      | .ok l => (.ok (nameAll find m l).1, (nameAll find m l).2)
  computeFinal s m := match tuple m s with
    | .error e => (.error e, m)
    | .ok t => (O.fin t, m)
  props := O.props

end table

/-! ### Caches -/

/-- The trait `FstCache` (lazy/cache/fst_cache.rs 8-28). -/
structure CacheOps (W : Type u) (C : Type v) where
  empty : C
  getStart : C → Option (Option StateId)
  insertStart : C → Option StateId → C
  getTrs : C → StateId → Option (List (Tr W))
  insertTrs : C → StateId → List (Tr W) → C
  getFinal : C → StateId → Option (Option W)
  insertFinal : C → StateId → Option W → C
  numKnown : C → Nat
  numTrs : C → StateId → Option Nat
  numIEps : C → StateId → Option Nat
  numOEps : C → StateId → Option Nat

/-- `CacheTrs` (cache_internal_types.rs 12-16). -/
structure CacheTrs (W : Type u) where
  trs : List (Tr W)
  niepsilons : Nat
  noepsilons : Nat

/-- The loop of `insert_trs` (simple_vec_cache.rs 95-104, simple_hash_map_cache.rs 93-102): number of known states and of ε. -/
def scanTrs : List (Tr W) → Nat → Nat → Nat → Nat × Nat × Nat
  | [], k, i, o => (k, i, o)
  | t :: ts, k, i, o => scanTrs ts (max k (t.nextstate + 1)) (if t.ilabel = EPS then i + 1 else i) (if t.olabel = EPS then o + 1 else o)

/-- `max(known, s + 1)` when there is a start state (simple_vec_cache.rs 78-81). -/
def knownStart (k : Nat) : Option StateId → Nat
  | none => k
  | some s => max k (s + 1)

/-- `SimpleVecCache` (simple_vec_cache.rs 27-35). -/
structure VecCache (W : Type u) where
  start : Option (Option StateId)
  startKnown : Nat
  trs : List (Option (CacheTrs W))
  trsKnown : Nat
  fins : List (Option (Option W))
  finsKnown : Nat

/-- `resize` where needed, then store (simple_vec_cache.rs 105-113, 129-133). -/
def vecPut {α : Type u} (l : List (Option α)) (i : Nat) (x : α) : List (Option α) :=
  (if i ≥ l.length then l ++ List.replicate (i + 1 - l.length) none else l).set i (some x)

/-- `CachedData<Vec<CacheStatus<T>>>::get` (cache_internal_types.rs 70-80). -/
def vecGet {α : Type u} (l : List (Option α)) (i : Nat) : Option α :=
  match l[i]? with
  | some (some x) => some x
  | _ => none

/-- `impl FstCache for SimpleVecCache` (simple_vec_cache.rs 71-167). -/
def vecCache : CacheOps W (VecCache W) where
  empty := ⟨none, 0, [], 0, [], 0⟩
  getStart c := c.start
  insertStart c r := { c with start := some r, startKnown := knownStart c.startKnown r }
  getTrs c s := (vecGet c.trs s).map (·.trs)
  insertTrs c s l :=
    let (k, i, o) := scanTrs l c.trsKnown 0 0
    { c with trsKnown := k, trs := vecPut c.trs s ⟨l, i, o⟩ }
  getFinal c s := vecGet c.fins s
  insertFinal c s w := { c with finsKnown := max c.finsKnown (s + 1), fins := vecPut c.fins s w }
  numKnown c := max (max (max 0 c.startKnown) c.trsKnown) c.finsKnown
  numTrs c s := (vecGet c.trs s).map (·.trs.length)
  numIEps c s := (vecGet c.trs s).map (·.niepsilons)
  numOEps c s := (vecGet c.trs s).map (·.noepsilons)

/-- `SimpleHashMapCache` (simple_hash_map_cache.rs 27-35), its maps as association lists. -/
structure MapCache (W : Type u) where
  start : Option (Option StateId)
  startKnown : Nat
  trs : List (StateId × CacheTrs W)
  trsKnown : Nat
  fins : List (StateId × Option W)
  finsKnown : Nat

/-- `HashMap::insert`. -/
def mapPut {α : Type u} (l : List (StateId × α)) (i : StateId) (x : α) : List (StateId × α) :=
  (i, x) :: l.filter (fun p => decide (p.1 ≠ i))

/-- `HashMap::get`. -/
def mapGet {α : Type u} (l : List (StateId × α)) (i : StateId) : Option α := (l.find? (fun p => decide (p.1 = i))).map (·.2)

/-- `impl FstCache for SimpleHashMapCache` (simple_hash_map_cache.rs 70-165). -/
def mapCache : CacheOps W (MapCache W) where
  empty := ⟨none, 0, [], 0, [], 0⟩
  getStart c := c.start
  insertStart c r := { c with start := some r, startKnown := knownStart c.startKnown r }
  getTrs c s := (mapGet c.trs s).map (·.trs)
  insertTrs c s l :=
    let (k, i, o) := scanTrs l c.trsKnown 0 0
    { c with trsKnown := k, trs := mapPut c.trs s ⟨l, i, o⟩ }
  getFinal c s := mapGet c.fins s
  insertFinal c s w := { c with finsKnown := max c.finsKnown (s + 1), fins := mapPut c.fins s w }
  numKnown c := max (max (max 0 c.startKnown) c.trsKnown) c.finsKnown
  numTrs c s := (mapGet c.trs s).map (·.trs.length)
  numIEps c s := (mapGet c.trs s).map (·.niepsilons)
  numOEps c s := (mapGet c.trs s).map (·.noepsilons)

/-- `FirstCache` (first_cache.rs 6-10): the last entries in front of another cache. -/
structure LastCache (W : Type u) (C : Type v) where
  inner : C
  lastTrs : Option (StateId × List (Tr W))
  lastFin : Option (StateId × Option W)

/-- The last entry if it is the one asked for, else the inner cache (first_cache.rs 31-39, 47-55). -/
def lastOr {α : Type u} (last : Option (StateId × α)) (s : StateId) (inner : Option α) : Option α :=
  match last with
  | some (i, x) => if i = s then some x else inner
  | none => inner

/-- `impl FstCache for FirstCache` (first_cache.rs 22-90). -/
def lastCache {C : Type v} (K : CacheOps W C) : CacheOps W (LastCache W C) where
  empty := ⟨K.empty, none, none⟩
  getStart c := K.getStart c.inner
  insertStart c r := { c with inner := K.insertStart c.inner r }
  getTrs c s := lastOr c.lastTrs s (K.getTrs c.inner s)
  insertTrs c s l := { c with lastTrs := some (s, l), inner := K.insertTrs c.inner s l }
  getFinal c s := lastOr c.lastFin s (K.getFinal c.inner s)
  insertFinal c s w := { c with lastFin := some (s, w), inner := K.insertFinal c.inner s w }
  numKnown c := K.numKnown c.inner
  numTrs c s := K.numTrs c.inner s
  numIEps c s := K.numIEps c.inner s
  numOEps c s := K.numOEps c.inner s

/-! ### Queries -/

/-- `LazyFst` (lazy_fst.rs 24-31) without its symbol tables: a cache and an operation's interior state. -/
structure Lz (C : Type v) (σ : Type w) where
  cache : C
  op : σ

namespace Lz
variable {C : Type v} {σ : Type w} (K : CacheOps W C) (O : LazyOp σ W)

/-- `LazyFst::start` (lazy_fst.rs 35-45): `unwrap` turns an error into a panic. -/
def start (z : Lz C σ) : R (Option StateId) × Lz C σ :=
  match K.getStart z.cache with
  | some r => (.ok r, z)
  | none => match O.computeStart z.op with
    | (.ok r, o) => (.ok r, ⟨K.insertStart z.cache r, o⟩)
    | (.error _, o) => (.error .panic, ⟨z.cache, o⟩)

/-- `LazyFst::final_weight` (lazy_fst.rs 47-57). -/
def finalWeight (z : Lz C σ) (s : StateId) : R (Option W) × Lz C σ :=
  match K.getFinal z.cache s with
  | some w => (.ok w, z)
  | none => match O.computeFinal s z.op with
    | (.ok w, o) => (.ok w, ⟨K.insertFinal z.cache s w, o⟩)
    | (.error e, o) => (.error e, ⟨z.cache, o⟩)

/-- `LazyFst::get_trs` (lazy_fst.rs 73-82). -/
def getTrs (z : Lz C σ) (s : StateId) : R (List (Tr W)) × Lz C σ :=
  match K.getTrs z.cache s with
  | some l => (.ok l, z)
  | none => match O.computeTrs s z.op with
    | (.ok l, o) => (.ok l, ⟨K.insertTrs z.cache s l, o⟩)
    | (.error e, o) => (.error e, ⟨z.cache, o⟩)

/-- `Option::ok_or_else`. -/
def okOr {α : Type u} : Option α → R α
  | some x => .ok x
  | none => .error .err

/-- `LazyFst::num_trs` (lazy_fst.rs 63-67): looks only into the cache. -/
def numTrs (z : Lz C σ) (s : StateId) : R Nat := okOr (K.numTrs z.cache s)

/-- `LazyFst::num_input_epsilons` (lazy_fst.rs 92-96). -/
def numIEps (z : Lz C σ) (s : StateId) : R Nat := okOr (K.numIEps z.cache s)

/-- `LazyFst::num_output_epsilons` (lazy_fst.rs 98-102). -/
def numOEps (z : Lz C σ) (s : StateId) : R Nat := okOr (K.numOEps z.cache s)

/-- The queries of a client. `clear` empties the cache (`clear` of the simple caches, simple_vec_cache.rs 38-47). -/
inductive Query
  | start
  | fin (s : StateId)
  | trs (s : StateId)
  | numTrs (s : StateId)
  | numIEps (s : StateId)
  | numOEps (s : StateId)
  | clear
  deriving DecidableEq

/-- The answers. -/
inductive Answer (W : Type u)
  | start (r : R (Option StateId))
  | fin (r : R (Option W))
  | trs (r : R (List (Tr W)))
  | num (r : R Nat)
  | unit

/-- One query. -/
def ask (z : Lz C σ) : Query → Answer W × Lz C σ
  | .start => (.start (z.start K O).1, (z.start K O).2)
  | .fin s => (.fin (z.finalWeight K O s).1, (z.finalWeight K O s).2)
  | .trs s => (.trs (z.getTrs K O s).1, (z.getTrs K O s).2)
  | .numTrs s => (.num (z.numTrs K s), z)
  | .numIEps s => (.num (z.numIEps K s), z)
  | .numOEps s => (.num (z.numOEps K s), z)
  | .clear => (.unit, ⟨K.empty, z.op⟩)

/-- A history of queries with their answers. -/
def run (z : Lz C σ) : List Query → List (Query × Answer W) × Lz C σ
  | [] => ([], z)
  | q :: qs => ((q, (z.ask K O q).1) :: (run (z.ask K O q).2 qs).1, (run (z.ask K O q).2 qs).2)

/-! ### Iterating over the states -/

/-- `StatesIteratorLazyFst::next` (lazy_fst.rs 131-143), repeated, from state `s` on. `none`: more states than fuel. -/
def statesFrom : Nat → StateId → Lz C σ → Option (R (List StateId) × Lz C σ)
  | 0, _, _ => none
  | n + 1, s, z =>
    if s < K.numKnown z.cache then
      match z.getTrs K O s with
      | (.error _, z1) => some (.error .panic, z1)
      | (.ok _, z1) => match statesFrom n (s + 1) z1 with
        | none => none
        | some (.error e, z2) => some (.error e, z2)
        | some (.ok l, z2) => some (.ok (s :: l), z2)
    else some (.ok [], z)

/-- `states_iter` (lazy_fst.rs 113-116) collected. -/
def statesIter (n : Nat) (z : Lz C σ) : Option (R (List StateId) × Lz C σ) :=
  match z.start K O with
  | (.error e, z1) => some (.error e, z1)
  | (.ok _, z1) => statesFrom K O n 0 z1

/-! ### Expansion into a static FST -/

variable [Zero W] [One W] [DecidableEq W]

/-- The loop over the transitions in `compute` (lazy_fst.rs 243-255): queue, marks and output. -/
def scan : List (Tr W) → List StateId → List Bool → Fst W → List StateId × List Bool × Fst W
  | [], q, vis, out => (q, vis, out)
  | t :: ts, q, vis, out =>
    let vis1 := if t.nextstate ≥ vis.length then vis ++ List.replicate (t.nextstate + 1 - vis.length) false else vis
    let q1 := if vis1[t.nextstate]? = some true then q else q ++ [t.nextstate]
    let vis2 := if vis1[t.nextstate]? = some true then vis1 else vis1.set t.nextstate true
    let out1 := if t.nextstate ≥ out.numStates then out.addStates (t.nextstate - out.numStates + 1) else out
    scan ts q1 vis2 out1

/-- `set_final` if there is a final weight (lazy_fst.rs 257-259); the state exists. -/
def putFinal (out : Fst W) (s : StateId) : Option W → Fst W
  | none => out
  | some w => out.setFinal s w

/-- The loop of `compute` (lazy_fst.rs 241-260). `none`: out of fuel. -/
def computeLoop : Nat → List StateId → List Bool → Fst W → Lz C σ → Option (R (Fst W) × Lz C σ)
  | 0, _, _, _, _ => none
  | _ + 1, [], _, out, z => some (.ok out, z)
  | n + 1, s :: q, vis, out, z =>
    match z.getTrs K O s with
    | (.error e, z1) => some (.error e, z1)
    | (.ok l, z1) =>
      let (q1, vis1, out1) := scan l q vis out
      match z1.finalWeight K O s with
      | (.error e, z2) => some (.error e, z2)
      | (.ok w, z2) => computeLoop n q1 vis1 (putFinal (out1.setTrs s l) s w) z2

/-- `LazyFst::compute` (lazy_fst.rs 227-271), symbol tables aside. -/
def compute (n : Nat) (z : Lz C σ) : Option (R (Fst W) × Lz C σ) :=
  match z.start K O with
  | (.error e, z1) => some (.error e, z1)
  | (.ok none, z1) => some (.ok Fst.new, z1)
  | (.ok (some s), z1) =>
    match computeLoop K O n [s] ((List.replicate (s + 1) false).set s true) ((Fst.new.addStates (s + 1)).setStart s) z1 with
    | none => none
    | some (.error e, z2) => some (.error e, z2)
    | some (.ok out, z2) => some (.ok (out.setProps O.props), z2)

end Lz
end Verif
