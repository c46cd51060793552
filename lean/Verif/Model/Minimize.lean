import Verif.Model.ComputeProps
import Verif.Model.Dfs
import Verif.Model.Partition
import Verif.Model.Rational

/-!
# Minimization of unweighted acceptors (`algorithms/minimize.rs` 177-573)

`acceptor_minimize` computes a partition of the states and merges each class into one state. For acyclic deterministic FSTs the
partition is computed by height, otherwise by the algorithm of Hopcroft.

Two external data structures are not modelled in detail. `BinaryHeap` (crate `binary_heap_plus`) is used to read several sorted lists of
transitions in the order of their labels; which one comes first among transitions with equal labels depends on its layout. The model
takes the whole reading loop as a parameter `merge`, about which only `HeapMerge` (Spec/Minimize) is assumed. `TreeMap` (crate
`stable_bst`) is a list of entries in which a key is found by comparison with `Equal`.
-/

namespace Verif
universe u v
variable {W : Type u}

/-- `?`, for results in any universes. -/
def R.andThen {α : Type u} {β : Type v} (x : R α) (k : α → R β) : R β :=
  match x with
  | .ok a => k a
  | .error e => .error e

namespace Fst

/-! ## Merging the classes of a partition -/

/-- `state_map[c].unwrap()` (minimize.rs 218-226): the first element of the class. -/
def repOf (p : Part) (c : Nat) : R StateId := do
  let l ← p.iter c
  match l.head? with
  | some s => .ok s
  | none => .error .panic

/-- `state_map[partition.get_class_id(q)].unwrap()`. -/
def repOfState (p : Part) (q : StateId) : R StateId := do
  let c ← p.getClassId q
  repOf p c

section weights
variable [Zero W] [One W] [DecidableEq W]

/-- Lines 231-237: the transitions of the first element of a class are redirected in place. -/
def redirect (p : Part) (s : StateId) (f : Fst W) (idx : Nat) : R (Fst W) :=
  match (f.trsOf s)[idx]? with
  | none => .ok f
  | some t => (repOfState p t.nextstate).andThen fun q => .ok (f.setNextstateR s idx q).1

/-- Lines 238-253: a transition of another element is added to the first one. -/
def copyTr (p : Part) (r : StateId) (f : Fst W) (t : Tr W) : R (Fst W) :=
  (repOfState p t.nextstate).andThen fun q => if r < f.numStates then .ok (f.addTr r { t with nextstate := q }) else .error .err

/-- Body of loop 229-255. -/
def mergeElt (p : Part) (r : StateId) (f : Fst W) (s : StateId) : R (Fst W) :=
  if s = r then
    if s < f.numStates then (List.range (f.trsOf s).length).foldlM (redirect p s) f else .error .err
  else do
    let ts ← f.getTrsR s
    ts.foldlM (copyTr p r) f

/-- Body of loop 228-256. The loop is not entered by a class without elements. -/
def mergeClass (p : Part) (f : Fst W) (c : Nat) : R (Fst W) :=
  (p.iter c).andThen fun l =>
    match l.head? with
    | none => .ok f
    | some r => l.foldlM (mergeElt p r) f

/-- `merge_states` (minimize.rs 214-267). -/
def mergeStates (p : Part) (f : Fst W) : R (Fst W) :=
  ((List.range p.numClasses).foldlM (mergeClass p) f).andThen fun f =>
    match f.start with
    | none => .error .panic
    | some i => (repOfState p i).andThen fun r =>
      match (f.setStartR r).2 with
      | .error e => .error e
      | .ok _ => (f.setStart r).connect

end weights

/-! ## Acyclic minimization -/

/-- The sets and the vector that `fst_depth` changes; `fully_examined_states` is never read and left out. -/
structure DepthState where
  acc : List StateId
  heights : List Int

/-- The loop of `fst_depth` (minimize.rs 284-299); `go` is the recursive call. -/
def depthTrs (go : StateId → DepthState → R DepthState) : List (Tr W) → Int → DepthState → R (Int × DepthState)
  | [], h, d => .ok (h, d)
  | t :: ts, h, d => do
    let d ← if t.nextstate ∈ d.acc then .ok d else go t.nextstate d
    match d.heights[t.nextstate]? with
    | none => .error .panic
    | some x => depthTrs go ts (max h (1 + x)) d

/-- `fst_depth` (minimize.rs 269-305). Each call of the recursion adds a state to the set, so calls are never nested deeper than the
number of states; the first argument bounds the depth, exceeding it is a failure. -/
def depth (f : Fst W) : Nat → StateId → DepthState → R DepthState
  | 0, _, _ => .error .panic
  | n + 1, s, d =>
    let d : DepthState := ⟨s :: d.acc, d.heights ++ List.replicate (s + 1 - d.heights.length) (-1)⟩
    (f.getTrsR s).andThen fun ts => do
      let (h, d) ← depthTrs (depth f n) ts 0 d
      if s < d.heights.length then .ok { d with heights := d.heights.set s h } else .error .panic

/-- `partition.add(s, h as usize)`: a negative height becomes an index that is out of range. -/
def addHeight (p : Part) (x : Int × Nat) : R Part := if x.1 < 0 then .error .panic else p.add x.2 x.1.toNat

/-- `AcyclicMinimizer::initialize` (minimize.rs 320-339). -/
def heightPartition (f : Fst W) : R Part := do
  match f.start with
  | none => .error .panic
  | some i => do
    let d ← f.depth (f.numStates + 1) i ⟨[], []⟩
    match d.heights.max? with
    | none => .error .panic
    | some m => d.heights.zipIdx.foldlM addHeight ((Part.new d.heights.length).allocateClasses (m + 1).toNat)

/-- The loop of `do_compare` over pairs of transitions (minimize.rs 414-435). -/
def lessTrs (p : Part) : List (Tr W) → List (Tr W) → R Bool
  | a :: as, b :: bs =>
    if a.ilabel < b.ilabel then .ok true
    else if a.ilabel > b.ilabel then .ok false
    else do
      let c ← p.getClassId a.nextstate
      let d ← p.getClassId b.nextstate
      if c < d then .ok true
      else if c > d then .ok false
      else lessTrs p as bs
  | _, _ => .ok false

/-- `do_compare` (minimize.rs 392-437). `lt` is `<` on weights. -/
def lessState [Zero W] (lt : W → W → Bool) (f : Fst W) (p : Part) (x y : StateId) : R Bool :=
  (f.finalWeightR x).andThen fun wx => (f.finalWeightR y).andThen fun wy =>
    if lt (wx.getD 0) (wy.getD 0) then .ok true
    else if lt (wy.getD 0) (wx.getD 0) then .ok false
    else (f.getTrsR x).andThen fun ts => (f.getTrsR y).andThen fun us =>
      if ts.length < us.length then .ok true
      else if ts.length > us.length then .ok false
      else lessTrs p ts us

/-- `compare(x, y) == Equal` (minimize.rs 439-456). -/
def sameState [Zero W] (lt : W → W → Bool) (f : Fst W) (p : Part) (x y : StateId) : R Bool :=
  if x = y then .ok true
  else do
    let a ← f.lessState lt p x y
    let b ← f.lessState lt p y x
    .ok (!a && !b)

/-- A search in the tree. -/
def findClass [Zero W] (lt : W → W → Bool) (f : Fst W) (p : Part) (s : StateId) : List (StateId × Nat) → R (Option Nat)
  | [] => .ok none
  | (k, c) :: l => do
    let b ← f.sameState lt p k s
    if b then .ok (some c) else findClass lt f p s l

/-- `get_or_insert` (minimize.rs 361-365). -/
def treeInsert [Zero W] (lt : W → W → Bool) (f : Fst W) (a : List (StateId × Nat) × Part) (s : StateId) :
    R (List (StateId × Nat) × Part) := do
  match ← f.findClass lt a.2 s a.1 with
  | some _ => .ok a
  | none => .ok (a.1 ++ [(s, a.2.addClass.1)], a.2.addClass.2)

/-- Body of loop 367-376. -/
def moveTo [Zero W] (lt : W → W → Bool) (f : Fst W) (tree : List (StateId × Nat)) (p : Part) (s : StateId) : R Part := do
  let old ← p.getClassId s
  match ← f.findClass lt p s tree with
  | none => .error .panic
  | some c => if old ≠ c then p.moveElement s c else .ok p

/-- Body of loop 349-377 of `refine`. -/
def refineHeight [Zero W] (lt : W → W → Bool) (f : Fst W) (p : Part) (h : Nat) : R Part := do
  let l ← p.iter h
  match l with
  | [] => .error .panic
  | e :: rest => do
    let (tree, p) ← rest.foldlM (f.treeInsert lt) ([(e, h)], p)
    (e :: rest).foldlM (f.moveTo lt tree) p

/-- `AcyclicMinimizer::new` (minimize.rs 311-318) with `refine` (minimize.rs 341-378). -/
def acyclicPartition [Zero W] (lt : W → W → Bool) (f : Fst W) : R Part := do
  let p ← f.heightPartition
  (List.range p.numClasses).foldlM (f.refineHeight lt) p

/-! ## Cyclic minimization -/

/-- `dedup` of `itertools`. -/
def dedupAdj : List Label → List Label
  | a :: b :: l => if a = b then dedupAdj (b :: l) else a :: dedupAdj (b :: l)
  | l => l

/-- The key of a state in the two maps of `pre_partition` (minimize.rs 469-490). -/
def preKey (f : Fst W) (s : StateId) : Bool × List Label := (f.isFinalUnchecked s, dedupAdj ((f.trsOf s).map (·.ilabel)))

/-- Body of loop 472-502 of `pre_partition`: keys seen so far, in the order of their classes, and the classes of the states. -/
def preStep (f : Fst W) (a : List (Bool × List Label) × List Nat) (s : StateId) : List (Bool × List Label) × List Nat :=
  match a.1.idxOf? (f.preKey s) with
  | some c => (a.1, a.2 ++ [c])
  | none => (a.1 ++ [f.preKey s], a.2 ++ [a.1.length])

/-- `pre_partition` (minimize.rs 459-513) without the queue: the keys, and the class of each state. -/
def preClasses (f : Fst W) : List (Bool × List Label) × List Nat := (List.range f.numStates).foldl f.preStep ([], [])

/-- Lines 505-508 of `pre_partition`. -/
def prePartition (f : Fst W) (p : Part) : R Part :=
  (f.preClasses.2.zipIdx).foldlM (fun p (x : Nat × Nat) => p.add x.2 x.1) (p.allocateClasses f.preClasses.1.length)

/-- Body of the loop over the heap (minimize.rs 548-568): the partition, the queue (its top is the head of the list) and `prev_label`;
`prev_label` is compared as `i32`, in which the initial value `-1` is the label `NO_LABEL`. -/
def splitArc {V : Type v} (a : Part × List Nat × Label) (t : Tr V) : R (Part × List Nat × Label) := do
  let e ← Part.subU t.nextstate 1
  let (p, q) ← if a.2.2 ≠ t.ilabel then do
      let (new, p) ← a.1.finalizeSplit
      .ok (p, new.reverse ++ a.2.1)
    else .ok (a.1, a.2.1)
  let c ← p.getClassId e
  let n ← p.getClassSize c
  let p ← if n > 1 then p.splitOn e else .ok p
  .ok (p, q, t.ilabel)

/-- The transitions of the states of a class in the reversed FST (minimize.rs 537-545). -/
def classTrs {V : Type v} (r : Fst V) : List StateId → R (List (List (Tr V)))
  | [] => .ok []
  | s :: l => do
    let ts ← r.getTrsR (s + 1)
    let rest ← classTrs r l
    .ok (if ts.length > 0 then ts :: rest else rest)

/-- Body of loop 535-571. -/
def hopcroftStep {V : Type v} (merge : List (List (Tr V)) → List (Tr V)) (r : Fst V) (p : Part) (q : List Nat) (c : Nat) :
    R (Part × List Nat) :=
  (p.iter c).andThen fun l => (classTrs r l).andThen fun its => do
    let (p, q, _) ← (merge its).foldlM splitArc (p, q, NO_LABEL)
    let (new, p) ← p.finalizeSplit
    .ok (p, new.reverse ++ q)

/-- The loop over the queue (minimize.rs 535-571). -/
def hopcroft {V : Type v} (merge : List (List (Tr V)) → List (Tr V)) (r : Fst V) : Nat → Part → List Nat → Option (R Part)
  | 0, _, _ => none
  | _ + 1, p, [] => some (.ok p)
  | n + 1, p, c :: q =>
    match hopcroftStep merge r p q c with
    | .error e => some (.error e)
    | .ok (p, q) => hopcroft merge r n p q

section weights
variable [Zero W] [One W] [DecidableEq W]

/-- `cyclic_minimize` (minimize.rs 515-575). -/
def cyclicPartition {V : Type v} [Zero V] [One V] [DecidableEq V] (rev : W → V) (merge : List (List (Tr V)) → List (Tr V))
    (f : Fst W) (n : Nat) : Option (R Part) :=
  match f.reverse rev with
  | .error e => some (.error e)
  | .ok r =>
    match f.prePartition (Part.new ((r.trSort .ilabel).numStates - 1)) with
    | .error e => some (.error e)
    | .ok p => hopcroft merge (r.trSort .ilabel) n p (List.range f.preClasses.1.length).reverse

/-- `acceptor_minimize` (minimize.rs 177-212). -/
def acceptorMinimize {V : Type v} [Zero V] [One V] [DecidableEq V] (lt : W → W → Bool) (rev : W → V)
    (merge : List (List (Tr V)) → List (Tr V)) (allowAcyclic : Bool) (f : Fst W) (n : Nat) : Option (R (Fst W)) :=
  match f.computeAndUpdate (Props.of [.acceptor, .unweighted, .acyclic]) with
  | .error e => some (.error e)
  | .ok (f, p) =>
    if !(p .acceptor && p .unweighted) then some (.error .err)
    else
      match f.connect with
      | .error e => some (.error e)
      | .ok f =>
        if f.numStates = 0 then some (.ok f)
        else if allowAcyclic && p .acyclic then
          some (((f.trSort .ilabel).acyclicPartition lt).andThen fun p => ((f.trSort .ilabel).mergeStates p).andThen fun g =>
            .ok g.trUnique)
        else
          match f.cyclicPartition rev merge n with
          | none => none
          | some r => some (r.andThen fun p => (f.mergeStates p).andThen fun g => .ok g.trUnique)

end weights
end Fst
end Verif
