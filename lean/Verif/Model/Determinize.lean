import Verif.Model.Lazy
import Verif.Model.StateTable
import Mathlib.Data.List.Sort

/-!
# Determinization of acceptors (`algorithms/determinize/`)

A state of the result is a list of states of the input with residual weights. The lists come out of `HashMap::values`, whose
order is not specified: it is an argument `ord` of the model.
-/

namespace Verif
universe u
variable {W : Type u}

/-- `DeterminizeElement` (element.rs 3-7). -/
structure DElt (W : Type u) where
  state : StateId
  weight : W
  deriving DecidableEq

/-- `DeterminizeStateTuple` (element.rs 31-35). -/
structure DTup (W : Type u) where
  subset : List (DElt W)
  filterState : StateId
  deriving DecidableEq

/-- The weight operations used, and `CommonDivisor` (divisors.rs 11-13). `times` does not fail for any weight of the library. -/
structure DetOps (W : Type u) where
  plus : W → W → R W
  common : W → W → R W
  /-- `divide(_, DivideLeft)`. -/
  divide : W → W → R W
  /-- `quantize_assign(delta)`. -/
  quantize : W → R W
  /-- `W::properties().contains(LEFT_SEMIRING)`. -/
  leftSemiring : Bool

/-- The map from labels to pairs: a `BTreeMap`, so in the order of the labels. -/
abbrev LabelMap (W : Type u) := List (Label × List (DElt W))

/-- `entry(l)`, inserting an empty subset if there is none, then `push` (determinize_fsa_op.rs 67-80). -/
def lmPush : LabelMap W → Label → DElt W → LabelMap W
  | [], l, e => [(l, [e])]
  | (k, es) :: m, l, e =>
    if l < k then (l, [e]) :: (k, es) :: m
    else if l = k then (k, es ++ [e]) :: m
    else (k, es) :: lmPush m l e

section
variable [Zero W] [One W] [Mul W] [DecidableEq W]

/-- The two loops of `compute_trs` that fill the label map (determinize_fsa_op.rs 57-82). -/
def detCollect (f : Fst W) : List (DElt W) → LabelMap W → R (LabelMap W)
  | [], m => .ok m
  | e :: es, m =>
    match f.getTrsR e.state with
    | .error x => .error x
    | .ok trs => detCollect f es (trs.foldl (fun m tr => lmPush m tr.ilabel ⟨tr.nextstate, e.weight * tr.weight⟩) m)

/-- The common divisor of all weights, starting from `d` (determinize_fsa_op.rs 153-155). -/
def commonFold (o : DetOps W) : W → List W → R W
  | d, [] => .ok d
  | d, w :: ws =>
    match o.common d w with
    | .error x => .error x
    | .ok d => commonFold o d ws

/-- The `entry` of `new_pairs` (determinize_fsa_op.rs 159-166). -/
def mergeInto (o : DetOps W) : List (DElt W) → DElt W → R (List (DElt W))
  | [], e => .ok [e]
  | a :: as, e =>
    if a.state = e.state then
      match o.plus a.weight e.weight with
      | .error x => .error x
      | .ok w => .ok (⟨a.state, w⟩ :: as)
    else
      match mergeInto o as e with
      | .error x => .error x
      | .ok as => .ok (a :: as)

/-- The loop that adds up the weights of equal states (determinize_fsa_op.rs 157-167). -/
def mergePairs (o : DetOps W) : List (DElt W) → List (DElt W) → R (List (DElt W))
  | acc, [] => .ok acc
  | acc, e :: es =>
    match mergeInto o acc e with
    | .error x => .error x
    | .ok acc => mergePairs o acc es

/-- Divide and quantize (determinize_fsa_op.rs 171-176). -/
def divideAll (o : DetOps W) (d : W) : List (DElt W) → R (List (DElt W))
  | [] => .ok []
  | e :: es =>
    match o.divide e.weight d with
    | .error x => .error x
    | .ok q =>
      match o.quantize q with
      | .error x => .error x
      | .ok q =>
        match divideAll o d es with
        | .error x => .error x
        | .ok es => .ok (⟨e.state, q⟩ :: es)

/-- `norm_tr` (determinize_fsa_op.rs 146-179): the weight and the subset; `ord` is the order of `new_pairs.values()`. -/
def normTr (o : DetOps W) (ord : List (DElt W) → List (DElt W)) (pairs : List (DElt W)) : R (W × List (DElt W)) :=
  let pairs := pairs.insertionSort (fun a b => a.state ≤ b.state)
  match commonFold o 0 (pairs.map (·.weight)) with
  | .error x => .error x
  | .ok d =>
    match mergePairs o [] pairs with
    | .error x => .error x
    | .ok ps =>
      match divideAll o d (ord ps) with
      | .error x => .error x
      | .ok ps => .ok (d, ps)

/-- The loops over the label map (determinize_fsa_op.rs 84-97), before the tuples are numbered. -/
def normAll (o : DetOps W) (ord : Label → List (DElt W) → List (DElt W)) : LabelMap W → R (List (MTr (DTup W) W))
  | [] => .ok []
  | (l, ps) :: m =>
    match normTr o (ord l) ps with
    | .error x => .error x
    | .ok (d, ps) =>
      match normAll o ord m with
      | .error x => .error x
      | .ok as => .ok (⟨l, l, d, ⟨ps, 0⟩⟩ :: as)

/-- `compute_trs` (determinize_fsa_op.rs 57-101). -/
def detTrs (f : Fst W) (o : DetOps W) (ord : DTup W → Label → List (DElt W) → List (DElt W)) (t : DTup W) : R (List (MTr (DTup W) W)) :=
  match detCollect f t.subset [] with
  | .error x => .error x
  | .ok m => normAll o (ord t) m

/-- The loop of `compute_final_weight` (determinize_fsa_op.rs 105-116). -/
def detFinSum (f : Fst W) (o : DetOps W) : W → List (DElt W) → R W
  | acc, [] => .ok acc
  | acc, e :: es =>
    match f.finalWeightR e.state with
    | .error x => .error x
    | .ok w =>
      match o.plus acc (e.weight * w.getD 0) with
      | .error x => .error x
      | .ok acc => detFinSum f o acc es

/-- `compute_final_weight` (determinize_fsa_op.rs 103-122). -/
def detFin (f : Fst W) (o : DetOps W) (t : DTup W) : R (Option W) :=
  match detFinSum f o 0 t.subset with
  | .error x => .error x
  | .ok w => if w = 0 then .ok none else .ok (some w)

/-- `DeterminizeFsaOp` as an `FstOp` (determinize_fsa_op.rs 36-127) without `in_dist`. -/
def detOp (f : Fst W) (o : DetOps W) (ord : DTup W → Label → List (DElt W) → List (DElt W)) : TupleOp (DTup W) W where
  start := .ok (f.start.map fun s => ⟨[⟨s, 1⟩], s⟩)
  trs := detTrs f o ord
  fin := detFin f o
  props := fun _ => false

/-- `determinize_fsa` (determinize_static.rs 43-56) with `DeterminizeFsa` (determinize_fsa.rs 130-156). -/
def determinizeFsa (f : Fst W) (o : DetOps W) (ord : DTup W → Label → List (DElt W) → List (DElt W)) (n : Nat) : Option (R (Fst W)) :=
  if o.leftSemiring = false then some (.error .err)
  else if f.props.has .acceptor = false then some (.error .err)
  else (Lz.compute mapCache ((detOp f o ord).withTable BiMap.findId BiMap.findTuple) n ⟨mapCache.empty, BiMap.new⟩).map (·.1)

/-- `determinize_with_config` (determinize_static.rs 184-210) on an FST with the `ACCEPTOR` flag, symbol tables aside; `distinct` says
that the type is not `DeterminizeNonFunctional`. -/
def determinize (f : Fst W) (o : DetOps W) (ord : DTup W → Label → List (DElt W) → List (DElt W)) (distinct : Bool) (n : Nat) :
    Option (R (Fst W)) :=
  match determinizeFsa f o ord n with
  | none => none
  | some (.error x) => some (.error x)
  | some (.ok g) => some (.ok (g.setProps (Props.determinize f.props false distinct)))

end
end Verif
