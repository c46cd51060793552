import Verif.Model.NShortest
import Verif.Model.Determinize

/-!
# `shortest_path` with `unique = true` (`algorithms/shortest_path.rs`, `algorithms/determinize/`)

The reversed FST is determinized, which leaves one path for each string, and its best paths are searched. `rev` is `reverse`, `into` the
conversion to the reversed weights, `back` is `reverse_back`.
-/

namespace Verif
universe u v

section
variable {W : Type u} [Zero W] [One W] [Mul W] [DecidableEq W]

/-- The loop of `compute_distance` (determinize/state_table.rs 21-35). A state without a distance counts as zero. -/
def outSum (o : DetOps W) (dist : List W) : W → List (DElt W) → R W
  | acc, [] => .ok acc
  | acc, e :: es =>
    match o.plus acc (e.weight * (dist[e.state]?).getD 0) with
    | .error x => .error x
    | .ok acc => outSum o dist acc es

/-- `out_dist` (determinize_fsa_op.rs 186-195): one distance for each tuple of the table, in order. The code computes them when the tuples
are numbered (determinize/state_table.rs 77-96); a failing sum would show earlier there. -/
def outDists (o : DetOps W) (dist : List W) : List (DTup W) → R (List W)
  | [] => .ok []
  | t :: ts =>
    match outSum o dist 0 t.subset with
    | .error x => .error x
    | .ok d =>
      match outDists o dist ts with
      | .error x => .error x
      | .ok ds => .ok (d :: ds)

/-- `determinize_with_distance` (determinize_static.rs 24-39), `compute_with_distance` (determinize_fsa.rs 166-173). -/
def determinizeWithDistance (f : Fst W) (o : DetOps W) (ord : DTup W → Label → List (DElt W) → List (DElt W)) (dist : List W) (n : Nat) :
    Option (R (Fst W × List W)) :=
  if o.leftSemiring = false then some (.error .err)
  else if f.props.has .acceptor = false then some (.error .err)
  else
    match Lz.compute mapCache ((detOp f o ord).withTable BiMap.findId BiMap.findTuple) n ⟨mapCache.empty, BiMap.new⟩ with
    | none => none
    | some (.error x, _) => some (.error x)
    | some (.ok g, z) =>
      match outDists o dist z.op.ofId with
      | .error x => some (.error x)
      | .ok ds => some (.ok (g, ds))

end

namespace Fst
variable {W : Type u} {V : Type v} [Zero W] [One W] [Add W] [Mul W] [DecidableEq W] [Zero V] [One V] [Mul V] [DecidableEq V]

/-- `shortest_path_with_config` with `unique = true` (107-172), without the symbol tables. For `n = 1` the option is not looked at. -/
def shortestUnique (sf : SemiringFlags) (eqv : W → W → Bool) (rev into : W → V) (back : V → W) (o : DetOps V)
    (ord : DTup V → Label → List (DElt V) → List (DElt V)) (f : Fst W) (n : Nat) (fuel : Nat) : Option (R (Fst W)) :=
  if n = 0 then some (.ok Fst.new)
  else if n = 1 then f.shortestPath sf fuel
  else if sf.path = false ∨ sf.left = false ∨ sf.right = false then some (.error .err)
  else
    match f.shortestDistance sf eqv fuel with
    | none => none
    | some (.error x) => some (.error x)
    | some (.ok dist) =>
      match f.reverse rev with
      | .error x => some (.error x)
      | .ok g =>
        match determinizeWithDistance g o ord ((superDist back g dist :: dist).map into) fuel with
        | none => none
        | some (.error x) => some (.error x)
        | some (.ok (h, ds)) => h.nShortest sf eqv back (ds.map back) n fuel

end Fst
end Verif
