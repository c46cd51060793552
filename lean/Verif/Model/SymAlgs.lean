import Verif.Model.SymFst
import Verif.Model.Rational
import Verif.Model.Dfs
import Verif.Model.Compose
import Verif.Model.ShortestPath

/-!
# What the algorithms do to the attached symbol tables

Each definition adds the tables to a function modelled elsewhere. Functions that work on `&mut F` and never mention the tables leave
those of the FST they change.
-/

namespace Verif
universe u v
variable {W : Type u}

namespace SymFst

/-- Put the FST that a fallible function returns next to the given tables. -/
def attach (i o : Option SymTable) : R (Fst W) → R (SymFst W)
  | .error e => .error e
  | .ok f => .ok ⟨f, i, o⟩

section
variable [Zero W] [One W] [DecidableEq W]

/-- `invert` (inversion.rs 32-48): the tables are not mentioned. -/
def invert (x : SymFst W) : SymFst W := { x with fst := x.fst.invert }

/-- `project` (projection.rs 65-93): the tables are not mentioned. -/
def project (x : SymFst W) (ty : ProjectType) : SymFst W := { x with fst := x.fst.project ty }

/-- `union` (union_static.rs 56-119): the tables of the second FST are not read. -/
def union (x y : SymFst W) : R (SymFst W) := attach x.isymt x.osymt (x.fst.union y.fst)

/-- `concat` (concat_static.rs 53-109): the tables of the second FST are not read. -/
def concat (x y : SymFst W) : SymFst W := { x with fst := x.fst.concat y.fst }

/-- `closure` (closure_static.rs 27-71). -/
def closure (x : SymFst W) (ty : Fst.ClosureType) : SymFst W := { x with fst := x.fst.closure ty }

/-- `connect` (connect.rs 52-67). -/
def connect (x : SymFst W) : R (SymFst W) := attach x.isymt x.osymt x.fst.connect

/-- `reverse` (reverse.rs 33-87); `set_symts_from_fst` (reverse.rs 78; mutable_fst.rs 448-460) copies both tables to the new FST. -/
def reverse {V : Type v} [Zero V] [One V] [DecidableEq V] (rev : W → V) (x : SymFst W) : R (SymFst V) :=
  attach x.isymt x.osymt (x.fst.reverse rev)
end

/-- What `LazyFst::compute` attaches to its result (lazy_fst.rs 229-232, 263-268): nothing if there is no start state, because of the early
`return`. `compute` sets the start state of its result exactly if the lazy FST has one. -/
def ofCompute (C : Fst W) (i o : Option SymTable) : SymFst W :=
  if C.start = none then ⟨C, none, none⟩ else ⟨C, i, o⟩

/-- `compose_with_config` (compose_static.rs 166-269) with the tables that `ComposeFst::new` collects (compose_fst.rs 123-124, 194-195): those
of the outer tapes. The tables of the middle tape are not compared. -/
def composeWith [Zero W] [One W] [Mul W] [DecidableEq W] {FS : Type} [DecidableEq FS] (F : ComposeFilter FS W) (connect : Bool) (x y : SymFst W) (n : Nat) : Option (R (SymFst W)) :=
  match composeNew x.fst y.fst F with
  | .error e => some (.error e)
  | .ok op =>
    match Lz.compute vecCache (op.withTable BiMap.findId BiMap.findTuple) n ⟨vecCache.empty, BiMap.new⟩ with
    | none => none
    | some (.error e, _) => some (.error e)
    | some (.ok C, _) => some (if connect then (ofCompute C x.isymt y.osymt).connect else .ok (ofCompute C x.isymt y.osymt))

/-- `compose` (compose_static.rs 294-306). -/
def compose [Zero W] [One W] [Mul W] [DecidableEq W] (x y : SymFst W) (n : Nat) : Option (R (SymFst W)) := composeWith seqFilter true x y n

/-- `shortest_path` with `nshortest` 1 (shortest_path.rs 125-134). -/
def shortestPath [Zero W] [One W] [Add W] [Mul W] [DecidableEq W] (sf : SemiringFlags) (x : SymFst W) (n : Nat) : Option (R (SymFst W)) :=
  (x.fst.shortestPath sf n).map (attach x.isymt x.osymt)

/-- `shortest_path` with `nshortest` 0 (shortest_path.rs 121-123). -/
def noShortestPath [Zero W] [One W] (_ : SymFst W) : SymFst W := ⟨Fst.new, none, none⟩

end SymFst
end Verif
