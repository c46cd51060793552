import Verif.Model.RandGen
import Verif.Model.RmEpsilon

/-!
# Delayed removal of epsilon transitions (`algorithms/rm_epsilon/rm_epsilon_op.rs`, `rm_epsilon_fst.rs`)

Symbol tables, which are only handed over, are left out.
-/

namespace Verif
universe u v w
variable {W : Type u}

/-- `RmEpsilonOp` (rm_epsilon_op.rs 19-81): the state in the `RefCell` is handed over from one call to the next. A call that does not end
within the fuel counts as a panic; a call that fails leaves the state as it was before, which no one can see since the `RefCell` is not
read otherwise and the caller has the failure. -/
def rmEpsOp [Zero W] [One W] [Add W] [Mul W] [DecidableEq W] (eqv : W → W → Bool) (sf : SemiringFlags) (f : Fst W) (fuel : Nat) :
    LazyOp2 (RmEps W (List StateId)) W where
  computeStart o := (.ok f.start, o)
  computeTrsFinal s o :=
    match RmEps.computeTrs eqv sf f s fuel o with
    | none => (.error .panic, o)
    | some (.error e) => (.error e, o)
    | some (.ok (row, o')) => (.ok row, o')
  props := f.props.rmepsilon true

/-- `RmEpsilonFst::new` (rm_epsilon_fst.rs 145-152): nothing is computed yet. -/
def rmEpsilonFst [Zero W] [One W] : Lz (MapCache W) (RmEps W (List StateId)) := ⟨mapCache.empty, RmEps.new []⟩

namespace Lz
variable {C : Type v} {σ : Type w} (K : CacheOps W C) (O : LazyOp2 σ W)

/-- What can be asked of a `LazyFst2` (lazy_fst_2.rs 26-97). -/
inductive Query2
  | start
  | fin (s : StateId)
  | trs (s : StateId)
  | numTrs (s : StateId)
  | numIEps (s : StateId)
  | numOEps (s : StateId)
  deriving DecidableEq

/-- One query: `start` (29-39), `final_weight` (41-52), `get_trs` (68-78), and the counters of the cache, `num_trs` (58-62),
`num_input_epsilons` (87-91) and `num_output_epsilons` (93-97), which are those of `LazyFst`. -/
def ask2 (z : Lz C σ) : Query2 → Answer W × Lz C σ
  | .start => (.start (z.start2 K O).1, (z.start2 K O).2)
  | .fin s => (.fin (z.finalWeight2 K O s).1, (z.finalWeight2 K O s).2)
  | .trs s => (.trs (z.getTrs2 K O s).1, (z.getTrs2 K O s).2)
  | .numTrs s => (.num (z.numTrs K s), z)
  | .numIEps s => (.num (z.numIEps K s), z)
  | .numOEps s => (.num (z.numOEps K s), z)

/-- A history of queries: the answers, and what is left. -/
def run2 (z : Lz C σ) : List Query2 → List (Answer W) × Lz C σ
  | [] => ([], z)
  | q :: qs => ((z.ask2 K O q).1 :: (run2 (z.ask2 K O q).2 qs).1, (run2 (z.ask2 K O q).2 qs).2)

end Lz
end Verif
