import Verif.Model.GallicLeft
import Verif.Model.MinimizeFull
import Verif.Model.FactorWeight
import Verif.Model.Convert

/-!
# Minimization of transducers (`algorithms/minimize.rs` 118-154)

The output labels are moved into `GallicWeightLeft` weights, the acceptor that results is minimized like any weighted acceptor, its weights are split so that each
has at most one label, and the labels are moved out again. The parameters are those of `minimizeWeighted` for the weights `W`, from which those for
the gallic weights are made, and `qd`, which is `quantize_assign(KDELTA)`. `merge` is the heap for the reversed gallic weights.
-/

namespace Verif
universe u v
variable {W : Type u} {V : Type v}

/-- `factor_opts` (minimize.rs 137-144). -/
def minFwOpts : FwOpts := ⟨true, true, EPS, EPS, false, false⟩

namespace Fst
variable [Semiring W] [DecidableEq W] [Semiring V] [DecidableEq V]

/-- The branch for transducers (minimize.rs 118-154). -/
def minimizeTransducer (divL : W → W → R W) (rev : W → V) (back : V → W) (sf : SemiringFlags) (eqv : V → V → Bool) (q qd : W → R W)
    (lt : W → W → Bool) (merge : List (List (Tr (StrR × V))) → List (Tr (StrR × V))) (allowAcyclic : Bool) (f : Fst W) (n : Nat) : Option (R (Fst W)) :=
  match f.weightConvert (toGallic (V := StrW × W) id) with
  | .error e => some (.error e)
  | .ok g =>
    match g.minimizeWeighted (gallicDivL divL) gallicDivR (gallicRev rev) (gallicBack back) (gallicRightFlags sf) (gallicEqv eqv) (prodQuantize strQuantize q)
        (gallicLt lt) merge allowAcyclic n with
    | none => none
    | some (.error e) => some (.error e)
    | some (.ok h) =>
      match factorWeight h gallicFactor (prodQuantize strQuantize qd) minFwOpts n with
      | none => none
      | some (.error e) => some (.error e)
      | some (.ok h) => some (h.weightConvert (fromGallic extractPair EPS))

end Fst
end Verif
