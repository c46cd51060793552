import Verif.Model.Minimize
import Verif.Model.TrMap
import Verif.Model.Reweight

/-!
# Minimization of weighted acceptors (`algorithms/minimize.rs` 98-170)

The weights are pushed towards the start state and rounded; then each transition's labels and weight are encoded as one label, so that the
algorithm for unweighted acceptors applies. The parameters are those of `push_weights` (`divL`, `divR`, `rev`, `back`, `sf`, `eqv`), of
`acceptor_minimize` (`lt`, `rev`, `merge`) and `q`, which rounds a weight (`quantize_assign` with the configured delta). Only the default push
configuration is used (`remove_total_weight: false`).
-/

namespace Verif
universe u v
variable {W : Type u} {V : Type v}

namespace Fst

/-- `encode`, `acceptor_minimize`, `decode` (minimize.rs 163-165). -/
def minimizeEncoded [Zero W] [One W] [Add W] [Mul W] [DecidableEq W] [Zero V] [One V] [DecidableEq V] (lt : W → W → Bool) (rev : W → V)
    (merge : List (List (Tr V)) → List (Tr V)) (allowAcyclic : Bool) (f : Fst W) (n : Nat) : Option (R (Fst W)) :=
  match f.encode .encodeWeightsAndLabels with
  | .error e => some (.error e)
  | .ok (T, e) =>
    match acceptorMinimize lt rev merge allowAcyclic e n with
    | none => none
    | some (.error e) => some (.error e)
    | some (.ok m) => some (m.decode .encodeWeightsAndLabels T)

section
variable [Zero W] [One W] [Add W] [Mul W] [DecidableEq W] [Zero V] [One V] [Add V] [Mul V] [DecidableEq V]

/-- The branch for weighted acceptors (minimize.rs 157-165). -/
def minimizeWeighted (divL divR : W → W → R W) (rev : W → V) (back : V → W) (sf : SemiringFlags) (eqv : V → V → Bool) (q : W → R W)
    (lt : W → W → Bool) (merge : List (List (Tr V)) → List (Tr V)) (allowAcyclic : Bool) (f : Fst W) (n : Nat) : Option (R (Fst W)) :=
  match f.pushInitial divL divR rev back sf eqv false n with
  | none => none
  | some (.error e) => some (.error e)
  | some (.ok f) =>
    match f.trMap (quantizeMapper q) () with
    | .error e => some (.error e)
    | .ok (_, f) => f.minimizeEncoded lt rev merge allowAcyclic n

/-- `minimize_with_config` (minimize.rs 90-170). `transducer` is the branch for transducers (120-155). -/
def minimizeWith (divL divR : W → W → R W) (rev : W → V) (back : V → W) (sf : SemiringFlags) (eqv : V → V → Bool) (q : W → R W)
    (lt : W → W → Bool) (merge : List (List (Tr V)) → List (Tr V)) (transducer : Bool → Fst W → Nat → Option (R (Fst W)))
    (allowNondet : Bool) (f : Fst W) (n : Nat) : Option (R (Fst W)) :=
  match f.computeAndUpdate (Props.of [.acceptor, .iDeterministic, .weighted, .unweighted]) with
  | .error e => some (.error e)
  | .ok (f, p) =>
    if !p .iDeterministic && (!sf.idempotent || !allowNondet) then some (.error .err)
    else if !p .acceptor then transducer (p .iDeterministic) f n
    else if p .weighted then f.minimizeWeighted divL divR rev back sf eqv q lt merge (p .iDeterministic) n
    else acceptorMinimize lt rev merge (p .iDeterministic) f n

end
end Fst
end Verif
