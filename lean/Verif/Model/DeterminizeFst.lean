import Verif.Model.Determinize
import Verif.Model.FactorWeight
import Verif.Model.Convert

/-!
# Determinization of transducers (`determinize/determinize_static.rs` 58-118, `determinize/divisors.rs`)

The output labels are moved into gallic weights, the acceptor over these weights is determinized, final strings are factored into
single labels, and the labels are moved back.
-/

namespace Verif
universe u v
variable {W : Type u} {V : Type v}

/-! ### Common divisors of gallic weights -/

/-- `LabelCommonDivisor` (divisors.rs 28-53). The iterator over an infinite string yields the infinite string once
(string_variant.rs 91-96), so no `unwrap` fails. -/
def labelCommon : StrW → StrW → StrW
  | .labels [], _ => .labels []
  | _, .labels [] => .labels []
  | .inf, .inf => .inf
  | .inf, .labels (b :: _) => .labels [b]
  | .labels (a :: _), .inf => .labels [a]
  | .labels (a :: _), .labels (b :: _) => if a = b then .labels [a] else .labels []

/-- `GallicCommonDivisor` on pairs (divisors.rs 62-72); `plus` is `DefaultCommonDivisor`. -/
def gallicCommon (plus : W → W → R W) (a b : StrW × W) : R (StrW × W) := pairR (.ok (labelCommon a.1 b.1)) (plus a.2 b.2)

/-- The loop of `GallicCommonDivisor` on union weights (divisors.rs 81-83). -/
def gallicCommonAll (plus : W → W → R W) : StrW × W → List (StrW × W) → R (StrW × W)
  | d, [] => .ok d
  | d, w :: ws =>
    match gallicCommon plus d w with
    | .error e => .error e
    | .ok d => gallicCommonAll plus d ws

/-- `GallicCommonDivisor` on `GallicWeight` (divisors.rs 78-90). -/
def gallicUnionCommon [Zero W] [DecidableEq W] (plus : W → W → R W) (a b : List (StrW × W)) : R (List (StrW × W)) :=
  match gallicCommonAll plus (.inf, 0) (a ++ b) with
  | .error e => .error e
  | .ok w => if w = (.inf, 0) then .ok [] else .ok [w]

/-! ### The operations of the three kinds of gallic weights -/

/-- `GallicWeightRestrict<W>`: strings that are added must be equal. `o` are the operations of `W`. -/
def restrictDet (o : DetOps W) : DetOps (StrW × W) where
  plus a b := pairR (StrW.plusRestrict a.1 b.1) (o.plus a.2 b.2)
  common := gallicCommon o.plus
  divide := prodDivide StrW.divideLeft o.divide
  quantize := prodQuantize strQuantize o.quantize
  leftSemiring := o.leftSemiring

/-- `GallicWeightMin<W>`: the sum is the summand with the smaller weight. -/
def minDet [DecidableEq W] (w : WeightOps W) (o : DetOps W) : DetOps (StrW × W) where
  plus := gallicMinPlus w
  common := gallicCommon o.plus
  divide := prodDivide StrW.divideLeft o.divide
  quantize := prodQuantize strQuantize o.quantize
  leftSemiring := o.leftSemiring

/-- `GallicWeight<W>`: lists of pairs. `w` and `o` are the operations of `W`. -/
def unionDet [Zero W] [DecidableEq W] (w : WeightOps W) (o : DetOps W) : DetOps (List (StrW × W)) where
  plus := (gallicOps w).plus
  common := gallicUnionCommon o.plus
  divide := unionDivide (gallicOpt w) (prodDivide StrW.divideLeft o.divide)
  quantize := unionQuantize (gallicOpt w) (prodQuantize strQuantize o.quantize) []
  leftSemiring := o.leftSemiring

/-! ### The pipeline -/

/-- `factor_opts` (determinize_static.rs 69-76). -/
def detFwOpts : FwOpts := ⟨true, false, EPS, EPS, false, false⟩

section
variable [Zero W] [One W] [DecidableEq W] [Zero V] [One V] [Mul V] [DecidableEq V]

/-- An arm of `determinize_fst` (determinize_static.rs 78-116): `V` are the gallic weights with their operations `o`, `mk` (`into`) and `extract`;
`factors` is the factor iterator and `quantize` is `quantize_assign(KDELTA)`. -/
def determinizeVia (mk : StrW × W → V) (extract : V → R (W × Label)) (o : DetOps V) (factors : V → List (V × V)) (quantize : V → R V)
    (ord : DTup V → Label → List (DElt V) → List (DElt V)) (f : Fst W) (n : Nat) : Option (R (Fst W)) :=
  match f.weightConvert (toGallic mk) with
  | .error e => some (.error e)
  | .ok g =>
    match determinizeFsa g o ord n with
    | none => none
    | some (.error e) => some (.error e)
    | some (.ok d) =>
      match factorWeight d factors quantize detFwOpts n with
      | none => none
      | some (.error e) => some (.error e)
      | some (.ok h) => some (h.weightConvert (fromGallic extract EPS))

/-- `determinize_with_config` (determinize_static.rs 184-210) on an FST without the `ACCEPTOR` flag, symbol tables aside; `distinct` says
that the type is not `DeterminizeNonFunctional`. -/
def determinizeT (mk : StrW × W → V) (extract : V → R (W × Label)) (o : DetOps V) (factors : V → List (V × V)) (quantize : V → R V)
    (ord : DTup V → Label → List (DElt V) → List (DElt V)) (distinct : Bool) (f : Fst W) (n : Nat) : Option (R (Fst W)) :=
  match determinizeVia mk extract o factors quantize ord f n with
  | none => none
  | some (.error x) => some (.error x)
  | some (.ok g) => some (.ok (g.setProps (Props.determinize f.props false distinct)))

end
end Verif
