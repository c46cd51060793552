import Verif.Model.MinimizeTr
import Verif.Model.Reweight
import Verif.Model.TrMap

/-!
# Pushing labels (`algorithms/push.rs` 178-317)

The output labels are moved into the weights, the gallic weights that result are pushed, and the labels are moved out again. Towards the initial state
this is done with `GallicWeightLeft` (`StrW × W`), towards the final states with `GallicWeightRight` (`StrR × W`).
-/

namespace Verif
universe u v
variable {W : Type u} {V : Type v}

/-- `PushType` (push.rs 24-31). -/
structure PushType where
  weights : Bool
  labels : Bool
  removeTotal : Bool
  removeAffix : Bool
deriving DecidableEq, Repr

/-- `divide_assign` of `GallicWeightRight` (gallic_weight.rs 195-211) for `DivideRight`. -/
def gallicRightDiv (divR : W → W → R W) (a b : StrR × W) : R (StrR × W) := prodDivide StrW.divideRight divR a b

/-- … and for the other types, which `StringWeightRight` refuses (string_weight.rs 352-360). -/
def gallicRightDivL (_ _ : StrR × W) : R (StrR × W) := .error .err

namespace Fst
section
variable [Semiring W] [DecidableEq W]

/-- `uwfst` (push.rs 190-192): a copy of the FST, weights other than zero replaced by one. -/
def unweightedCopy (f : Fst W) : R (Fst W) :=
  match f.convert.trMap rmWeightMapper () with
  | .error e => .error e
  | .ok (_, g) => .ok g

/-- The part of the total weight that is removed (206-211). -/
def affixOf {S : Type v} [One S] (ty : PushType) (total : S × W) : S × W :=
  (if ty.removeAffix then total.1 else 1, if ty.removeTotal then total.2 else 1)

/-- The gallic FST whose distances are taken (181-199). -/
def distanceFst {S : Type v} [Zero S] [One S] [DecidableEq S] (mk : StrW × W → S × W) (pt : PushType) (f : Fst W) (g : Fst (S × W)) : R (Fst (S × W)) :=
  if pt.weights then .ok g
  else
    match f.unweightedCopy with
    | .error e => .error e
    | .ok u => u.weightConvert (toGallic mk)

/-- Lines 200-220, once the distances are known. -/
def pushGallic {S : Type v} [Zero S] [One S] [Add S] [Mul S] [DecidableEq S] (divL divR : S × W → S × W → R (S × W)) (ty : ReweightType) (pt : PushType)
    (d : List (S × W)) (g : Fst (S × W)) : R (Fst (S × W)) :=
  if pt.removeAffix || pt.removeTotal then
    match g.reweight divL divR ty d with
    | .error e => .error e
    | .ok h => h.removeWeight divL divR ty (affixOf pt (g.totalWeight ty d))
  else g.reweight divL divR ty d

/-- Lines 221-231. -/
def pullLabels (qd : W → R W) (h : Fst (StrW × W)) (n : Nat) : Option (R (Fst W)) :=
  match factorWeight h gallicFactor (prodQuantize strQuantize qd) minFwOpts n with
  | none => none
  | some (.error e) => some (.error e)
  | some (.ok h) => some (h.weightConvert (fromGallic extractPair EPS))

/-- `m_labels_pushing!` (178-233). `mk` makes a gallic weight of the wanted kind, `dist` is `shortest_distance_with_config`, `un` forgets the kind. -/
def pushLabels {S : Type v} [Zero S] [One S] [Add S] [Mul S] [DecidableEq S] (mk : StrW × W → S × W) (un : Fst (S × W) → Fst (StrW × W))
    (dist : Fst (S × W) → Nat → Option (R (List (S × W)))) (divL divR : S × W → S × W → R (S × W)) (qd : W → R W) (ty : ReweightType) (pt : PushType)
    (f : Fst W) (n : Nat) : Option (R (Fst W)) :=
  match f.weightConvert (toGallic mk) with
  | .error e => some (.error e)
  | .ok g =>
    match distanceFst mk pt f g with
    | .error e => some (.error e)
    | .ok u =>
      match dist u n with
      | none => none
      | some (.error e) => some (.error e)
      | some (.ok d) =>
        match pushGallic divL divR ty pt d g with
        | .error e => some (.error e)
        | .ok h => pullLabels qd (un h) n

end

variable [Semiring W] [DecidableEq W] [Semiring V] [DecidableEq V]

/-- The macro for `ReweightToInitial` (294-302). `rev`, `back`, `sf` and `eqv` are those of `pushInitial`, `qd` is `quantize_assign(KDELTA)`. -/
def pushLabelsInitial (divL : W → W → R W) (rev : W → V) (back : V → W) (sf : SemiringFlags) (eqv : V → V → Bool) (qd : W → R W) (pt : PushType) (f : Fst W)
    (n : Nat) : Option (R (Fst W)) :=
  pushLabels (S := StrW) id id (shortestDistanceRev (gallicRev rev) (gallicBack back) (gallicRightFlags sf) (gallicEqv eqv)) (gallicDivL divL) gallicDivR qd
    .toInitial pt f n

/-- The macro for `ReweightToFinal` (303-311). -/
def pushLabelsFinal (divR : W → W → R W) (sf : SemiringFlags) (eqv : W → W → Bool) (qd : W → R W) (pt : PushType) (f : Fst W) (n : Nat) : Option (R (Fst W)) :=
  pushLabels (S := StrR) id id (shortestDistance (gallicRightFlags sf) (gallicEqv eqv)) gallicRightDivL (gallicRightDiv divR) qd .toFinal pt f n

/-- `push_with_config` (271-317). `sf'` and `eqv'` are the properties and `approx_equal` of the weights themselves, `sf` and `eqv` those of the reversed weights. -/
def pushWithConfig (divL divR : W → W → R W) (rev : W → V) (back : V → W) (sf sf' : SemiringFlags) (eqv : V → V → Bool) (eqv' : W → W → Bool) (qd : W → R W)
    (ty : ReweightType) (pt : PushType) (f : Fst W) (n : Nat) : Option (R (Fst W)) :=
  if pt.weights && !pt.labels then
    match ty with
    | .toInitial => f.convert.pushInitial divL divR rev back sf eqv pt.removeTotal n
    | .toFinal => f.convert.pushFinal divL divR sf' eqv' pt.removeTotal n
  else if pt.labels then
    match ty with
    | .toInitial => f.pushLabelsInitial divL rev back sf eqv qd pt n
    | .toFinal => f.pushLabelsFinal divR sf' eqv' qd pt n
  else some (.ok f.convert)

end Fst
end Verif
