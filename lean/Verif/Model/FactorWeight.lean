import Verif.Model.Lazy
import Verif.Model.Weights

/-!
# `factor_weight` (factor_weight_op.rs) and the factor iterators

A factor iterator is modelled by the list of the pairs it yields: `FI::new(w).done()` holds iff the list for `w` is empty. This is how
all the iterators of the library behave: `next` returns `None` iff `done()`.
-/

namespace Verif
universe u v
variable {W : Type u}

/-- `FactorWeightOptions` (config.rs 31-45). `mode` is the pair of its two bits; `delta` is an argument of `quantize` only. -/
structure FwOpts where
  factorFinal : Bool
  factorTr : Bool
  finalIlabel : Label
  finalOlabel : Label
  incIlabel : Bool
  incOlabel : Bool
  deriving DecidableEq

section
variable [Zero W] [One W] [Mul W] [DecidableEq W] (f : Fst W) (factors : W → List (W × W)) (quantize : W → R W) (o : FwOpts)

/-- The factors of a transition weight (factor_weight_op.rs 69-79): one transition for each, the second factor is kept for later. -/
def fwSplit (t : Tr W) : List (W × W) → R (List (MTr (FwElt W) W))
  | [] => .ok []
  | p :: ps =>
    match quantize p.2 with
    | .error e => .error e
    | .ok r =>
      match fwSplit t ps with
      | .error e => .error e
      | .ok l => .ok (⟨t.ilabel, t.olabel, p.1, ⟨some t.nextstate, r⟩⟩ :: l)

/-- The transitions for one transition of the input (57-80). -/
def fwTr (w : W) (t : Tr W) : R (List (MTr (FwElt W) W)) :=
  let weight := w * t.weight
  if o.factorTr = false ∨ factors weight = [] then .ok [⟨t.ilabel, t.olabel, weight, ⟨some t.nextstate, 1⟩⟩]
  else fwSplit quantize t (factors weight)

/-- The loop over the transitions of the input (57-80). -/
def fwTrLoop (w : W) : List (Tr W) → R (List (MTr (FwElt W) W))
  | [] => .ok []
  | t :: ts =>
    match fwTr factors quantize o w t with
    | .error e => .error e
    | .ok l =>
      match fwTrLoop w ts with
      | .error e => .error e
      | .ok m => .ok (l ++ m)

/-- The factors of a final weight (92-108): the labels are counted up if the options say so (`u32` overflow not modelled). -/
def fwFinals (il ol : Label) : List (W × W) → R (List (MTr (FwElt W) W))
  | [] => .ok []
  | p :: ps =>
    match quantize p.2 with
    | .error e => .error e
    | .ok r =>
      match fwFinals (if o.incIlabel then il + 1 else il) (if o.incOlabel then ol + 1 else ol) ps with
      | .error e => .error e
      | .ok l => .ok (⟨il, ol, p.1, ⟨none, r⟩⟩ :: l)

/-- `compute_trs` up to line 80: nothing for an element without a state. -/
def fwArcs (e : FwElt W) : R (List (MTr (FwElt W) W)) :=
  match e.state with
  | none => .ok []
  | some s =>
    match f.getTrsR s with
    | .error e => .error e
    | .ok ts => fwTrLoop factors quantize o e.weight ts

/-- Lines 81-92: the final weight to factor, if it is to be factored. -/
def fwFinalOf (e : FwElt W) : R (Option W) :=
  if o.factorFinal = false then .ok none
  else match e.state with
    | none => .ok (some e.weight)
    | some s =>
      match f.isFinalR s with
      | .error e => .error e
      | .ok false => .ok none
      | .ok true =>
        match f.finalWeightR s with
        | .error e => .error e
        | .ok r => .ok (some (e.weight * r.getD 1))

/-- Lines 81-109. -/
def fwTail (e : FwElt W) : R (List (MTr (FwElt W) W)) :=
  match fwFinalOf f o e with
  | .error e => .error e
  | .ok none => .ok []
  | .ok (some w) => fwFinals quantize o o.finalIlabel o.finalOlabel (factors w)

/-- `compute_trs` (53-112). `times` does not fail, so `unwrap` is not modelled. -/
def fwTrs (e : FwElt W) : R (List (MTr (FwElt W) W)) :=
  match fwArcs f factors quantize o e with
  | .error e => .error e
  | .ok l =>
    match fwTail f factors quantize o e with
    | .error e => .error e
    | .ok m => .ok (l ++ m)

/-- The final weight of an element before factoring (116-123). -/
def fwWeight (e : FwElt W) : R W :=
  match e.state with
  | none => .ok e.weight
  | some s =>
    match f.finalWeightR s with
    | .error e => .error e
    | .ok r => .ok (e.weight * r.getD 0)

/-- `compute_final_weight` (114-130). -/
def fwFin (e : FwElt W) : R (Option W) :=
  match fwWeight f e with
  | .error e => .error e
  | .ok w => .ok (if ¬ w = 0 ∧ (o.factorFinal = false ∨ factors w = []) then some w else none)

/-- `FactorWeightOp` (40-135). -/
def fwOp : TupleOp (FwElt W) W where
  start := .ok (f.start.map fun s => ⟨some s, 1⟩)
  trs := fwTrs f factors quantize o
  fin := fwFin f factors o
  props := Props.factorWeight f.props

/-- `FactorWeightOp::new` (141-156): an error if nothing is to be factored. -/
def fwNew : R (TupleOp (FwElt W) W) :=
  if o.factorFinal = false ∧ o.factorTr = false then .error .err else .ok (fwOp f factors quantize o)

/-- `factor_weight` (factor_weight_static.rs 14-24): the lazy FST with a `SimpleHashMapCache`, then `compute`. -/
def factorWeight (n : Nat) : Option (R (Fst W)) :=
  match fwNew f factors quantize o with
  | .error e => some (.error e)
  | .ok op =>
    (Lz.compute mapCache (op.withTable FwTable.findState FwTable.findTuple) n ⟨mapCache.empty, FwTable.new o.factorTr⟩).map (·.1)

end

/-! ### The iterators of the library -/

/-- `IdentityFactor` (identity_factor.rs 25-41). -/
def identityFactor (_ : W) : List (W × W) := []

/-- `StringFactorLeft`, `StringFactorRight`, `StringFactorRestrict` (string_factor.rs 29-66): the first label and the rest. -/
def stringFactor : StrW → List (StrW × StrW)
  | .inf => []
  | .labels [] => []
  | .labels (a :: l) => [(.labels [a], .labels l)]

/-- `GallicFactorLeft`, `GallicFactorRight`, `GallicFactorRestrict`, `GallicFactorMin` (gallic_factor.rs 40-84): the string is split if it has two or more
labels, and the weight goes with the first. -/
def gallicFactor [One W] (w : StrW × W) : List ((StrW × W) × (StrW × W)) :=
  match w.1 with
  | .inf => []
  | .labels l => if l.length ≤ 1 then [] else (stringFactor (.labels l)).map fun p => ((p.1, w.2), (p.2, 1))

/-- One step of `GallicFactor` (gallic_factor.rs 97-115). -/
def gallicUnionStep [One W] (w : StrW × W) : List (StrW × W) × List (StrW × W) :=
  match stringFactor w.1 with
  | p :: _ => ([(p.1, w.2)], [(p.2, 1)])
  | [] => ([(.labels [], w.2)], [(.labels [], 1)])

/-- `GallicFactor` (gallic_factor.rs 86-135): the terms of the union one by one. -/
def gallicUnionFactor [One W] (l : List (StrW × W)) : List (List (StrW × W) × List (StrW × W)) :=
  match l with
  | [] => []
  | [w] => if w.1.lenLabels ≤ 1 then [] else [gallicUnionStep w]
  | l => l.map gallicUnionStep

/-! ### Quantization -/

/-- `quantize` of string weights (string_weight.rs 210-215). -/
def strQuantize (w : StrW) : R StrW := .ok w

/-- `quantize` of product weights (product_weight.rs 157-167), also of the gallic weights made from them (gallic_weight.rs 215-219). -/
def prodQuantize {A : Type u} {B : Type v} (q : A → R A) (r : B → R B) (w : A × B) : R (A × B) := pairR (q w.1) (r w.2)

/-- The loop of `quantize_assign` of union weights (union_weight.rs 250-257): every element is quantized twice, then pushed. -/
def unionQuantize (o : UnionOpt W) (q : W → R W) (acc : List W) : List W → R (List W)
  | [] => .ok acc
  | e :: l =>
    match q e with
    | .error x => .error x
    | .ok e1 =>
      match q e1 with
      | .error x => .error x
      | .ok e2 =>
        match pushBack o acc e2 with
        | .error x => .error x
        | .ok acc => unionQuantize o q acc l

/-- `quantize` of float weights (semiring.rs 132-145), idealised: `floor` is the floor of the field, infinite weights stay. -/
def floatQuantize {K : Type u} [Add K] [Mul K] [Div K] (floor : K → K) (half delta : K) (v : K) : K := floor (v / delta + half) * delta

end Verif
