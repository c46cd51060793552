import Verif.Model.TrMap
import Verif.Model.Weights

/-!
# `weight_convert` and the converters
(`algorithms/weight_convert.rs`, `algorithms/weight_converters/*.rs`)

Symbol tables aside.
-/

namespace Verif
universe u v
variable {W : Type u} {V : Type v}

/-- `WeightConverter` (weight_convert.rs 12-17). No converter of the library has a state. -/
structure Converter (W : Type u) (V : Type v) where
  tr : Tr W → R (Tr V)
  fin : FinalTr W → R (FinalTr V)
  action : FinalAction
  props : Props → Props

section
variable [Zero V] [One V] [DecidableEq V]

/-- Loop 62-64: the transitions of `s`. The state exists, so `add_tr` does not fail. -/
def convTrs (c : Converter W V) (s : StateId) : List (Tr W) → Fst V → R (Fst V)
  | [], o => .ok o
  | t :: ts, o =>
    match c.tr t with
    | .error e => .error e
    | .ok t' => convTrs c s ts (o.addTr s t')

/-- Lines 72-121: what is done with the mapped final transition `t` of state `s`. -/
def convPlace (act : FinalAction) (o : Fst V) (sf : Option StateId) (s : StateId) (t : FinalTr V) : R (Fst V × Option StateId) :=
  match act with
  | .noSuperfinal => if t.labelled then .error .err else .ok (o.setFinal s t.weight, sf)
  | .allowSuperfinal =>
    if t.labelled then .ok (finToSuper (ensureSuper o sf).1 s t (ensureSuper o sf).2, some (ensureSuper o sf).2)
    else .ok (o.setFinal s t.weight, sf)
  | .requireSuperfinal =>
    match sf with
    | none => .error .panic
    | some q => if t.labelled = true ∨ t.weight ≠ 0 then .ok (finToSuper o s t q, sf) else .ok (o.delFinal s, sf)

/-- Lines 65-122: the final weight of `s`. -/
def convFin (c : Converter W V) (s : StateId) (o : Fst V) (sf : Option StateId) : Option W → R (Fst V × Option StateId)
  | none => .ok (o, sf)
  | some w =>
    match c.fin ⟨EPS, EPS, w⟩ with
    | .error e => .error e
    | .ok t => convPlace c.action o sf s t

/-- Body of loop 60-123: output FST and superfinal state. -/
def convState (c : Converter W V) (f : Fst W) (a : Fst V × Option StateId) (s : StateId) : R (Fst V × Option StateId) :=
  match convTrs c s (f.trsOf s) a.1 with
  | .error e => .error e
  | .ok o => convFin c s o a.2 (f.finOf s)

/-- Loop 44-46: `n` times `add_state`. -/
def freshStates : Nat → Fst V
  | 0 => Fst.new
  | n + 1 => (freshStates n).addState

/-- `weight_convert` (weight_convert.rs 21-133). -/
def Fst.weightConvert (f : Fst W) (c : Converter W V) : R (Fst V) :=
  match f.start with
  | none => .ok Fst.new
  | some i =>
    let a := initSuper c.action (freshStates f.numStates)
    match (List.range f.numStates).foldlM (convState c f) (a.1.setStart i, a.2) with
    | .error e => .error e
    | .ok (o, _) => .ok (o.setPropsMask ((c.props f.props).or o.props) Props.allMask)

end

/-! ### The converters -/

/-- `SimpleWeightConverter` (simple_weight_converter.rs 10-42): `g` is `SO::new(w.value().clone())`. -/
def simpleConverter (g : W → V) : Converter W V where
  tr t := .ok ⟨t.ilabel, t.olabel, g t.weight, t.nextstate⟩
  fin t := .ok ⟨t.ilabel, t.olabel, g t.weight⟩
  action := .noSuperfinal
  props p := p

/-- The string of an output label (to_gallic_converter.rs 23-29). -/
def outStr (l : Label) : StrW := if l = EPS then .labels [] else .labels [l]

/-- `ToGallicConverter` (to_gallic_converter.rs 15-60): `mk` makes a gallic weight of a pair (`into`). -/
def toGallic [Zero W] [DecidableEq W] (mk : StrW × W → V) : Converter W V where
  tr t := .ok ⟨t.ilabel, t.ilabel, mk (outStr t.olabel, t.weight), t.nextstate⟩
  fin t := if t.weight = 0 then .error .err else .ok ⟨EPS, EPS, mk (.labels [], t.weight)⟩
  action := .noSuperfinal
  props p := (p.and (Props.project p .projectInput)).and Props.weightInvariantMask

/-- `impl_extract_gallic_weight!` (from_gallic_mapper.rs 15-32). -/
def extractPair (g : StrW × W) : R (W × Label) :=
  match g.1 with
  | .inf => .error .err
  | .labels [] => .ok (g.2, EPS)
  | .labels [l] => .ok (g.2, l)
  | .labels _ => .error .err

/-- `extract_gallic` (from_gallic_mapper.rs 50-61). -/
def extractUnion [Zero W] (l : List (StrW × W)) : R (W × Label) :=
  match l with
  | [] => .ok (0, EPS)
  | [g] => extractPair g
  | _ => .error .err

/-- `FromGallicConverter` (from_gallic_mapper.rs 63-112): `extract` is the function for the kind of gallic weight. -/
def fromGallic (extract : V → R (W × Label)) (superfinalLabel : Label) : Converter V W where
  tr t :=
    match extract t.weight with
    | .error e => .error e
    | .ok (w, l) => if t.ilabel ≠ t.olabel then .error .err else .ok ⟨t.ilabel, l, w, t.nextstate⟩
  fin t :=
    match extract t.weight with
    | .error _ => .error .panic
    | .ok (w, l) =>
      if t.ilabel ≠ t.olabel then .error .panic
      else if t.ilabel = EPS ∧ l ≠ EPS then .ok ⟨superfinalLabel, l, w⟩
      else .ok ⟨t.ilabel, l, w⟩
  action := .allowSuperfinal
  props p := ((p.and Props.oLabelInvariantMask).and Props.weightInvariantMask).and Props.addSuperFinalMask

end Verif
