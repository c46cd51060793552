import Verif.Model.FinalOps

/-!
# `tr_map`, the transition mappers, `encode` / `decode`, `relabel_pairs`, `fst_convert`
(`algorithms/{tr_map,relabel_pairs,fst_convert}.rs`, `algorithms/tr_mappers/*.rs`, `algorithms/encode/*.rs`)
-/

namespace Verif
universe u v
variable {W : Type u}

/-- `FinalTr` (tr_map.rs 17-25). -/
structure FinalTr (W : Type u) where
  ilabel : Label
  olabel : Label
  weight : W
deriving DecidableEq, Repr

/-- `final_tr.ilabel != EPS_LABEL || final_tr.olabel != EPS_LABEL` (tr_map.rs 119, 128, 161-162). -/
def FinalTr.labelled (t : FinalTr W) : Bool := decide (t.ilabel ≠ EPS) || decide (t.olabel ≠ EPS)

/-- `MapFinalAction` (tr_map.rs 28-41). -/
inductive FinalAction where
  | noSuperfinal
  | allowSuperfinal
  | requireSuperfinal
deriving DecidableEq, Repr

/-- `TrMapper` (tr_map.rs 46-59). Mappers with interior mutability (`EncodeMapper`) thread a state of type `σ`; a fallible
method returns `R`. -/
structure Mapper (σ : Type v) (W : Type u) where
  tr : σ → Tr W → R (σ × Tr W)
  fin : σ → FinalTr W → R (σ × FinalTr W)
  action : FinalAction
  props : Props → Props

/-- The local variables of `tr_map`: mapper state, FST, `superfinal`. -/
structure MapSt (σ : Type v) (W : Type u) where
  m : σ
  fst : Fst W
  sf : Option StateId

section
variable {σ : Type v} [Zero W] [One W] [DecidableEq W]

/-- Body of loop 103-107: map transition `i` of state `s`. -/
def mapTrAt (m : Mapper σ W) (s : StateId) (a : σ × Fst W) (i : Nat) : R (σ × Fst W) :=
  match (a.2.trsOf s)[i]? with
  | none => .error .panic
  | some t =>
    match m.tr a.1 t with
    | .error e => .error e
    | .ok (k, t') => .ok (k, (a.2.setTrR s i t').1)

/-- Loop 101-108 over the transitions of `s`. -/
def mapTrs (m : Mapper σ W) (s : StateId) (k : σ) (f : Fst W) : R (σ × Fst W) :=
  (List.range (f.trsOf s).length).foldlM (mapTrAt m s) (k, f)

/-- Lines 129-136: the superfinal state, created when there is none yet. -/
def ensureSuper (f : Fst W) : Option StateId → Fst W × StateId
  | some q => (f, q)
  | none => (f.addState.setFinal f.numStates 1, f.numStates)

/-- Lines 139-149, 165-177: a transition to the superfinal state replaces the final weight. -/
def finToSuper (f : Fst W) (s : StateId) (t : FinalTr W) (q : StateId) : Fst W :=
  (f.addTr s ⟨t.ilabel, t.olabel, t.weight, q⟩).delFinal s

/-- Lines 117-180: what is done with the mapped final transition `t` of state `s`. -/
def placeFin (act : FinalAction) (f : Fst W) (sf : Option StateId) (s : StateId) (t : FinalTr W) :
    R (Fst W × Option StateId) :=
  match act with
  | .noSuperfinal => if t.labelled then .error .err else .ok (f.setFinal s t.weight, sf)
  | .allowSuperfinal =>
    if some s ≠ sf then
      if t.labelled then .ok (finToSuper (ensureSuper f sf).1 s t (ensureSuper f sf).2, some (ensureSuper f sf).2)
      else .ok (f.setFinal s t.weight, sf)
    else .ok (f, sf)
  | .requireSuperfinal =>
    match sf with
    | none => .error .panic
    | some q => if s ≠ q ∧ (t.labelled = true ∨ t.weight ≠ 0) then .ok (finToSuper f s t q, sf) else .ok (f, sf)

/-- Lines 110-181: the final weight of `s`. -/
def mapFin (m : Mapper σ W) (s : StateId) (k : σ) (f : Fst W) (sf : Option StateId) : R (MapSt σ W) :=
  match f.finOf s with
  | none => .ok ⟨k, f, sf⟩
  | some w =>
    match m.fin k ⟨EPS, EPS, w⟩ with
    | .error e => .error e
    | .ok (k', t) =>
      match placeFin m.action f sf s t with
      | .error e => .error e
      | .ok (g, sf') => .ok ⟨k', g, sf'⟩

/-- Body of loop 100-182. -/
def mapState (m : Mapper σ W) (a : MapSt σ W) (s : StateId) : R (MapSt σ W) :=
  match mapTrs m s a.m a.fst with
  | .error e => .error e
  | .ok (k, f) => mapFin m s k f a.sf

/-- Lines 94-98: the superfinal state that `MapRequireSuperfinal` adds up front. -/
def initSuper (act : FinalAction) (f : Fst W) : Fst W × Option StateId :=
  match act with
  | .requireSuperfinal => (f.addState.setFinal f.numStates 1, some f.numStates)
  | _ => (f, none)

/-- `tr_map` (tr_map.rs 79-187). The bound of the loop is the number of states at its start. When the mapper fails the FST is
left half mapped; the model only returns the failure. -/
def Fst.trMap (f : Fst W) (m : Mapper σ W) (k : σ) : R (σ × Fst W) :=
  if f.start = none then .ok (k, f)
  else
    let i := initSuper m.action f
    match (List.range i.1.numStates).foldlM (mapState m) ⟨k, i.1, i.2⟩ with
    | .error e => .error e
    | .ok a => .ok (a.m, a.fst.setPropsMask (m.props f.props) Props.allMask)

/-- A mapper without state, given by what it does to a transition and to a final weight, `MapNoSuperfinal`. -/
def Mapper.simple (tr : Tr W → R (Tr W)) (fin : W → R W) (props : Props → Props) : Mapper Unit W where
  tr _ t := match tr t with | .error e => .error e | .ok t' => .ok ((), t')
  fin _ t := match fin t.weight with | .error e => .error e | .ok w => .ok ((), { t with weight := w })
  action := .noSuperfinal
  props := props

/-- A mapper that rewrites weights by `g` (`map_weight` in the mappers below); the flags are cut down to
`weight_invariant_properties`. -/
def Mapper.weights (g : W → R W) : Mapper Unit W :=
  .simple (fun t => match g t.weight with | .error e => .error e | .ok w => .ok { t with weight := w }) g
    (fun p => p.and Props.weightInvariantMask)

/-- `IdentityTrMapper` (tr_mappers/identity_tr_mapper.rs 9-28). -/
def identityMapper : Mapper Unit W := .simple .ok .ok id

/-- `InputEpsilonMapper` (tr_mappers/input_epsilon_mapper.rs 9-32). -/
def inputEpsilonMapper : Mapper Unit W :=
  .simple (fun t => .ok { t with ilabel := EPS }) .ok
    (fun p => (p.and Props.setArcMask).or (Props.of [.iEpsilons, .iLabelSorted]))

/-- `OutputEpsilonMapper` (tr_mappers/output_epsilon_mapper.rs 9-32). -/
def outputEpsilonMapper : Mapper Unit W :=
  .simple (fun t => .ok { t with olabel := EPS }) .ok
    (fun p => (p.and Props.setArcMask).or (Props.of [.oEpsilons, .oLabelSorted]))

/-- `TimesMapper` (tr_mappers/times_mapper.rs 8-46). -/
def timesMapper [Mul W] (c : W) : Mapper Unit W := .weights fun w => .ok (w * c)

/-- `PlusMapper` (tr_mappers/plus_mapper.rs 8-46). -/
def plusMapper [Add W] (c : W) : Mapper Unit W := .weights fun w => .ok (w + c)

/-- `InvertWeightMapper` (tr_mappers/invert_weight_mapper.rs 10-39); `div` is `divide` with `DivideAny`, which can fail. -/
def invertWeightMapper (div : W → W → R W) : Mapper Unit W := .weights fun w => div 1 w

/-- `QuantizeMapper` (tr_mappers/quantize_mapper.rs 9-49); `q` is `quantize_assign` for the chosen delta. -/
def quantizeMapper (q : W → R W) : Mapper Unit W := .weights q

/-- `map_weight` of `RmWeightMapper` (tr_mappers/rm_weight_mapper.rs 9-36). -/
def rmWeightVal (w : W) : W := if w = 0 then w else 1

/-- `RmWeightMapper` (tr_mappers/rm_weight_mapper.rs 9-36). -/
def rmWeightMapper : Mapper Unit W :=
  .simple (fun t => .ok { t with weight := rmWeightVal t.weight }) (fun w => .ok (rmWeightVal w))
    (fun p => (p.and Props.weightInvariantMask).or (Props.of [.unweighted]))

/-! ## `encode` / `decode` -/

/-- `EncodeType` (encode/encode_type.rs 4-8). -/
inductive EncodeType where
  | encodeWeights
  | encodeLabels
  | encodeWeightsAndLabels
deriving DecidableEq, Repr

/-- `encode_weights` (encode/encode_type.rs 22-24). -/
def EncodeType.weights : EncodeType → Bool
  | .encodeWeights | .encodeWeightsAndLabels => true
  | .encodeLabels => false
/-- `encode_labels` (encode/encode_type.rs 26-28). -/
def EncodeType.labels : EncodeType → Bool
  | .encodeLabels | .encodeWeightsAndLabels => true
  | .encodeWeights => false

/-- `EncodeTuple` (encode/table.rs 9-14); the same fields as `FinalTr`. -/
abbrev EncodeTuple (W : Type u) := FinalTr W

/-- `EncodeTableMut` (encode/table.rs 16-21) without `encode_type`. The hash map is a finite function. -/
structure EncTable (W : Type u) where
  idToTuple : List (EncodeTuple W)
  tupleToId : EncodeTuple W → Option Nat

/-- `EncodeTableMut::new` (encode/table.rs 26-32). -/
def EncTable.new : EncTable W := ⟨[], fun _ => none⟩

/-- `tr_to_tuple`, `final_tr_to_tuple` (encode/table.rs 34-64). -/
def toTuple (ty : EncodeType) (il ol : Label) (w : W) : EncodeTuple W :=
  ⟨il, if ty.labels then ol else EPS, if ty.weights then w else 1⟩

/-- `encode` (encode/table.rs 66-77). -/
def EncTable.encode (T : EncTable W) (x : EncodeTuple W) : EncTable W × Label :=
  match T.tupleToId x with
  | some a => (T, a + 1)
  | none => (⟨T.idToTuple ++ [x], fun y => if y = x then some T.idToTuple.length else T.tupleToId y⟩,
      T.idToTuple.length + 1)

/-- `decode` (encode/table.rs 79-81) with the error of decode_static.rs 29-35: label 0 underflows. -/
def EncTable.decode (T : EncTable W) (l : Label) : R (EncodeTuple W) :=
  if l = 0 then .error .panic
  else match T.idToTuple[l - 1]? with
    | none => .error .err
    | some x => .ok x

/-- `EncodeMapper::tr_map` (encode/encode_static.rs 32-43). -/
def encodeTr (ty : EncodeType) (T : EncTable W) (t : Tr W) : EncTable W × Tr W :=
  let r := T.encode (toTuple ty t.ilabel t.olabel t.weight)
  (r.1, ⟨r.2, if ty.labels then r.2 else t.olabel, if ty.weights then 1 else t.weight, t.nextstate⟩)

/-- `EncodeMapper::final_tr_map` (encode/encode_static.rs 45-58). -/
def encodeFin (ty : EncodeType) (T : EncTable W) (t : FinalTr W) : EncTable W × FinalTr W :=
  if ty.weights then
    let r := T.encode (toTuple ty t.ilabel t.olabel t.weight)
    (r.1, ⟨r.2, if ty.labels then r.2 else t.olabel, 1⟩)
  else (T, t)

/-- `EncodeMapper` (encode/encode_static.rs 11-83). -/
def encodeMapper (ty : EncodeType) : Mapper (EncTable W) W where
  tr T t := .ok (encodeTr ty T t)
  fin T t := .ok (encodeFin ty T t)
  action := if ty.weights then .requireSuperfinal else .noSuperfinal
  props p :=
    let m1 := if ty.labels then Props.iLabelInvariantMask.and Props.oLabelInvariantMask else Props.allMask
    let m2 := if ty.weights then (Props.iLabelInvariantMask.and Props.weightInvariantMask).and Props.addSuperFinalMask
      else Props.allMask
    p.and (m1.and m2)

/-- `encode` (encode/encode_static.rs 93-102): the encoded FST and the table. -/
def Fst.encode (f : Fst W) (ty : EncodeType) : R (EncTable W × Fst W) := f.trMap (encodeMapper ty) EncTable.new

/-- `DecodeMapper::tr_map` (encode/decode_static.rs 28-44). -/
def decodeTr (ty : EncodeType) (T : EncTable W) (t : Tr W) : R (Tr W) :=
  match T.decode t.ilabel with
  | .error e => .error e
  | .ok x => .ok ⟨x.ilabel, if ty.labels then x.olabel else t.olabel, if ty.weights then x.weight else t.weight,
      t.nextstate⟩

/-- `DecodeMapper` (encode/decode_static.rs 9-70). -/
def decodeMapper (ty : EncodeType) (T : EncTable W) : Mapper Unit W :=
  .simple (decodeTr ty T) .ok fun p =>
    let m1 := if ty.labels then Props.iLabelInvariantMask.and Props.oLabelInvariantMask else Props.allMask
    let m2 := if ty.weights then (Props.iLabelInvariantMask.and Props.weightInvariantMask).and Props.rmSuperFinalMask
      else Props.allMask
    p.and (m1.and m2)

/-- `decode` (encode/decode_static.rs 74-84). -/
def Fst.decode [Add W] [Mul W] (f : Fst W) (ty : EncodeType) (T : EncTable W) : R (Fst W) :=
  match f.trMap (decodeMapper ty T) () with
  | .error e => .error e
  | .ok (_, g) => g.rmFinalEpsilon

/-! ## `relabel_pairs` -/

/-- `iterator_to_hashmap` (relabel_pairs.rs 10-24). -/
def pairsToMap (m : Label → Option Label) : List (Label × Label) → R (Label → Option Label)
  | [] => .ok m
  | (a, b) :: ps =>
    match m a with
    | some _ => .error .err
    | none => pairsToMap (fun x => if x = a then some b else m x) ps

/-- Body of loop 63-76 of `relabel_pairs`. -/
def relabelTr (mi mo : Label → Option Label) (f : Fst W) (s : StateId) (i : Nat) : Fst W :=
  match (f.trsOf s)[i]? with
  | none => f
  | some t =>
    match mi t.ilabel, mo t.olabel with
    | some a, some b => f.setLabels s i a b
    | some a, none => (f.setIlabelR s i a).1
    | none, some b => (f.setOlabelR s i b).1
    | none, none => f

/-- `relabel_pairs` (relabel_pairs.rs 47-80): new FST and result. Both maps are built before the FST is touched. -/
def Fst.relabelPairs (f : Fst W) (ip op : List (Label × Label)) : Fst W × R Unit :=
  match pairsToMap (fun _ => none) ip with
  | .error e => (f, .error e)
  | .ok mi =>
    match pairsToMap (fun _ => none) op with
    | .error e => (f, .error e)
    | .ok mo => (Fst.forStates (Fst.forTrs (relabelTr mi mo)) f, .ok ())

/-! ## `fst_convert` -/

/-- Lines 22-31 of `fst_convert_from_ref`, lines 54-65 of `fst_convert`: one state. -/
def convertSt (f o : Fst W) (s : StateId) : Fst W :=
  match f.finOf s with
  | none => (f.trsOf s).foldl (fun o t => o.addTr s t) o
  | some w => ((f.trsOf s).foldl (fun o t => o.addTr s t) o).setFinal s w

/-- `fst_convert`, `fst_convert_from_ref` (fst_convert.rs 6-73), both FST types being vector FSTs (the source may be any FST with
states `0..n`). Symbol tables are not modelled. -/
def Fst.convert (f : Fst W) : Fst W :=
  let o := Fst.new.addStates f.numStates
  let o := match f.start with
    | none => o
    | some i => (List.range f.numStates).foldl (convertSt f) (o.setStart i)
  o.setPropsMask f.props f.props

end
end Verif
