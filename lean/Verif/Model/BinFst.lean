import Verif.Model.Bytes
import Verif.Model.ComputeProps

/-!
# Binary FST formats and `ConstFst`
(`parsers/bin_fst/*`, `fst_impls/vector_fst/serializable_fst.rs`, `fst_impls/vector_fst/parse_const.rs`,
`fst_impls/const_fst/*`)
-/

namespace Verif
universe u
variable {W : Type u}

/-- `SerializableSemiring` (semirings/semiring.rs): the binary half. -/
class WeightCodec (W : Type u) where
  /-- `weight_type` -/
  weightType : String
  /-- `write_binary` -/
  put : W → Bytes
  /-- `parse_binary` -/
  get : P W

/-- `Tr::tr_type` (tr.rs 69-76). -/
def trType (W : Type u) [WeightCodec W] : String :=
  if WeightCodec.weightType W = "tropical" then "standard" else WeightCodec.weightType W

/-- An FST with its symbol tables: the fields of `VectorFst` (vector_fst/data_structure.rs 15-22). -/
structure SFst (W : Type u) where
  fst : Fst W
  isymt : Option SymTable
  osymt : Option SymTable

/-! ## Property bits -/

/-- `FstProperties::bits`. -/
def propBits (p : Props) : Nat :=
  PropBit.all.foldl (fun n b => if p b then n ||| 2 ^ b.bitPos else n) 0

/-- `FstProperties::from_bits_truncate`. -/
def bitsProps (n : Nat) : Props := fun b => n.testBit b.bitPos

/-- `EXPANDED`, `MUTABLE` (properties.rs 5-6). -/
def EXPANDED : Nat := 1
@[inherit_doc EXPANDED] def MUTABLE : Nat := 2

/-! ## Header (`parsers/bin_fst/fst_header.rs`) -/

/-- `FST_MAGIC_NUMBER` (18). -/
def FST_MAGIC : Int := 2125659606

/-- `FstHeader` (29-42). `HAS_ISYMBOLS = 1`, `HAS_OSYMBOLS = 2`, `IS_ALIGNED = 4` in `flags`. -/
structure Header where
  fstType : String
  trType : String
  version : Int
  flags : Nat
  properties : Nat
  start : Int
  numStates : Int
  numTrs : Int
  isymt : Option SymTable
  osymt : Option SymTable

/-- `optionally_parse_symt` (50-60). -/
def getOptSymt (b : Bool) : P (Option SymTable) :=
  if b then getSymt.bind fun t => P.pure (some t) else P.pure none

/-- `optionally_write_symt` (62-68). -/
def putOptSymt : Option SymTable → Bytes
  | some t => putSymt t
  | none => []

/-- `FstHeader::parse` (71-112). `FstFlags::from_bits` refuses unknown bits. -/
def getHeader (minVersion : Int) (fstType trType : String) : P Header :=
  ((getI 4).verify fun v => v == FST_MAGIC).bind fun _ =>
  (getStr.verify fun s => s == fstType).bind fun ft =>
  (getStr.verify fun s => s == trType).bind fun tt =>
  ((getI 4).verify fun v => decide (minVersion ≤ v)).bind fun version =>
  ((getU 4).verify fun v => v < 8).bind fun flags =>
  (getU 8).bind fun properties =>
  (getI 8).bind fun start =>
  (getI 8).bind fun numStates =>
  (getI 8).bind fun numTrs =>
  (getOptSymt (flags.testBit 0)).bind fun isymt =>
  (getOptSymt (flags.testBit 1)).bind fun osymt =>
  P.pure ⟨ft, tt, version, flags, properties, start, numStates, numTrs, isymt, osymt⟩

/-- `FstHeader::write` (114-136). -/
def putHeader (h : Header) : Bytes :=
  putI 4 FST_MAGIC ++ (putStr h.fstType ++ (putStr h.trType ++ (putI 4 h.version ++ (putU 4 h.flags ++
    (putU 8 h.properties ++ (putI 8 h.start ++ (putI 8 h.numStates ++ (putI 8 h.numTrs ++
    (putOptSymt h.isymt ++ putOptSymt h.osymt)))))))))

/-- The `flags` computed by `store` (vector_fst/serializable_fst.rs 49-55). -/
def symtFlags (i o : Option SymTable) : Nat :=
  (if i.isSome then 1 else 0) ||| (if o.isSome then 2 else 0)

/-- `self.start_state.map(|v| v as i64).unwrap_or(-1)`. -/
def putStart : Option StateId → Int
  | some s => s
  | none => -1

/-! ## Shared pieces (`parsers/bin_fst/utils_parsing.rs`, `utils_serialization.rs`) -/

/-- `parse_start_state` (utils_parsing.rs 8-15). -/
def getStart (s : Int) : Option StateId := if s = -1 then none else some (toU 32 s)

section
variable [WeightCodec W]

/-- `parse_final_weight` (17-27). -/
def getFinal [Zero W] [DecidableEq W] (w : W) : Option W := if w ≠ 0 then some w else none

/-- `parse_bin_fst_tr` (29-46). -/
def getTr : P (Tr W) :=
  (getI 4).bind fun il => (getI 4).bind fun ol => (WeightCodec.get (W := W)).bind fun w =>
  (getI 4).bind fun ns => P.pure ⟨toU 32 il, toU 32 ol, w, toU 32 ns⟩

/-- `write_bin_fst_tr` (utils_serialization.rs 8-17). -/
def putTr (t : Tr W) : Bytes :=
  putI 4 (toI 32 t.ilabel) ++ (putI 4 (toI 32 t.olabel) ++ (WeightCodec.put t.weight
    ++ putI 4 (toI 32 t.nextstate)))

/-! ## `VectorFst` (`vector_fst/serializable_fst.rs`) -/

/-- The body written for one state (vector_fst/serializable_fst.rs 76-86). -/
def putState [Zero W] (s : State W) : Bytes :=
  WeightCodec.put (s.fin.getD 0) ++ (putI 8 (toI 64 s.trs.length) ++ (s.trs.map putTr).flatten)

/-- The header written by `VectorFst::store` (45-73). -/
def vectorHeader (x : SFst W) : Header :=
  ⟨"vector", trType W, 2, symtFlags x.isymt x.osymt, propBits x.fst.props ||| (EXPANDED ||| MUTABLE),
    putStart x.fst.start, toI 64 x.fst.numStates,
    toI 64 ((List.range x.fst.numStates).map fun s => (x.fst.trsOf s).length).sum, x.isymt, x.osymt⟩

/-- `VectorFst::store` (44-89). -/
def storeVector [Zero W] (x : SFst W) : Bytes :=
  putHeader (vectorHeader x) ++ (x.fst.states.map putState).flatten

/-- `parse_vector_fst_state` (128-148). -/
def getState [Zero W] [DecidableEq W] : P (State W) :=
  (WeightCodec.get (W := W)).bind fun w => (getI 8).bind fun n =>
  (P.count getTr (toU 64 n)).bind fun trs =>
  P.pure ⟨getFinal w, trs, (trs.filter fun t => t.ilabel = EPS).length,
    (trs.filter fun t => t.olabel = EPS).length⟩

/-- `parse_vector_fst` (150-168), `VECTOR_MIN_FILE_VERSION = 2`. -/
def getVector [Zero W] [DecidableEq W] : P (SFst W) :=
  (getHeader 2 "vector" (trType W)).bind fun h =>
  (P.count getState (toU 64 h.numStates)).bind fun states =>
  P.pure ⟨⟨states, getStart h.start, bitsProps h.properties⟩, h.isymt, h.osymt⟩

/-- Run a parser on a whole stream; trailing bytes are ignored (`let (_, x) = …`). -/
def P.run {α : Type u} (p : P α) (b : Bytes) : R α :=
  match p b with
  | .ok (x, _) => .ok x
  | .error e => .error e

/-- `VectorFst::load` (29-42). -/
def loadVector [Zero W] [DecidableEq W] (b : Bytes) : R (SFst W) := getVector.run b

end

/-! ## `ConstFst` (`const_fst/data_structure.rs`, `const_fst/fst.rs`, `const_fst/converters.rs`) -/

/-- `ConstState` (data_structure.rs 18-30). -/
structure CState (W : Type u) where
  fin : Option W
  pos : Nat
  ntrs : Nat
  niepsilons : Nat
  noepsilons : Nat
deriving DecidableEq, Repr

/-- `ConstFst` (data_structure.rs 8-16). -/
structure ConstFst (W : Type u) where
  states : List (CState W)
  trs : List (Tr W)
  start : Option StateId
  isymt : Option SymTable
  osymt : Option SymTable
  props : Props

namespace ConstFst

/-- `num_states` (const_fst/expanded_fst.rs). -/
def numStates (c : ConstFst W) : Nat := c.states.length

/-- `TrsConst::trs` (trs.rs 74-77): the slice `pos..pos+n`, a panic when out of range. -/
def slice (trs : List (Tr W)) (pos n : Nat) : R (List (Tr W)) :=
  if pos + n ≤ trs.length then .ok ((trs.drop pos).take n) else .error .panic

/-- `get_trs` (const_fst/fst.rs 70-80), then `trs()`. -/
def getTrsR (c : ConstFst W) (s : StateId) : R (List (Tr W)) :=
  match c.states[s]? with
  | some st => slice c.trs st.pos st.ntrs
  | none => .error .err

/-- `get_trs` followed by `to_trs_vec` (trs.rs 79-81): the whole array of the FST. -/
def toTrsVecR (c : ConstFst W) (s : StateId) : R (List (Tr W)) :=
  match c.states[s]? with
  | some _ => .ok c.trs
  | none => .error .err

/-- `final_weight` (fst.rs 44-50). -/
def finalWeightR (c : ConstFst W) (s : StateId) : R (Option W) :=
  match c.states[s]? with
  | some st => .ok st.fin
  | none => .error .err

/-- `num_trs` (fst.rs 59-65). -/
def numTrsR (c : ConstFst W) (s : StateId) : R Nat :=
  match c.states[s]? with
  | some st => .ok st.ntrs
  | none => .error .err

/-- `num_input_epsilons` (fst.rs 94-100). -/
def numIEpsR (c : ConstFst W) (s : StateId) : R Nat :=
  match c.states[s]? with
  | some st => .ok st.niepsilons
  | none => .error .err

/-- `num_output_epsilons` (fst.rs 102-108). -/
def numOEpsR (c : ConstFst W) (s : StateId) : R Nat :=
  match c.states[s]? with
  | some st => .ok st.noepsilons
  | none => .error .err

end ConstFst

/-- The loop of `From<VectorFst> for ConstFst` (converters.rs 15-28), from position `pos`: the states and
the concatenated transitions. -/
def toConstLoop (pos : Nat) : List (State W) → List (CState W) × List (Tr W)
  | [] => ([], [])
  | s :: ss =>
      let r := toConstLoop (pos + s.trs.length) ss
      (⟨s.fin, pos, s.trs.length, s.niepsilons, s.noepsilons⟩ :: r.1, s.trs ++ r.2)

/-- `From<VectorFst> for ConstFst` (converters.rs 7-37). The `unwrap` of the property computation is a
panic. -/
def toConst [Zero W] [One W] [DecidableEq W] (x : SFst W) : R (ConstFst W) :=
  match x.fst.computeAndUpdate Props.allMask with
  | .ok (f, p) =>
      let r := toConstLoop 0 f.states
      .ok ⟨r.1, r.2, f.start, x.isymt, x.osymt, p⟩
  | .error _ => .error .panic

section
variable [WeightCodec W]

/-- The bytes of one state in `ConstFst::store` (const_fst/serializable_fst.rs 66-73). -/
def putCState [Zero W] (s : CState W) : Bytes :=
  WeightCodec.put (s.fin.getD 0) ++ (putI 4 (toI 32 (s.pos % 2 ^ 32)) ++
    (putI 4 (toI 32 (s.ntrs % 2 ^ 32)) ++ (putI 4 (toI 32 (s.niepsilons % 2 ^ 32)) ++
    putI 4 (toI 32 (s.noepsilons % 2 ^ 32)))))

/-- The header written by `ConstFst::store` (41-62), `CONST_FILE_VERSION = 2`. -/
def constHeader (c : ConstFst W) : Header :=
  ⟨"const", trType W, 2, symtFlags c.isymt c.osymt, propBits c.props ||| EXPANDED, putStart c.start,
    toI 64 c.numStates, toI 64 c.trs.length, c.isymt, c.osymt⟩

/-- `ConstFst::store` (40-84). -/
def storeConst [Zero W] (c : ConstFst W) : Bytes :=
  putHeader (constHeader c) ++ ((c.states.map putCState).flatten ++ (c.trs.map putTr).flatten)

/-- `parse_const_state` (178-198). -/
def getCState [Zero W] [DecidableEq W] : P (CState W) :=
  (WeightCodec.get (W := W)).bind fun w => (getI 4).bind fun pos => (getI 4).bind fun n =>
  (getI 4).bind fun ni => (getI 4).bind fun no =>
  P.pure ⟨getFinal w, toU 64 pos, toU 64 n, toU 64 ni, toU 64 no⟩

/-- `stream_len - i.len()`: the current position, where `len` is the length of the whole stream. -/
def P.pos (len : Nat) : P Nat := fun i => .ok (len - i.length, i)

/-- `Align input` (213-215, 219-221): skip to a multiple of 16 when `cond` holds. -/
def P.align (len : Nat) (cond : Bool) : P Unit :=
  (P.pos len).bind fun pos =>
    if cond && decide (0 < pos % 16) then (P.take (16 - pos % 16)).bind fun _ => P.pure () else P.pure ()

/-- `parse_const_fst` (200-237), `CONST_MIN_FILE_VERSION = CONST_ALIGNED_FILE_VERSION = 1`. -/
def getConst [Zero W] [DecidableEq W] : P (ConstFst W) := fun i =>
  ((getHeader 1 "const" (trType W)).bind fun h =>
  (P.align i.length (h.version == 1 && decide (0 < h.numStates))).bind fun _ =>
  (P.count getCState (toU 64 h.numStates)).bind fun states =>
  (P.align i.length (h.version == 1 && decide (0 < h.numTrs))).bind fun _ =>
  (P.count getTr (toU 64 h.numTrs)).bind fun trs =>
  P.pure ⟨states, trs, getStart h.start, h.isymt, h.osymt, bitsProps h.properties⟩) i

/-- `ConstFst::load` (33-38). -/
def loadConst [Zero W] [DecidableEq W] (b : Bytes) : R (ConstFst W) := getConst.run b

/-- The loop reading the transitions of each state (vector_fst/parse_const.rs 97-106). -/
def getTrsFor : List (CState W) → P (List (State W))
  | [] => P.pure []
  | s :: ss =>
      (P.count getTr s.ntrs).bind fun trs => (getTrsFor ss).bind fun r =>
      P.pure (⟨s.fin, trs, s.niepsilons, s.noepsilons⟩ :: r)

/-- `parse_const_fst` into a `VectorFst` (parse_const.rs 71-119). `TempState` is `CState` without `pos`. -/
def getConstAsVector [Zero W] [DecidableEq W] : P (SFst W) := fun i =>
  ((getHeader 1 "const" (trType W)).bind fun h =>
  (P.align i.length (h.version == 1 && decide (0 < h.numStates))).bind fun _ =>
  (P.count getCState (toU 64 h.numStates)).bind fun states =>
  (P.align i.length (h.version == 1 && decide (0 < h.numTrs))).bind fun _ =>
  (getTrsFor states).bind fun vs =>
  P.pure ⟨⟨vs, getStart h.start, bitsProps h.properties⟩, h.isymt, h.osymt⟩) i

/-- `VectorFst::read_from_const` (parse_const.rs 26-41) on the content of the file. -/
def loadConstAsVector [Zero W] [DecidableEq W] (b : Bytes) : R (SFst W) := getConstAsVector.run b

end

end Verif
