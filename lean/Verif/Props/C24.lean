import Verif.Lemmas.Parse
import Verif.Props.C07

/-!
# C24: binary FST round trip; C26: binary symbol tables; C27: `ConstFst`
-/

namespace Verif
universe u
variable {W : Type u}

/-! ## Property bits -/

theorem bitPos_inj : ∀ a b : PropBit, a.bitPos = b.bitPos → a = b := by
  intro a b h; revert h; cases a <;> cases b <;> first | exact fun _ => rfl | (intro h; exact absurd h (by decide))

theorem two_le_bitPos (b : PropBit) : 16 ≤ b.bitPos ∧ b.bitPos < 48 := by cases b <;> decide

theorem testBit_foldl (p : Props) (l : List PropBit) (n i : Nat) :
    (l.foldl (fun n b => if p b then n ||| 2 ^ b.bitPos else n) n).testBit i =
      (n.testBit i || l.any fun b => p b && decide (b.bitPos = i)) := by
  induction l generalizing n with
  | nil => simp
  | cons a l ih =>
    rw [List.foldl_cons, ih, List.any_cons]
    cases h : p a
    · simp
    · simp only [if_true, Nat.testBit_or, Nat.testBit_two_pow, Bool.true_and, Bool.or_assoc]

theorem testBit_propBits (p : Props) (i : Nat) :
    (propBits p).testBit i = PropBit.all.any fun b => p b && decide (b.bitPos = i) := by
  rw [propBits, testBit_foldl]; simp

theorem bits_low {m : Nat} (h : m < 4) {i : Nat} (hi : 16 ≤ i) : m.testBit i = false := by
  apply Nat.testBit_lt_two_pow
  calc m < 2 ^ 2 := h
    _ ≤ 2 ^ i := Nat.pow_le_pow_right (by omega) (by omega)

/-- Writing the flags together with the static bits and reading them back gives the flags. -/
theorem bitsProps_propBits (p : Props) {m : Nat} (hm : m < 4) : bitsProps (propBits p ||| m) = p := by
  funext b
  rw [bitsProps, Nat.testBit_or, testBit_propBits, bits_low hm (two_le_bitPos b).1, Bool.or_false]
  cases h : p b
  · rw [List.any_eq_false]
    intro a _ ha
    simp only [Bool.and_eq_true, decide_eq_true_eq] at ha
    rw [bitPos_inj a b ha.2, h] at ha
    cases ha.1
  · rw [List.any_eq_true]
    exact ⟨b, PropBit.mem_all b, by simp [h]⟩

theorem propBits_lt (p : Props) {m : Nat} (hm : m < 4) : propBits p ||| m < 2 ^ 64 := by
  apply Nat.lt_pow_two_of_testBit
  intro i hi
  rw [Nat.testBit_or, bits_low hm (by omega), Bool.or_false, testBit_propBits, List.any_eq_false]
  intro b _ hb
  simp only [Bool.and_eq_true, decide_eq_true_eq] at hb
  have := (two_le_bitPos b).2
  omega

/-! ## The header -/

/-- A symbol table that can be stored. -/
def SymtFits (t : Option SymTable) : Prop := ∀ x, t = some x → x.Ok ∧ x.Fits

/-- A header that can be stored: every field is in the range of its type. -/
structure Header.Fits (h : Header) : Prop where
  ft : StrFits h.fstType
  tt : StrFits h.trType
  version : 0 ≤ h.version ∧ h.version < 2 ^ 31
  flags : h.flags = symtFlags h.isymt h.osymt
  props : h.properties < 2 ^ 64
  start : -2 ^ 63 ≤ h.start ∧ h.start < 2 ^ 63
  numStates : -2 ^ 63 ≤ h.numStates ∧ h.numStates < 2 ^ 63
  numTrs : -2 ^ 63 ≤ h.numTrs ∧ h.numTrs < 2 ^ 63
  isymt : SymtFits h.isymt
  osymt : SymtFits h.osymt

theorem symtFlags_lt (i o : Option SymTable) : symtFlags i o < 8 := by
  cases i <;> cases o <;> simp [symtFlags]

theorem symtFlags_0 (i o : Option SymTable) : (symtFlags i o).testBit 0 = i.isSome := by
  cases i <;> cases o <;> simp [symtFlags]

theorem symtFlags_1 (i o : Option SymTable) : (symtFlags i o).testBit 1 = o.isSome := by
  cases i <;> cases o <;> simp [symtFlags] <;> decide

theorem reads_getOptSymt {t : Option SymTable} (h : SymtFits t) :
    Reads (getOptSymt t.isSome) (putOptSymt t) t := by
  cases t with
  | none => exact reads_pure none
  | some t => exact (reads_getSymt (h t rfl).1 (h t rfl).2).map

theorem reads_getHeader {h : Header} (hf : h.Fits) {v : Int} (hv : v ≤ h.version) :
    Reads (getHeader v h.fstType h.trType) (putHeader h) h := by
  unfold getHeader putHeader
  refine ((reads_getI (k := 4) (by omega) (by decide) (by decide)).verify (by decide)).bind ?_
  refine ((reads_getStr hf.ft).verify (by simp)).bind ?_
  refine ((reads_getStr hf.tt).verify (by simp)).bind ?_
  refine ((reads_getI (k := 4) (by omega) (by have := hf.version.1; omega) (by have := hf.version.2; omega)).verify
    (by simpa using hv)).bind ?_
  have hfl := symtFlags_lt h.isymt h.osymt
  rw [← hf.flags] at hfl
  refine ((reads_getU (k := 4) (by omega)).verify (by simpa using hfl)).bind ?_
  refine (reads_getU (k := 8) (by have := hf.props; omega)).bind ?_
  refine (reads_getI (k := 8) (by omega) (by have := hf.start.1; omega) (by have := hf.start.2; omega)).bind ?_
  refine (reads_getI (k := 8) (by omega) (by have := hf.numStates.1; omega) (by have := hf.numStates.2; omega)).bind ?_
  refine (reads_getI (k := 8) (by omega) (by have := hf.numTrs.1; omega) (by have := hf.numTrs.2; omega)).bind ?_
  rw [show h.flags.testBit 0 = h.isymt.isSome by rw [hf.flags, symtFlags_0],
    show h.flags.testBit 1 = h.osymt.isSome by rw [hf.flags, symtFlags_1]]
  refine (reads_getOptSymt hf.isymt).bind ?_
  exact (reads_getOptSymt hf.osymt).map

theorem stable_getOptSymt (b : Bool) : Stable (getOptSymt b) := by
  cases b
  · exact stable_pure _
  · exact stable_getSymt.bind fun _ => stable_pure _

theorem stable_getHeader (v : Int) (a b : String) : Stable (getHeader v a b) :=
  ((stable_getI 4).verify _).bind fun _ => (stable_getStr.verify _).bind fun _ =>
  (stable_getStr.verify _).bind fun _ => ((stable_getI 4).verify _).bind fun _ =>
  ((stable_getU 4).verify _).bind fun _ => (stable_getU 8).bind fun _ => (stable_getI 8).bind fun _ =>
  (stable_getI 8).bind fun _ => (stable_getI 8).bind fun _ => (stable_getOptSymt _).bind fun _ =>
  (stable_getOptSymt _).bind fun _ => stable_pure _

theorem run_reads {α : Type u} {p : P α} {b : Bytes} {x : α} (h : Reads p b x) (rest : Bytes) :
    p.run (b ++ rest) = .ok x := by
  rw [P.run, h rest]

theorem run_cut {α : Type u} {p : P α} (hs : Stable p) {b i : Bytes} {x : α} (h : Reads p b x)
    (hi : i <+: b) (hne : i ≠ b) : p.run i = .error .err := by
  rw [P.run, hs.cut h hi hne]

theorem getStart_putStart {s : Option StateId} (h : ∀ i, s = some i → i < 2 ^ 32) :
    getStart (putStart s) = s := by
  cases s with
  | none => rfl
  | some i =>
    rw [putStart, getStart, if_neg (by omega), toU_nat (h i rfl)]

theorem putStart_range {s : Option StateId} (h : ∀ i, s = some i → i < 2 ^ 32) :
    -2 ^ 63 ≤ putStart s ∧ putStart s < 2 ^ 63 := by
  cases s with
  | none => decide
  | some i => have := h i rfl; rw [putStart]; omega

section
variable [WeightCodec W]

/-! ## Transitions and states -/

/-- A weight that its own codec reads back. -/
def CodecOk (w : W) : Prop := Reads WeightCodec.get (WeightCodec.put w) w

/-- A transition that fits the format: `u32` labels and target, and a weight its codec reads back. -/
def TrFits (t : Tr W) : Prop :=
  t.ilabel < 2 ^ 32 ∧ t.olabel < 2 ^ 32 ∧ t.nextstate < 2 ^ 32 ∧ CodecOk t.weight

theorem reads_getTr {t : Tr W} (h : TrFits t) : Reads getTr (putTr t) t := by
  obtain ⟨h1, h2, h3, h4⟩ := h
  unfold getTr putTr
  refine (reads_getI_toI (k := 4) (by omega) h1).bind ?_
  refine (reads_getI_toI (k := 4) (by omega) h2).bind ?_
  refine h4.bind ?_
  refine (reads_getI_toI (k := 4) (n := t.nextstate) (by omega) h3).map' ?_
  rw [toU_toI (k := 8 * 4) h1, toU_toI (k := 8 * 4) h2, toU_toI (k := 8 * 4) h3]

theorem stable_getTr (hs : Stable (WeightCodec.get (W := W))) : Stable (getTr (W := W)) :=
  (stable_getI 4).bind fun _ => (stable_getI 4).bind fun _ => hs.bind fun _ => (stable_getI 4).bind fun _ =>
  stable_pure _

variable [Zero W] [DecidableEq W]

/-- The final weight a reader reconstructs: a stored zero is not distinguished from "not final". -/
def dropZero : Option W → Option W
  | some w => if w = 0 then none else some w
  | none => none

omit [WeightCodec W] in
theorem getFinal_getD (o : Option W) : getFinal (o.getD 0) = dropZero o := by
  cases o with
  | none => simp [getFinal, dropZero]
  | some w => by_cases h : w = 0 <;> simp [getFinal, dropZero, h]

/-- A state that fits the format. -/
structure StateFits (s : State W) : Prop where
  trs : ∀ t ∈ s.trs, TrFits t
  fin : CodecOk (s.fin.getD 0)
  len : s.trs.length < 2 ^ 63

/-- A state as the reader reconstructs it. -/
def State.reread (s : State W) : State W :=
  ⟨dropZero s.fin, s.trs, (s.trs.filter fun t => t.ilabel = EPS).length, (s.trs.filter fun t => t.olabel = EPS).length⟩

theorem reads_getState {s : State W} (h : StateFits s) : Reads getState (putState s) s.reread := by
  unfold getState putState
  refine Reads.bind h.fin ?_
  refine (reads_getI_toI (k := 8) (by omega) (by have := h.len; omega)).bind ?_
  have hn : toU 64 (toI (8 * 8) s.trs.length) = s.trs.length :=
    toU_toI (k := 64) (by have := h.len; omega)
  rw [hn]
  refine (Reads.count (g := id) (put := putTr) fun t ht => reads_getTr (h.trs t ht)).map' ?_
  rw [List.map_id, getFinal_getD]
  rfl

/-- An FST that fits the binary format: everything is in the range of its Rust type and the weights
are ones their codec reads back. -/
structure SFst.Fits (x : SFst W) : Prop where
  state : ∀ s ∈ x.fst.states, StateFits s
  start : ∀ i, x.fst.start = some i → i < 2 ^ 32
  numStates : x.fst.numStates < 2 ^ 63
  numTrs : ((List.range x.fst.numStates).map fun s => (x.fst.trsOf s).length).sum < 2 ^ 63
  isymt : SymtFits x.isymt
  osymt : SymtFits x.osymt
  tt : StrFits (trType W)

omit [DecidableEq W] in
theorem header_vector {x : SFst W} (h : x.Fits) : (vectorHeader x).Fits where
  ft := by show StrFits "vector"; unfold StrFits; decide
  tt := h.tt
  version := by show (0 : Int) ≤ 2 ∧ (2 : Int) < 2 ^ 31; decide
  flags := rfl
  props := propBits_lt _ (by decide)
  start := putStart_range h.start
  numStates := toI_range (k := 64) (by omega) (by have := h.numStates; omega)
  numTrs := toI_range (k := 64) (by omega) (by have := h.numTrs; omega)
  isymt := h.isymt
  osymt := h.osymt

/-- What the reader reconstructs from a stored FST. -/
def SFst.reread (x : SFst W) : SFst W :=
  ⟨⟨x.fst.states.map State.reread, x.fst.start, x.fst.props⟩, x.isymt, x.osymt⟩

theorem reads_getVector {x : SFst W} (h : x.Fits) : Reads getVector (storeVector x) x.reread := by
  unfold getVector storeVector
  have hh := reads_getHeader (header_vector h) (v := 2) (by show (2 : Int) ≤ 2; decide)
  refine hh.bind ?_
  have hn : toU 64 (vectorHeader x).numStates = x.fst.states.length :=
    toU_toI (k := 64) (by have := h.numStates; unfold Fst.numStates at this ⊢; omega)
  rw [hn]
  refine (Reads.count (p := getState) (g := State.reread) fun t ht => reads_getState (h.state t ht)).map' ?_
  rw [show getStart (vectorHeader x).start = x.fst.start from getStart_putStart h.start,
    show bitsProps (vectorHeader x).properties = x.fst.props from bitsProps_propBits _ (by decide)]
  rfl

theorem stable_getVector (hs : Stable (WeightCodec.get (W := W))) : Stable (getVector (W := W)) :=
  (stable_getHeader _ _ _).bind fun _ => ((hs.bind fun _ => (stable_getI 8).bind fun _ =>
    ((stable_getTr hs).count _).bind fun _ => stable_pure _).count _).bind fun _ => stable_pure _

omit [WeightCodec W] in
theorem reread_eq {x : SFst W} (hz : ∀ s, x.fst.finOf s ≠ some 0) (hc : x.fst.AllCounters) : x.reread = x := by
  have : x.fst.states.map State.reread = x.fst.states := by
    conv => rhs; rw [← List.map_id x.fst.states]
    apply List.map_congr_left
    intro s hs
    obtain ⟨n, hn⟩ := List.getElem?_of_mem hs
    have h1 := hz n
    have h2 := hc n s hn
    simp only [Fst.finOf, hn] at h1
    obtain ⟨fin, trs, a, b⟩ := s
    simp only [State.reread, id]
    obtain ⟨e1, e2⟩ := h2
    simp only at e1 e2 h1
    rw [← e1, ← e2]
    congr 1
    cases fin with
    | none => rfl
    | some w => simp only [dropZero]; rw [if_neg]; rintro rfl; exact h1 rfl
  rw [SFst.reread, this]

/-- **C24 for `VectorFst`.** Loading the bytes written by `store` gives back the same FST: the same
states with the same transitions in the same order, the same final weights, start state, property
flags, ε counters and symbol tables; whatever follows the bytes is ignored. The FST must fit the
format, its stored ε counters must be right (C02) and no state may have a final weight stored as zero
(see `C24_zero_final`). -/
theorem C24_vector_round_trip (x : SFst W) (h : x.Fits) (hc : x.fst.AllCounters)
    (hz : ∀ s, x.fst.finOf s ≠ some 0) (rest : Bytes) : loadVector (storeVector x ++ rest) = .ok x := by
  have := run_reads (reads_getVector h) rest
  rwa [reread_eq hz hc] at this

/-- C24 for all FSTs that fit, including ones with final weights stored as zero: those states come back
not final, and everything else is unchanged. -/
theorem C24_vector_general (x : SFst W) (h : x.Fits) (rest : Bytes) :
    ∃ y, loadVector (storeVector x ++ rest) = .ok y ∧ y.isymt = x.isymt ∧ y.osymt = x.osymt ∧
      y.fst.start = x.fst.start ∧ y.fst.props = x.fst.props ∧ y.fst.numStates = x.fst.numStates ∧
      y.fst.AllCounters ∧
      ∀ s, y.fst.trsOf s = x.fst.trsOf s ∧
        y.fst.finOf s = (match x.fst.finOf s with | some w => if w = 0 then none else some w | none => none) := by
  refine ⟨x.reread, run_reads (reads_getVector h) rest, rfl, rfl, rfl, rfl, by simp [SFst.reread, Fst.numStates], ?_, ?_⟩
  · intro n s hs
    obtain ⟨t, -, rfl⟩ := List.mem_map.1 (List.mem_of_getElem? hs)
    exact ⟨rfl, rfl⟩
  · intro s
    simp only [SFst.reread, Fst.trsOf, Fst.finOf, List.getElem?_map]
    cases hg : x.fst.states[s]? with
    | none => exact ⟨rfl, rfl⟩
    | some st =>
      refine ⟨rfl, ?_⟩
      show dropZero st.fin = _
      cases hf : st.fin <;> simp [dropZero, hf]

/-- **C24, cut files.** If only a proper prefix of the bytes was written (a crash in the middle of a
write), loading fails with an error: it does not panic and does not return some other FST. The weight
parser must be one that decides from the bytes it has read. -/
theorem C24_vector_cut (x : SFst W) (h : x.Fits) (hs : Stable (WeightCodec.get (W := W))) (b : Bytes)
    (hb : b <+: storeVector x) (hne : b ≠ storeVector x) : loadVector (W := W) b = .error .err :=
  run_cut (stable_getVector hs) (reads_getVector h) hb hne

/-! ## `ConstFst` -/

/-- A state that fits the format of `ConstFst` (`i32` positions and counters). -/
structure CStateFits (s : CState W) : Prop where
  fin : CodecOk (s.fin.getD 0)
  pos : s.pos < 2 ^ 31
  ntrs : s.ntrs < 2 ^ 31
  ni : s.niepsilons < 2 ^ 31
  no : s.noepsilons < 2 ^ 31

/-- A `ConstFst` that fits its binary format. -/
structure ConstFst.Fits (c : ConstFst W) : Prop where
  state : ∀ s ∈ c.states, CStateFits s
  tr : ∀ t ∈ c.trs, TrFits t
  start : ∀ i, c.start = some i → i < 2 ^ 32
  numStates : c.numStates < 2 ^ 63
  numTrs : c.trs.length < 2 ^ 63
  isymt : SymtFits c.isymt
  osymt : SymtFits c.osymt
  tt : StrFits (trType W)

/-- A state of a `ConstFst` as the reader reconstructs it. -/
def CState.reread (s : CState W) : CState W := { s with fin := dropZero s.fin }

omit [WeightCodec W] [Zero W] [DecidableEq W] in
theorem toU_toI_small {n : Nat} (h : n < 2 ^ 31) : toU 64 (toI (8 * 4) n) = n := by
  rw [toI_small (by simpa using h), toU_nat (by omega)]

theorem reads_getCState {s : CState W} (h : CStateFits s) : Reads getCState (putCState s) s.reread := by
  unfold getCState putCState
  have e : ∀ n, n < 2 ^ 31 → toI 32 (n % 2 ^ 32) = toI (8 * 4) n := fun n hn => by
    rw [Nat.mod_eq_of_lt (by omega)]
  rw [e _ h.pos, e _ h.ntrs, e _ h.ni, e _ h.no]
  have l : ∀ n, n < 2 ^ 31 → n < 2 ^ (8 * 4) := fun n hn => by omega
  refine Reads.bind h.fin ?_
  refine (reads_getI_toI (k := 4) (by omega) (l _ h.pos)).bind ?_
  refine (reads_getI_toI (k := 4) (by omega) (l _ h.ntrs)).bind ?_
  refine (reads_getI_toI (k := 4) (by omega) (l _ h.ni)).bind ?_
  refine (reads_getI_toI (k := 4) (by omega) (l _ h.no)).map' ?_
  rw [toU_toI_small h.pos, toU_toI_small h.ntrs, toU_toI_small h.ni, toU_toI_small h.no, getFinal_getD]
  rfl

omit [WeightCodec W] [Zero W] [DecidableEq W] in
theorem reads_align (n : Nat) : Reads (P.align n false) [] () := by
  intro rest; rfl

omit [DecidableEq W] in
theorem header_const {c : ConstFst W} (h : c.Fits) : (constHeader c).Fits where
  ft := by show StrFits "const"; unfold StrFits; decide
  tt := h.tt
  version := by show (0 : Int) ≤ 2 ∧ (2 : Int) < 2 ^ 31; decide
  flags := rfl
  props := propBits_lt _ (by decide)
  start := putStart_range h.start
  numStates := toI_range (k := 64) (by omega) (by have := h.numStates; omega)
  numTrs := toI_range (k := 64) (by omega) (by have := h.numTrs; omega)
  isymt := h.isymt
  osymt := h.osymt

/-- What the reader reconstructs from a stored `ConstFst`. -/
def ConstFst.reread (c : ConstFst W) : ConstFst W := { c with states := c.states.map CState.reread }

/-- What `parse_const_fst` does after the header; `n` is the length of the stream. -/
def getConstTail (n : Nat) (h : Header) : P (ConstFst W) :=
  (P.align n (h.version == 1 && decide (0 < h.numStates))).bind fun _ =>
  (P.count getCState (toU 64 h.numStates)).bind fun states =>
  (P.align n (h.version == 1 && decide (0 < h.numTrs))).bind fun _ =>
  (P.count getTr (toU 64 h.numTrs)).bind fun trs =>
  P.pure ⟨states, trs, getStart h.start, h.isymt, h.osymt, bitsProps h.properties⟩

theorem stable_getCState (hs : Stable (WeightCodec.get (W := W))) : Stable (getCState (W := W)) :=
  hs.bind fun _ => (stable_getI 4).bind fun _ => (stable_getI 4).bind fun _ =>
    (stable_getI 4).bind fun _ => (stable_getI 4).bind fun _ => stable_pure _

theorem reads_getConstTail {c : ConstFst W} (h : c.Fits) (n : Nat) :
    Reads (getConstTail n (constHeader c)) ((c.states.map putCState).flatten ++ (c.trs.map putTr).flatten)
      c.reread := by
  unfold getConstTail
  refine Reads.bind (b := []) (x := ()) (reads_align n) ?_
  have hn : toU 64 (constHeader c).numStates = c.states.length :=
    toU_toI (k := 64) (by have := h.numStates; unfold ConstFst.numStates at this ⊢; omega)
  have hm : toU 64 (constHeader c).numTrs = c.trs.length :=
    toU_toI (k := 64) (by have := h.numTrs; omega)
  rw [hn, hm]
  refine (Reads.count (p := getCState) (g := CState.reread) fun t ht => reads_getCState (h.state t ht)).bind ?_
  refine Reads.bind (b := []) (x := ()) (reads_align n) ?_
  refine (Reads.count (p := getTr) (g := id) fun t ht => reads_getTr (h.tr t ht)).map' ?_
  rw [show getStart (constHeader c).start = c.start from getStart_putStart h.start,
    show bitsProps (constHeader c).properties = c.props from bitsProps_propBits _ (by decide), List.map_id]
  rfl

/-- **C24 for `ConstFst`.** Loading the bytes written by `store` gives back the same `ConstFst`; whatever
follows the bytes is ignored. It must fit the format (in particular fewer than `2^31` transitions) and no
final weight may be stored as zero. -/
theorem C24_const_round_trip (c : ConstFst W) (h : c.Fits) (hz : ∀ s ∈ c.states, s.fin ≠ some 0)
    (rest : Bytes) : loadConst (storeConst c ++ rest) = .ok c := by
  have h1 := ((reads_getHeader (header_const h) (v := 1) (by show (1 : Int) ≤ 2; decide)).bind
    (reads_getConstTail h (storeConst c ++ rest).length)) rest
  have e : c.reread = c := by
    unfold ConstFst.reread
    have : c.states.map CState.reread = c.states := by
      conv => rhs; rw [← List.map_id c.states]
      apply List.map_congr_left
      intro s hs
      have h1 := hz s hs
      obtain ⟨fin, _, _, _, _⟩ := s
      simp only [CState.reread, id]
      congr 1
      cases fin with
      | none => rfl
      | some w => simp only [dropZero]; rw [if_neg]; rintro rfl; exact h1 rfl
    rw [this]
  rw [loadConst, P.run, show getConst (storeConst c ++ rest) = _ from h1, e]

/-- **C24 for `ConstFst`, cut files**: a proper prefix of the bytes is refused with an error. -/
theorem C24_const_cut (c : ConstFst W) (h : c.Fits) (hs : Stable (WeightCodec.get (W := W))) (b : Bytes)
    (hb : b <+: storeConst c) (hne : b ≠ storeConst c) : loadConst (W := W) b = .error .err := by
  have hh := reads_getHeader (header_const h) (v := 1) (by show (1 : Int) ≤ 2; decide)
  have hal : Stable (P.align b.length false) := stable_pure ()
  have hk : Stable (getConstTail (W := W) b.length (constHeader c)) :=
    Stable.bind hal fun _ => Stable.bind (Stable.count (stable_getCState hs) _) fun _ => Stable.bind hal fun _ =>
      Stable.bind ((stable_getTr hs).count _) fun _ => stable_pure _
  have := cut_bind (stable_getHeader 1 "const" (trType W)) (f := getConstTail (W := W) b.length) hh hk
    (reads_getConstTail h b.length) hb hne
  rw [loadConst, P.run, show getConst b = _ from this]

/-! ## A `ConstFst` file read as a `VectorFst` -/

omit [WeightCodec W] [Zero W] [DecidableEq W] in
theorem toConstLoop_trs (l : List (State W)) (pos : Nat) :
    (toConstLoop pos l).2 = (l.map State.trs).flatten := by
  induction l generalizing pos with
  | nil => rfl
  | cons s l ih => simp only [toConstLoop, ih, List.map_cons, List.flatten_cons]

/-- The states read back from the transitions that follow. -/
theorem reads_getTrsFor : ∀ (l : List (State W)) (pos : Nat), (∀ s ∈ l, ∀ t ∈ s.trs, TrFits t) →
    Reads (getTrsFor ((toConstLoop pos l).1.map CState.reread)) ((toConstLoop pos l).2.map putTr).flatten
      (l.map fun s => { s with fin := dropZero s.fin })
  | [], _, _ => reads_pure []
  | s :: l, pos, h => by
    simp only [toConstLoop, List.map_cons, List.map_append, List.flatten_append, getTrsFor]
    refine (Reads.count (p := getTr) (g := id) fun t ht => reads_getTr (h s (by simp) t ht)).bind ?_
    rw [List.map_id]
    exact (reads_getTrsFor l _ fun s hs => h s (by simp [hs])).map

/-- What `parse_const_fst` of parse_const.rs does after the header; `n` is the length of the stream. -/
def getConstVecTail (n : Nat) (h : Header) : P (SFst W) :=
  (P.align n (h.version == 1 && decide (0 < h.numStates))).bind fun _ =>
  (P.count getCState (toU 64 h.numStates)).bind fun states =>
  (P.align n (h.version == 1 && decide (0 < h.numTrs))).bind fun _ =>
  (getTrsFor states).bind fun vs =>
  P.pure ⟨⟨vs, getStart h.start, bitsProps h.properties⟩, h.isymt, h.osymt⟩

/-- **C24, `read_from_const`.** Reading the file of a `ConstFst` made from a `VectorFst` as a `VectorFst` gives
back the states of the original, in order, with their transitions, final weights and counters; the start state;
the symbol tables; and the flags the `ConstFst` had. -/
theorem C24_read_from_const [One W] (x : SFst W) (c : ConstFst W) (hx : toConst x = .ok c) (h : c.Fits)
    (hz : ∀ s, x.fst.finOf s ≠ some 0) (rest : Bytes) :
    loadConstAsVector (storeConst c ++ rest) = .ok ⟨⟨x.fst.states, x.fst.start, c.props⟩, x.isymt, x.osymt⟩ := by
  obtain ⟨f, p, hf, rfl⟩ : ∃ f p, x.fst.computeAndUpdate Props.allMask = .ok (f, p) ∧
      c = ⟨(toConstLoop 0 f.states).1, (toConstLoop 0 f.states).2, f.start, x.isymt, x.osymt, p⟩ := by
    unfold toConst at hx
    split at hx
    · next f p hf => cases hx; exact ⟨f, p, hf, rfl⟩
    · cases hx
  obtain ⟨hs1, hs2⟩ : f.states = x.fst.states ∧ f.start = x.fst.start := by
    unfold Fst.computeAndUpdate at hf
    split at hf
    · cases hf
    · cases hf; exact ⟨rfl, rfl⟩
  obtain ⟨c, hc⟩ : ∃ c : ConstFst W,
    c = ⟨(toConstLoop 0 f.states).1, (toConstLoop 0 f.states).2, f.start, x.isymt, x.osymt, p⟩ := ⟨_, rfl⟩
  rw [← hc] at h ⊢
  have hhead := reads_getHeader (header_const h) (v := 1) (by show (1 : Int) ≤ 2; decide)
  have hn : toU 64 (constHeader c).numStates = c.states.length :=
    toU_toI (k := 64) (by have := h.numStates; unfold ConstFst.numStates at this ⊢; omega)
  have hfit : ∀ s ∈ f.states, ∀ t ∈ s.trs, TrFits t := by
    intro s hs t ht
    apply h.tr
    rw [hc]
    simp only [toConstLoop_trs, List.mem_flatten, List.mem_map]
    exact ⟨s.trs, ⟨s, hs, rfl⟩, ht⟩
  have htail : Reads (getConstVecTail (storeConst c ++ rest).length (constHeader c))
      ((c.states.map putCState).flatten ++ (c.trs.map putTr).flatten)
      ⟨⟨x.fst.states, x.fst.start, c.props⟩, x.isymt, x.osymt⟩ := by
    refine Reads.bind (b := []) (x := ()) (reads_align _) ?_
    rw [hn]
    refine (Reads.count (p := getCState) (g := CState.reread) fun t ht => reads_getCState (h.state t ht)).bind ?_
    refine Reads.bind (b := []) (x := ()) (reads_align _) ?_
    have h1 := reads_getTrsFor f.states 0 hfit
    rw [show (toConstLoop 0 f.states).1 = c.states by rw [hc],
      show (toConstLoop 0 f.states).2 = c.trs by rw [hc]] at h1
    refine h1.map' ?_
    rw [show getStart (constHeader c).start = c.start from getStart_putStart h.start,
      show bitsProps (constHeader c).properties = c.props from bitsProps_propBits _ (by decide)]
    have : (f.states.map fun s => { s with fin := dropZero s.fin }) = f.states := by
      conv => rhs; rw [← List.map_id f.states]
      apply List.map_congr_left
      intro s hs
      rw [hs1] at hs
      obtain ⟨n, hn⟩ := List.getElem?_of_mem hs
      have h1 := hz n
      simp only [Fst.finOf, hn] at h1
      obtain ⟨fin, _, _, _⟩ := s
      simp only [id]
      congr 1
      cases fin with
      | none => rfl
      | some w => simp only [dropZero]; rw [if_neg]; rintro rfl; exact h1 rfl
    rw [this, hs1]
    subst hc
    simp only [hs2]
    rfl
  have := (hhead.bind htail) rest
  rw [loadConstAsVector, P.run, show getConstAsVector (storeConst c ++ rest) = _ from this]

end

/-! ## Symbol tables -/

/-- **C26, binary.** Reading back the bytes written for any table built by a history gives the same table
(the same map in both directions), whatever follows the bytes. -/
theorem C26_binary_round_trip (fresh : Bool) (h : List SymOp) (t : SymTable)
    (e : t = runSymOps (if fresh then SymTable.new else SymTable.empty) h) (hf : t.Fits) (rest : Bytes) :
    readSymt (putSymt t ++ rest) = .ok t := by
  have hok : t.Ok := by rw [e]; exact (SymTable.runs_ok _ (SymTable.ok_start fresh) h).1
  rw [readSymt, reads_getSymt hok hf rest]

/-- **C26, cut binary files** are refused with an error. -/
theorem C26_binary_cut (fresh : Bool) (h : List SymOp) (t : SymTable)
    (e : t = runSymOps (if fresh then SymTable.new else SymTable.empty) h) (hf : t.Fits) (b : Bytes)
    (hb : b <+: putSymt t) (hne : b ≠ putSymt t) : readSymt b = .error .err := by
  have hok : t.Ok := by rw [e]; exact (SymTable.runs_ok _ (SymTable.ok_start fresh) h).1
  rw [readSymt, stable_getSymt.cut (reads_getSymt hok hf) hb hne]

/-! ## `IntegerWeight` and examples -/

/-- `IntegerWeight` (semirings/integer_weight.rs 104-121): an `i32`. -/
instance : WeightCodec Int where
  weightType := "integer"
  put w := putI 4 w
  get := getI 4

theorem codecOk_int {w : Int} (h1 : -2 ^ 31 ≤ w) (h2 : w < 2 ^ 31) : CodecOk w :=
  reads_getI (k := 4) (by omega) (by omega) (by omega)

theorem stable_int : Stable (WeightCodec.get (W := Int)) := stable_getI 4

/-- Defect: a final weight stored as zero (`set_final(s, W::zero())` succeeds and makes `is_final` true) is lost by a
binary round trip. -/
theorem C24_zero_final : ∃ x y : SFst Int, loadVector (storeVector x) = .ok y ∧ x.fst.IsFinal 0 ∧ ¬ y.fst.IsFinal 0 := by
  have hx : SFst.Fits (W := Int) ⟨(Fst.new.addStates 1).setFinal 0 0, none, none⟩ := by
    refine ⟨?_, fun i hi => (by cases hi), by decide, by decide, fun x hx => (by cases hx), fun x hx => (by cases hx),
      by unfold StrFits; decide⟩
    intro s hs
    obtain rfl : s = ⟨some 0, [], 0, 0⟩ := List.mem_singleton.1 hs
    exact ⟨fun t ht => (by cases ht), codecOk_int (by decide) (by decide), by decide⟩
  obtain ⟨y, h1, -, -, -, -, -, -, h2⟩ := C24_vector_general _ hx []
  rw [List.append_nil] at h1
  refine ⟨_, y, h1, rfl, fun h => ?_⟩
  have := (h2 0).2
  rw [Fst.IsFinal, this] at h
  cases h

/-- Defect: a symbol table or type name with bytes that are not UTF-8 makes the reader panic instead of failing. -/
theorem C26_invalid_utf8_panics :
    readSymt (putI 4 SYMT_MAGIC ++ putI 4 1 ++ [255]) = .error .panic := rfl

/-- Non-vacuity: a two-state FST with labels, weights and two symbol tables fits the format. -/
def exStored : SFst Int :=
  ⟨{ (((Fst.new.addStates 2).setStart 0).setFinal 1 7).addTr 0 ⟨1, 4294967295, -3, 1⟩ with props := Props.empty },
    some (runSymOps SymTable.new [.addSymbol "a"]), some SymTable.new⟩

example : exStored.Fits ∧ exStored.fst.AllCounters ∧ ∀ s, exStored.fst.finOf s ≠ some 0 := by
  have hsy : ∀ h, (∀ s ∈ (runSymOps SymTable.new h).symbols, StrFits s) → (runSymOps SymTable.new h).len ≤ 2 ^ 32 →
      SymtFits (some (runSymOps SymTable.new h)) := by
    rintro h h1 h2 x hx
    cases hx
    exact ⟨(SymTable.runs_ok _ SymTable.ok_new h).1, h2, h1⟩
  refine ⟨⟨?_, ?_, by decide, by decide, hsy _ ?_ (by decide), hsy [] ?_ (by decide), by unfold StrFits; decide⟩, ?_, ?_⟩
  · intro s hs
    have : s = ⟨none, [⟨1, 4294967295, -3, 1⟩], 0, 0⟩ ∨ s = ⟨some 7, [], 0, 0⟩ := by
      simpa using (show s ∈ [⟨none, [⟨1, 4294967295, -3, 1⟩], 0, 0⟩, ⟨some 7, [], 0, 0⟩] from hs)
    rcases this with rfl | rfl
    · refine ⟨?_, codecOk_int (by decide) (by decide), by decide⟩
      intro t ht
      obtain rfl : t = ⟨1, 4294967295, -3, 1⟩ := by simpa using ht
      exact ⟨by decide, by decide, by decide, codecOk_int (by decide) (by decide)⟩
    · exact ⟨fun t ht => (by cases ht), codecOk_int (by decide) (by decide), by decide⟩
  · intro i hi; cases hi; decide
  · intro s hs
    have : s = "<eps>" ∨ s = "a" := by simpa using (show s ∈ ["<eps>", "a"] from hs)
    rcases this with rfl | rfl <;> (unfold StrFits; decide)
  · intro s hs
    obtain rfl : s = "<eps>" := by simpa using (show s ∈ ["<eps>"] from hs)
    unfold StrFits; decide
  · intro n st hst
    rcases n with _ | _ | n
    · cases hst; exact ⟨rfl, rfl⟩
    · cases hst; exact ⟨rfl, rfl⟩
    · cases hst
  · intro s
    rcases s with _ | _ | n
    · decide
    · decide
    · intro h; cases h

end Verif
