import Verif.Model.Core

/-!
# Property bits (`fst_properties/properties.rs`)

`FstProperties` is a `bitflags` set over `u64`. A set of flags is modelled as a function from the
enumeration of the named bits to `Bool`; `|`, `&`, `!` are pointwise. `bitPos` gives the position of each bit in the `u64`.
`!x` in bitflags is the complement within the named bits, exactly the pointwise negation here.
-/

namespace Verif

/-- The named flags of `FstProperties` (properties.rs 20-104). -/
inductive PropBit where
  | acceptor
  | notAcceptor
  | iDeterministic
  | notIDeterministic
  | oDeterministic
  | notODeterministic
  | epsilons
  | noEpsilons
  | iEpsilons
  | noIEpsilons
  | oEpsilons
  | noOEpsilons
  | iLabelSorted
  | notILabelSorted
  | oLabelSorted
  | notOLabelSorted
  | weighted
  | unweighted
  | cyclic
  | acyclic
  | initialCyclic
  | initialAcyclic
  | topSorted
  | notTopSorted
  | accessible
  | notAccessible
  | coaccessible
  | notCoaccessible
  | isString
  | notString
  | weightedCycles
  | unweightedCycles
deriving DecidableEq, Repr

/-- A set of flags (`FstProperties`, properties.rs 20). -/
abbrev Props := PropBit → Bool

namespace PropBit
/-- Bit position in the `u64` (properties.rs 22-103). -/
def bitPos : PropBit → Nat
  | .acceptor => 16
  | .notAcceptor => 17
  | .iDeterministic => 18
  | .notIDeterministic => 19
  | .oDeterministic => 20
  | .notODeterministic => 21
  | .epsilons => 22
  | .noEpsilons => 23
  | .iEpsilons => 24
  | .noIEpsilons => 25
  | .oEpsilons => 26
  | .noOEpsilons => 27
  | .iLabelSorted => 28
  | .notILabelSorted => 29
  | .oLabelSorted => 30
  | .notOLabelSorted => 31
  | .weighted => 32
  | .unweighted => 33
  | .cyclic => 34
  | .acyclic => 35
  | .initialCyclic => 36
  | .initialAcyclic => 37
  | .topSorted => 38
  | .notTopSorted => 39
  | .accessible => 40
  | .notAccessible => 41
  | .coaccessible => 42
  | .notCoaccessible => 43
  | .isString => 44
  | .notString => 45
  | .weightedCycles => 46
  | .unweightedCycles => 47

/-- All named bits. -/
def all : List PropBit :=
  [.acceptor, .notAcceptor, .iDeterministic, .notIDeterministic, .oDeterministic, .notODeterministic, .epsilons, .noEpsilons, .iEpsilons, .noIEpsilons, .oEpsilons, .noOEpsilons, .iLabelSorted, .notILabelSorted, .oLabelSorted, .notOLabelSorted, .weighted, .unweighted, .cyclic, .acyclic, .initialCyclic, .initialAcyclic, .topSorted, .notTopSorted, .accessible, .notAccessible, .coaccessible, .notCoaccessible, .isString, .notString, .weightedCycles, .unweightedCycles]

theorem mem_all (b : PropBit) : b ∈ all := by cases b <;> simp [all]

/-- The other bit of the pair: the negation of a property (properties.rs 13-18). -/
def neg : PropBit → PropBit
  | .acceptor => .notAcceptor
  | .notAcceptor => .acceptor
  | .iDeterministic => .notIDeterministic
  | .notIDeterministic => .iDeterministic
  | .oDeterministic => .notODeterministic
  | .notODeterministic => .oDeterministic
  | .epsilons => .noEpsilons
  | .noEpsilons => .epsilons
  | .iEpsilons => .noIEpsilons
  | .noIEpsilons => .iEpsilons
  | .oEpsilons => .noOEpsilons
  | .noOEpsilons => .oEpsilons
  | .iLabelSorted => .notILabelSorted
  | .notILabelSorted => .iLabelSorted
  | .oLabelSorted => .notOLabelSorted
  | .notOLabelSorted => .oLabelSorted
  | .weighted => .unweighted
  | .unweighted => .weighted
  | .cyclic => .acyclic
  | .acyclic => .cyclic
  | .initialCyclic => .initialAcyclic
  | .initialAcyclic => .initialCyclic
  | .topSorted => .notTopSorted
  | .notTopSorted => .topSorted
  | .accessible => .notAccessible
  | .notAccessible => .accessible
  | .coaccessible => .notCoaccessible
  | .notCoaccessible => .coaccessible
  | .isString => .notString
  | .notString => .isString
  | .weightedCycles => .unweightedCycles
  | .unweightedCycles => .weightedCycles
end PropBit

namespace Props

/-- `FstProperties::empty()`. -/
def empty : Props := fun _ => false
/-- `a | b`. -/
def or (a b : Props) : Props := fun x => a x || b x
/-- `a & b`. -/
def and (a b : Props) : Props := fun x => a x && b x
/-- `!a`. -/
def not (a : Props) : Props := fun x => !a x
/-- The set of the listed flags (`A | B | ...`). -/
def of (l : List PropBit) : Props := fun x => decide (x ∈ l)
/-- `props |= flag`. -/
def set (p : Props) (b : PropBit) : Props := fun x => p x || decide (x = b)
/-- `props &= !flag`. -/
def clear (p : Props) (b : PropBit) : Props := fun x => p x && !decide (x = b)
/-- `if c { props |= flag }`. -/
def setIf (c : Bool) (p : Props) (b : PropBit) : Props := if c then p.set b else p
/-- `if c { props &= !flag }`. -/
def clearIf (c : Bool) (p : Props) (b : PropBit) : Props := if c then p.clear b else p
/-- `props |= yes; props &= !no`. -/
def flip (p : Props) (yes no : PropBit) : Props := (p.set yes).clear no
/-- `if c { props |= yes; props &= !no }`. -/
def flipIf (c : Bool) (p : Props) (yes no : PropBit) : Props := if c then p.flip yes no else p
/-- `self.contains(FLAG)` for a single flag. -/
def has (p : Props) (b : PropBit) : Bool := p b
/-- `a.contains(b)`. -/
def containsAll (a b : Props) : Bool := PropBit.all.all fun x => !b x || a x
/-- `a.intersects(b)`. -/
def intersects (a b : Props) : Bool := PropBit.all.any fun x => a x && b x

@[simp] theorem empty_apply (x) : empty x = false := rfl
@[simp] theorem or_apply (a b : Props) (x) : (a.or b) x = (a x || b x) := rfl
@[simp] theorem and_apply (a b : Props) (x) : (a.and b) x = (a x && b x) := rfl
@[simp] theorem not_apply (a : Props) (x) : a.not x = !a x := rfl
theorem of_apply (l : List PropBit) (x) : of l x = decide (x ∈ l) := rfl
@[simp] theorem set_apply (p : Props) (b x) : (p.set b) x = (p x || decide (x = b)) := rfl
@[simp] theorem clear_apply (p : Props) (b x) : (p.clear b) x = (p x && !decide (x = b)) := rfl
theorem flip_apply (p : Props) (y n x) :
    (p.flip y n) x = ((p x || decide (x = y)) && !decide (x = n)) := rfl
theorem flipIf_apply (c : Bool) (p : Props) (y n x) :
    (flipIf c p y n) x = if c then ((p x || decide (x = y)) && !decide (x = n)) else p x := by
  cases c <;> rfl
theorem setIf_apply (c : Bool) (p : Props) (b x) :
    (setIf c p b) x = if c then (p x || decide (x = b)) else p x := by
  cases c <;> rfl
@[simp] theorem has_apply (p : Props) (b) : p.has b = p b := rfl

/-- `null_properties` (properties.rs 110-127). -/
def nullMask : Props := of
  [.acceptor, .iDeterministic, .oDeterministic, .noEpsilons, .noIEpsilons, .noOEpsilons,
   .iLabelSorted, .oLabelSorted, .unweighted, .acyclic, .initialAcyclic, .topSorted,
   .accessible, .coaccessible, .isString, .unweightedCycles]

/-- `copy_properties` (properties.rs 130-163). -/
def copyMask : Props := of
  [.acceptor, .notAcceptor, .iDeterministic, .notIDeterministic, .oDeterministic,
   .notODeterministic, .epsilons, .noEpsilons, .iEpsilons, .noIEpsilons, .oEpsilons,
   .noOEpsilons, .iLabelSorted, .notILabelSorted, .oLabelSorted, .notOLabelSorted, .weighted,
   .unweighted, .cyclic, .acyclic, .initialCyclic, .initialAcyclic, .topSorted,
   .notTopSorted, .accessible, .notAccessible, .coaccessible, .notCoaccessible, .isString,
   .notString, .weightedCycles, .unweightedCycles]

/-- `set_start_properties` (properties.rs 166-193). -/
def setStartMask : Props := of
  [.acceptor, .notAcceptor, .iDeterministic, .notIDeterministic, .oDeterministic,
   .notODeterministic, .epsilons, .noEpsilons, .iEpsilons, .noIEpsilons, .oEpsilons,
   .noOEpsilons, .iLabelSorted, .notILabelSorted, .oLabelSorted, .notOLabelSorted, .weighted,
   .unweighted, .cyclic, .acyclic, .topSorted, .notTopSorted, .coaccessible,
   .notCoaccessible, .weightedCycles, .unweightedCycles]

/-- `set_final_properties` (properties.rs 196-223). -/
def setFinalMask : Props := of
  [.acceptor, .notAcceptor, .iDeterministic, .notIDeterministic, .oDeterministic,
   .notODeterministic, .epsilons, .noEpsilons, .iEpsilons, .noIEpsilons, .oEpsilons,
   .noOEpsilons, .iLabelSorted, .notILabelSorted, .oLabelSorted, .notOLabelSorted, .cyclic,
   .acyclic, .initialCyclic, .initialAcyclic, .topSorted, .notTopSorted, .accessible,
   .notAccessible, .weightedCycles, .unweightedCycles]

/-- `add_state_properties` (properties.rs 226-256). -/
def addStateMask : Props := of
  [.acceptor, .notAcceptor, .iDeterministic, .notIDeterministic, .oDeterministic,
   .notODeterministic, .epsilons, .noEpsilons, .iEpsilons, .noIEpsilons, .oEpsilons,
   .noOEpsilons, .iLabelSorted, .notILabelSorted, .oLabelSorted, .notOLabelSorted, .weighted,
   .unweighted, .cyclic, .acyclic, .initialCyclic, .initialAcyclic, .topSorted,
   .notTopSorted, .notAccessible, .notCoaccessible, .notString, .weightedCycles,
   .unweightedCycles]

/-- `add_arc_properties` (properties.rs 259-275). -/
def addArcMask : Props := of
  [.notAcceptor, .notIDeterministic, .notODeterministic, .epsilons, .iEpsilons, .oEpsilons,
   .notILabelSorted, .notOLabelSorted, .weighted, .cyclic, .initialCyclic, .notTopSorted,
   .accessible, .coaccessible, .weightedCycles]

/-- `set_arc_properties` (properties.rs 278-280). -/
def setArcMask : Props := empty

/-- `delete_states_properties` (properties.rs 283-297). -/
def deleteStatesMask : Props := of
  [.acceptor, .iDeterministic, .oDeterministic, .noEpsilons, .noIEpsilons, .noOEpsilons,
   .iLabelSorted, .oLabelSorted, .unweighted, .acyclic, .initialAcyclic, .topSorted,
   .unweightedCycles]

/-- `delete_arcs_properties` (properties.rs 300-316). -/
def deleteArcsMask : Props := of
  [.acceptor, .iDeterministic, .oDeterministic, .noEpsilons, .noIEpsilons, .noOEpsilons,
   .iLabelSorted, .oLabelSorted, .unweighted, .acyclic, .initialAcyclic, .topSorted,
   .notAccessible, .notCoaccessible, .unweightedCycles]

/-- `statesort_properties` (properties.rs 319-348). -/
def statesortMask : Props := of
  [.acceptor, .notAcceptor, .iDeterministic, .notIDeterministic, .oDeterministic,
   .notODeterministic, .epsilons, .noEpsilons, .iEpsilons, .noIEpsilons, .oEpsilons,
   .noOEpsilons, .iLabelSorted, .notILabelSorted, .oLabelSorted, .notOLabelSorted, .weighted,
   .unweighted, .cyclic, .acyclic, .initialCyclic, .initialAcyclic, .accessible,
   .notAccessible, .coaccessible, .notCoaccessible, .weightedCycles, .unweightedCycles]

/-- `arcsort_properties` (properties.rs 351-380). -/
def arcsortMask : Props := of
  [.acceptor, .notAcceptor, .iDeterministic, .notIDeterministic, .oDeterministic,
   .notODeterministic, .epsilons, .noEpsilons, .iEpsilons, .noIEpsilons, .oEpsilons,
   .noOEpsilons, .weighted, .unweighted, .cyclic, .acyclic, .initialCyclic, .initialAcyclic,
   .topSorted, .notTopSorted, .accessible, .notAccessible, .coaccessible, .notCoaccessible,
   .isString, .notString, .weightedCycles, .unweightedCycles]

/-- `i_label_invariant_properties` (properties.rs 383-406). -/
def iLabelInvariantMask : Props := of
  [.oDeterministic, .notODeterministic, .oEpsilons, .noOEpsilons, .oLabelSorted,
   .notOLabelSorted, .weighted, .unweighted, .cyclic, .acyclic, .initialCyclic,
   .initialAcyclic, .topSorted, .notTopSorted, .accessible, .notAccessible, .coaccessible,
   .notCoaccessible, .isString, .notString, .weightedCycles, .unweightedCycles]

/-- `o_label_invariant_properties` (properties.rs 409-432). -/
def oLabelInvariantMask : Props := of
  [.iDeterministic, .notIDeterministic, .iEpsilons, .noIEpsilons, .iLabelSorted,
   .notILabelSorted, .weighted, .unweighted, .cyclic, .acyclic, .initialCyclic,
   .initialAcyclic, .topSorted, .notTopSorted, .accessible, .notAccessible, .coaccessible,
   .notCoaccessible, .isString, .notString, .weightedCycles, .unweightedCycles]

/-- `weight_invariant_properties` (properties.rs 436-465). -/
def weightInvariantMask : Props := of
  [.acceptor, .notAcceptor, .iDeterministic, .notIDeterministic, .oDeterministic,
   .notODeterministic, .epsilons, .noEpsilons, .iEpsilons, .noIEpsilons, .oEpsilons,
   .noOEpsilons, .iLabelSorted, .notILabelSorted, .oLabelSorted, .notOLabelSorted, .cyclic,
   .acyclic, .initialCyclic, .initialAcyclic, .topSorted, .notTopSorted, .accessible,
   .notAccessible, .coaccessible, .notCoaccessible, .isString, .notString]

/-- `add_super_final_properties` (properties.rs 469-491). -/
def addSuperFinalMask : Props := of
  [.notAcceptor, .notIDeterministic, .notODeterministic, .epsilons, .iEpsilons, .oEpsilons,
   .notILabelSorted, .notOLabelSorted, .weighted, .unweighted, .cyclic, .acyclic,
   .initialCyclic, .initialAcyclic, .notTopSorted, .notAccessible, .coaccessible,
   .notCoaccessible, .notString, .weightedCycles, .unweightedCycles]

/-- `rm_super_final_properties` (properties.rs 495-518). -/
def rmSuperFinalMask : Props := of
  [.acceptor, .notAcceptor, .iDeterministic, .oDeterministic, .noEpsilons, .noIEpsilons,
   .noOEpsilons, .iLabelSorted, .oLabelSorted, .weighted, .unweighted, .cyclic, .acyclic,
   .initialCyclic, .initialAcyclic, .topSorted, .accessible, .coaccessible, .notCoaccessible,
   .isString, .weightedCycles, .unweightedCycles]

/-- `binary_properties` (properties.rs 521-523): `from_bits_truncate(7)` keeps only named bits, none of which is below bit 16. -/
def binaryMask : Props := empty
/-- `trinary_properties` (properties.rs 524-526): all named bits. -/
def trinaryMask : Props := fun _ => true
/-- `pos_trinary_properties` (properties.rs 528-531): the bits at even positions. -/
def posTrinaryMask : Props := fun b => b.bitPos % 2 == 0
/-- `neg_trinary_properties` (properties.rs 532-535). -/
def negTrinaryMask : Props := fun b => b.bitPos % 2 == 1
/-- `all_properties` (properties.rs 537-539). -/
def allMask : Props := fun _ => true

/-- `known_properties` (utils.rs 4-9): both bits of a pair are set iff one is. `(p & pos) << 1` moves a positive
bit to its negation and `(p & neg) >> 1` back. -/
def known (p : Props) : Props := fun b => p b || p b.neg
/-- `knows` (utils.rs 13-16). -/
def knows (p q : Props) : Bool := p.known.containsAll q
/-- `compat_properties` (utils.rs 20-26). -/
def compat (p q : Props) : Bool :=
  PropBit.all.all fun b => ((p b && (p.known b && q.known b)) == (q b && (p.known b && q.known b)))

end Props
end Verif
