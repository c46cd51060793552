import Verif.Model.Partition

/-!
# Specification of partitions

An abstract partition gives each element that was added its class. Between two `finalize_split` some elements are marked. The
operations are defined where their precondition holds and are `none` elsewhere.
-/

namespace Verif

/-- An abstract partition of (some of) the elements `0 .. n - 1` into classes `0 .. nc - 1`. -/
structure PState where
  n : Nat
  nc : Nat
  cls : Nat → Option Nat
  marked : Nat → Bool
  /-- The classes with marked elements, in the order of their first marks. -/
  pending : List Nat

namespace PState

/-- `n` elements, none of them in a class. -/
def new (n : Nat) : PState := ⟨n, 0, fun _ => none, fun _ => false, []⟩

/-- Number of elements of class `c`. -/
def size (σ : PState) (c : Nat) : Nat := (List.range σ.n).countP fun e => σ.cls e == some c

/-- Number of marked elements of class `c`. -/
def sizeYes (σ : PState) (c : Nat) : Nat := (List.range σ.n).countP fun e => σ.cls e == some c && σ.marked e

/-- Number of elements of class `c` that are not marked. -/
def sizeNo (σ : PState) (c : Nat) : Nat := (List.range σ.n).countP fun e => σ.cls e == some c && !σ.marked e

/-- Split class `c` into its marked and its other elements. The smaller part, the marked one if they are equal, is the new class. If
all elements are marked there is no new class. -/
def split (σ : PState) (c : Nat) : PState :=
  { σ with
    nc := if σ.sizeNo c = 0 then σ.nc else σ.nc + 1
    cls := fun e =>
      if σ.sizeNo c ≠ 0 ∧ σ.cls e = some c ∧ σ.marked e = !decide (σ.sizeNo c < σ.sizeYes c) then some σ.nc else σ.cls e
    marked := fun e => σ.marked e && σ.cls e != some c }

/-- The effect of a call on an abstract partition, and the new classes; `none` if the precondition of the call does not hold:

* `initialize` is not called between `split_on` and `finalize_split`;
* `add` is given an element that is not in a class yet, and an existing class;
* `move_element` is given an element of a class that is not marked, and an existing class;
* `split_on` is given an element of a class. -/
def apply (σ : PState) : POp → Option (List Nat × PState)
  | .init n => if σ.pending = [] then some ([], new n) else none
  | .addClass => some ([], { σ with nc := σ.nc + 1 })
  | .allocate k => some ([], { σ with nc := σ.nc + k })
  | .add e c => if e < σ.n ∧ c < σ.nc ∧ σ.cls e = none then
      some ([], { σ with cls := fun x => if x = e then some c else σ.cls x }) else none
  | .move e c => if (σ.cls e).isSome ∧ c < σ.nc ∧ σ.marked e = false then
      some ([], { σ with cls := fun x => if x = e then some c else σ.cls x }) else none
  | .splitOn e => match σ.cls e with
    | none => none
    | some c => some ([], { σ with
        marked := fun x => if x = e then true else σ.marked x
        pending := if c ∈ σ.pending then σ.pending else σ.pending ++ [c] })
  | .finalize =>
    let σ' := σ.pending.foldl split σ
    some (List.range' σ.nc (σ'.nc - σ.nc), { σ' with pending := [] })

/-- A sequence of calls. -/
def run (σ : PState) : List POp → Option (List (List Nat) × PState)
  | [] => some ([], σ)
  | op :: ops => match σ.apply op with
    | none => none
    | some (o, σ) => match run σ ops with
      | none => none
      | some (os, σ) => some (o :: os, σ)

end PState

/-- What the queries on a partition show: the number of classes, the class of each element, the size of each class, and, by iteration,
the elements of each class (those that are not marked, between `split_on` and `finalize_split`). -/
structure Part.Shows (p : Part) (σ : PState) : Prop where
  numClasses : p.numClasses = σ.nc
  classId : ∀ e c, σ.cls e = some c → p.getClassId e = .ok c
  classSize : ∀ c, c < σ.nc → p.getClassSize c = .ok (σ.size c)
  iter : ∀ c, c < σ.nc → ∃ l, p.iter c = .ok l ∧ l.Nodup ∧ ∀ e, e ∈ l ↔ σ.cls e = some c ∧ σ.marked e = false

end Verif
