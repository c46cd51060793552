import Verif.Model.Core

/-!
# Interval sets (`algorithms/compose/interval_set.rs`)
-/

namespace Verif

/-- `IntInterval` (interval_set.rs 11-14): the integers `v` with `first ≤ v < last`. -/
structure IntInterval where
  first : Nat
  last : Nat
deriving DecidableEq, Repr

/-- `a.cmp(b) == Less` (interval_set.rs 30-45): smaller begin first, then larger end first. -/
def IntInterval.lt (a b : IntInterval) : Bool := decide (a.first < b.first) || (decide (a.first = b.first) && decide (b.last < a.last))

/-- `IntervalSet` with its `VectorIntervalStore` (interval_set.rs 50-54, 88-91). -/
structure IntervalSet where
  intervals : List IntInterval
  count : Option Nat
deriving DecidableEq, Repr

namespace IntervalSet

/-- `IntervalSet::default` (interval_set.rs 88). -/
def empty : IntervalSet := ⟨[], none⟩

/-- `push` (interval_set.rs 65-67, 111-113). The count is not changed. -/
def push (s : IntervalSet) (i : IntInterval) : IntervalSet := { s with intervals := s.intervals ++ [i] }

/-- `clear` (interval_set.rs 69-72, 120-122). -/
def clear (_ : IntervalSet) : IntervalSet := ⟨[], none⟩

/-- `union` (interval_set.rs 129-131). -/
def union (s t : IntervalSet) : IntervalSet := { s with intervals := s.intervals ++ t.intervals }

/-- `lower_bound` of the crate `superslice` on a sorted slice: the number of elements before the first that is not less. -/
def lowerBound (l : List IntInterval) (x : IntInterval) : Nat := (l.takeWhile fun y => y.lt x).length

/-- `member` (interval_set.rs 134-141). -/
def member (s : IntervalSet) (v : Nat) : Bool :=
  match lowerBound s.intervals ⟨v, v⟩ with
  | 0 => false
  | k + 1 =>
    match s.intervals[k]? with
    | none => false
    | some i => decide (v < i.last)

/-- `singleton` (interval_set.rs 143-149). -/
def singleton (s : IntervalSet) : Bool :=
  match s.intervals with
  | [i] => decide (i.first + 1 = i.last)
  | _ => false

/-- The `for` loop of `normalize` (interval_set.rs 166-176): the interval with what it absorbs, and the intervals after that. -/
def absorb (x : IntInterval) : List IntInterval → IntInterval × List IntInterval
  | [] => (x, [])
  | y :: l => if y.first > x.last then (x, y :: l) else absorb (if y.last > x.last then { x with last := y.last } else x) l

/-- The `while` loop of `normalize` (interval_set.rs 157-182); the intervals to keep are collected instead of their indices (184-187).
`continue` does not increase `i`, so at an empty interval the loop goes on for ever. The subtraction in line 177 panics on overflow in
a build with overflow checks. -/
def normLoop : Nat → List IntInterval → List IntInterval → Nat → Option (R IntervalSet)
  | _, [], acc, count => some (.ok ⟨acc, some count⟩)
  | 0, _ :: _, _, _ => none
  | n + 1, x :: l, acc, count =>
    if x.first = x.last then normLoop n (x :: l) acc count
    else
      let r := absorb x l
      if r.1.last < r.1.first then some (.error .panic)
      else normLoop n r.2 (acc ++ [r.1]) (count + (r.1.last - r.1.first))

/-- `normalize` (interval_set.rs 152-189). Equal intervals cannot be told apart, so any sorting algorithm gives the same list. -/
def normalize (s : IntervalSet) (fuel : Nat) : Option (R IntervalSet) :=
  normLoop fuel (s.intervals.mergeSort fun a b => !b.lt a) [] 0

end IntervalSet
end Verif
