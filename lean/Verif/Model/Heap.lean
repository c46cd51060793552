import Verif.Model.Core

/-! # The heap of the n-best search (`algorithms/shortest_path.rs` 341-408) -/

namespace Verif
universe u

namespace Heap
variable {V : Type u}

/-- `self.data.swap(i, j)`; an index out of range panics in Rust, which `C46_heap` excludes. -/
def swap (l : List V) (i j : Nat) : List V :=
  match l[i]?, l[j]? with
  | some a, some b => (l.set i b).set j a
  | _, _ => l

/-- `sift_up` (359-367). -/
def siftUp (less : V → V → Bool) (l : List V) (i : Nat) : List V :=
  if h : 0 < i then
    match l[(i - 1) / 2]?, l[i]? with
    | some p, some x => if less p x then siftUp less (swap l i ((i - 1) / 2)) ((i - 1) / 2) else l
    | _, _ => l
  else l
termination_by i

/-- `push` (368-371). -/
def push (less : V → V → Bool) (l : List V) (v : V) : List V := siftUp less (l ++ [v]) l.length

/-- The child that `sift_down` looks at (377-385). -/
def bigChild (less : V → V → Bool) (l : List V) (i : Nat) : Option Nat :=
  match l[2 * i + 1]?, l[2 * i + 2]? with
  | none, _ => none
  | some _, none => some (2 * i + 1)
  | some a, some b => some (if less a b then 2 * i + 2 else 2 * i + 1)

/-- `sift_down` (372-391), `n` is the number of recursive calls that can still follow: the index at least doubles, the length of the
data is enough. -/
def siftDown (less : V → V → Bool) : Nat → List V → Nat → List V
  | 0, l, _ => l
  | n + 1, l, i =>
    match bigChild less l i with
    | none => l
    | some c =>
      match l[c]?, l[i]? with
      | some x, some cur => if !less x cur then siftDown less n (swap l i c) c else l
      | _, _ => l

/-- `pop` (392-401). `self.data[0]` panics when the heap is empty. -/
def pop (less : V → V → Bool) (l : List V) : R (V × List V) :=
  match l with
  | [] => .error .panic
  | top :: rest =>
    match rest.getLast? with
    | none => .ok (top, [])
    | some x => .ok (top, siftDown less rest.length (x :: rest.dropLast) 0)

end Heap
end Verif
