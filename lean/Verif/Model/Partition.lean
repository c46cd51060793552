import Verif.Model.Core

/-!
# `Partition`

Links are integers, negative at the ends of lists, as in the code (`i32`; its range is not modelled). Out of range indices and
subtractions below zero are panics.
-/

namespace Verif

/-- `Element` (partition.rs 197-214). -/
structure PElt where
  classId : Nat := 0
  yes : Nat := 0
  next : Int := 0
  prev : Int := 0
  deriving DecidableEq, Inhabited

/-- `Class` (partition.rs 216-234). -/
structure PCls where
  size : Nat := 0
  yesSize : Nat := 0
  noHead : Int := -1
  yesHead : Int := -1
  deriving DecidableEq, Inhabited

/-- `Partition` (partition.rs 4-10). -/
structure Part where
  elements : List PElt
  classes : List PCls
  visited : List Nat
  yesCounter : Nat
  deriving DecidableEq

namespace Part

/-- `elements[e]`. -/
def elt (p : Part) (e : Nat) : R PElt :=
  match p.elements[e]? with
  | some x => .ok x
  | none => .error .panic

/-- `classes[c]`. -/
def cls (p : Part) (c : Nat) : R PCls :=
  match p.classes[c]? with
  | some x => .ok x
  | none => .error .panic

/-- Assignments to fields of `elements[e]`. -/
def modElt (p : Part) (e : Nat) (f : PElt → PElt) : R Part :=
  if e < p.elements.length then .ok { p with elements := p.elements.modify e f } else .error .panic

/-- Assignments to fields of `classes[c]`. -/
def modCls (p : Part) (c : Nat) (f : PCls → PCls) : R Part :=
  if c < p.classes.length then .ok { p with classes := p.classes.modify c f } else .error .panic

/-- `usize` subtraction. -/
def subU (a b : Nat) : R Nat := if b ≤ a then .ok (a - b) else .error .panic

/-- `initialize` (partition.rs 28-33): existing elements are kept by `resize_with`. -/
def init (p : Part) (n : Nat) : Part :=
  { p with elements := p.elements.take n ++ List.replicate (n - p.elements.length) {}, classes := [], yesCounter := 1 }

/-- `new` (partition.rs 13-26). -/
def new (n : Nat) : Part := init ⟨[], [], [], 0⟩ n

/-- `add_class` (partition.rs 35-39). -/
def addClass (p : Part) : Nat × Part := (p.classes.length, { p with classes := p.classes ++ [{}] })

/-- `allocate_classes` (partition.rs 41-45). -/
def allocateClasses (p : Part) (k : Nat) : Part := { p with classes := p.classes ++ List.replicate k {} }

/-- Assignment to `elements[i].prev_element` under `if i >= 0`. -/
def setPrev (p : Part) (i : Int) (v : Int) : R Part :=
  if i ≥ 0 then p.modElt i.toNat fun x => { x with prev := v } else .ok p

/-- `add` (partition.rs 47-62). -/
def add (p : Part) (e c : Nat) : R Part := do
  let k ← p.cls c
  let p ← p.modCls c fun x => { x with size := x.size + 1 }
  let p ← p.setPrev k.noHead e
  let p ← p.modCls c fun x => { x with noHead := e }
  p.modElt e fun _ => { classId := c, yes := 0, next := k.noHead, prev := -1 }

/-- Taking an element out of the list it is in (partition.rs 72-80, 96-104). -/
def unlink (p : Part) (x : PElt) : R Part := do
  let p ← if x.prev ≥ 0 then p.modElt x.prev.toNat fun y => { y with next := x.next }
    else p.modCls x.classId fun k => { k with noHead := x.next }
  p.setPrev x.next x.prev

/-- `move_element` (partition.rs 64-83). -/
def moveElement (p : Part) (e c : Nat) : R Part := do
  let x ← p.elt e
  let k ← p.cls x.classId
  let sz ← subU k.size 1
  let p ← p.modCls x.classId fun k => { k with size := sz }
  let p ← p.unlink x
  p.add e c

/-- The step of `split_on` at the head of the `yes` list (partition.rs 106-110). -/
def visit (p : Part) (yesHead : Int) (e c : Nat) : R Part :=
  if yesHead ≥ 0 then p.setPrev yesHead e else .ok { p with visited := p.visited ++ [c] }

/-- `split_on` (partition.rs 85-117). -/
def splitOn (p : Part) (e : Nat) : R Part := do
  let x ← p.elt e
  let k ← p.cls x.classId
  if x.yes = p.yesCounter then .ok p
  else do
    let p ← p.unlink x
    let p ← p.visit k.yesHead e x.classId
    let p ← p.modElt e fun y => { y with yes := p.yesCounter, next := k.yesHead, prev := -1 }
    p.modCls x.classId fun y => { y with yesHead := e, yesSize := y.yesSize + 1 }

/-- The loop that renames the class of moved elements (partition.rs 153-160). A list without a cycle has at most as many elements as
the partition, so a loop that runs out of `fuel = number of elements + 1` would never end; this is a failure. -/
def relabel (c : Nat) : Nat → Int → Part → R Part
  | 0, _, _ => .error .panic
  | fuel + 1, e, p =>
    if e < 0 then .ok p
    else do
      let p ← p.modElt e.toNat fun x => { x with classId := c }
      let x ← p.elt e.toNat
      relabel c fuel x.next p

/-- The step of `split_refine` that fills the new class `c'` and shrinks `c` (partition.rs 136-151). -/
def moveHalf (p : Part) (k : PCls) (noSize c c' : Nat) : R Part :=
  if noSize < k.yesSize then do
    let p ← p.modCls c' fun x => { x with noHead := k.noHead, size := noSize }
    p.modCls c fun x => { x with noHead := k.yesHead, yesHead := -1, size := k.yesSize, yesSize := 0 }
  else do
    let p ← p.modCls c' fun x => { x with size := k.yesSize, noHead := k.yesHead }
    p.modCls c fun x => { x with size := noSize, yesSize := 0, yesHead := -1 }

/-- `split_refine` (partition.rs 119-163): the new class, if any. -/
def splitRefine (p : Part) (c : Nat) : R (Option Nat × Part) := do
  let k ← p.cls c
  let noSize ← subU k.size k.yesSize
  if noSize = 0 then do
    let p ← p.modCls c fun x => { x with noHead := k.yesHead, yesHead := -1, yesSize := 0 }
    .ok (none, p)
  else do
    let c' := p.classes.length
    let p : Part := { p with classes := p.classes ++ [{}] }
    let p ← p.moveHalf k noSize c c'
    let k' ← p.cls c'
    let p ← relabel c' (p.elements.length + 1) k'.noHead p
    .ok (some c', p)

/-- The loop of `finalize_split` (partition.rs 167-172): the classes given to the queue. -/
def refineAll : List Nat → Part → R (List Nat × Part)
  | [], p => .ok ([], p)
  | c :: cs, p => do
    let (n, p) ← p.splitRefine c
    let (l, p) ← refineAll cs p
    .ok (n.toList ++ l, p)

/-- `finalize_split` (partition.rs 165-175): the new classes, in the order in which they are enqueued. -/
def finalizeSplit (p : Part) : R (List Nat × Part) := do
  let (l, p) ← refineAll p.visited p
  .ok (l, { p with visited := [], yesCounter := p.yesCounter + 1 })

/-- `get_class_id` (partition.rs 177-179). -/
def getClassId (p : Part) (e : Nat) : R Nat := do
  let x ← p.elt e
  .ok x.classId

/-- `get_class_size` (partition.rs 181-183). -/
def getClassSize (p : Part) (c : Nat) : R Nat := do
  let x ← p.cls c
  .ok x.size

/-- `num_classes` (partition.rs 185-187). -/
def numClasses (p : Part) : Nat := p.classes.length

/-- Following `next_element` (partition.rs 256-267), with the same bound as in `relabel`. -/
def follow (p : Part) : Nat → Int → R (List Nat)
  | 0, _ => .error .panic
  | fuel + 1, e =>
    if e < 0 then .ok []
    else do
      let x ← p.elt e.toNat
      let l ← follow p fuel x.next
      .ok (e.toNat :: l)

/-- `iter(c).collect()` (partition.rs 189-191, 236-268). -/
def iter (p : Part) (c : Nat) : R (List Nat) := do
  let k ← p.cls c
  p.follow (p.elements.length + 1) k.noHead

end Part

/-- The calls that change a partition. -/
inductive POp where
  | init (n : Nat)
  | addClass
  | allocate (k : Nat)
  | add (e c : Nat)
  | move (e c : Nat)
  | splitOn (e : Nat)
  | finalize

/-- A call; the list is what `finalize_split` gives to the queue. -/
def Part.step (p : Part) : POp → R (List Nat × Part)
  | .init n => .ok ([], p.init n)
  | .addClass => .ok ([], p.addClass.2)
  | .allocate k => .ok ([], p.allocateClasses k)
  | .add e c => do let p ← p.add e c; .ok ([], p)
  | .move e c => do let p ← p.moveElement e c; .ok ([], p)
  | .splitOn e => do let p ← p.splitOn e; .ok ([], p)
  | .finalize => p.finalizeSplit

/-- A sequence of calls. -/
def Part.run (p : Part) : List POp → R (List (List Nat) × Part)
  | [] => .ok ([], p)
  | op :: ops => do
    let (o, p) ← p.step op
    let (os, p) ← p.run ops
    .ok (o :: os, p)

end Verif
