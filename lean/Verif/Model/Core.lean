/-!
# Core data types

Labels and state ids are `u32` in the code (`lib.rs`); they are `Nat` here. `EPS` is `EPS_LABEL`.
-/

namespace Verif

universe u

/-- `type Label = u32` (lib.rs). -/
notation "Label" => Nat
/-- `type StateId = u32` (lib.rs). -/
notation "StateId" => Nat

/-- `EPS_LABEL` (lib.rs): the epsilon label. -/
notation "EPS" => (0 : Nat)
/-- `NO_LABEL = u32::MAX` (lib.rs). -/
def NO_LABEL : Label := 4294967295
/-- `NO_STATE_ID = u32::MAX` (lib.rs). -/
def NO_STATE_ID : StateId := 4294967295

/-- How a Rust call can fail: `Err(_)` (payload dropped) or a panic. -/
inductive Fail where
  | err
  | panic
deriving DecidableEq, Repr

/-- `Result<α>`, with panics as explicit error values. -/
abbrev R (α : Type u) := Except Fail α

instance {α : Type u} [DecidableEq α] : DecidableEq (R α) := fun a b =>
  match a, b with
  | .ok x, .ok y => if h : x = y then isTrue (by rw [h]) else isFalse (by intro h'; cases h'; exact h rfl)
  | .error x, .error y =>
      if h : x = y then isTrue (by rw [h]) else isFalse (by intro h'; cases h'; exact h rfl)
  | .ok _, .error _ => isFalse (by intro h; cases h)
  | .error _, .ok _ => isFalse (by intro h; cases h)

/-- `Tr<W>` (tr.rs 6-15). -/
structure Tr (W : Type u) where
  ilabel : Label
  olabel : Label
  weight : W
  nextstate : StateId
deriving DecidableEq, Repr

/-- `Vec::swap(i, j)` with both indices in range. -/
def swapAt {α : Type u} (l : List α) (i j : Nat) : List α :=
  match l[i]?, l[j]? with
  | some a, some b => (l.set i b).set j a
  | _, _ => l

/-- `is_zero` / `is_one` (semirings/semiring.rs): equality with the constant. -/
def isZeroW {W : Type u} [Zero W] [DecidableEq W] (w : W) : Bool := decide (w = 0)
@[inherit_doc isZeroW]
def isOneW {W : Type u} [One W] [DecidableEq W] (w : W) : Bool := decide (w = 1)

/-- `!w.is_zero() && !w.is_one()` as used by all property updates. -/
def nontrivialW {W : Type u} [Zero W] [One W] [DecidableEq W] (w : W) : Bool :=
  !isZeroW w && !isOneW w

end Verif
