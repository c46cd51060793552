import Verif.Spec.Machine
import Verif.Model.Lazy

/-!
# Specification: paths in two legs

Some operations first follow the input and then, after its end, take further transitions of their own. The paths of such a
machine are grouped by the number of transitions in each leg.
-/

namespace Verif
universe u v
variable {W : Type u} {T : Type v}

/-- The machine of an operation on tuples: what it computes when no error occurs. -/
def TupleOp.machine (O : TupleOp T W) : Machine T W where
  start := match O.start with
    | .ok r => r
    | .error _ => none
  trs t := match O.trs t with
    | .ok l => l
    | .error _ => []
  fin t := match O.fin t with
    | .ok r => r
    | .error _ => none

variable [Mul W]

/-- The accepting paths from `t` that take `n` transitions to tuples with `P`, then `k` transitions to tuples without `P`. -/
def Machine.legsFrom (M : Machine T W) (P : T → Bool) : Nat → Nat → T → Multiset (PathT W)
  | 0, 0, t => match M.fin t with
    | none => 0
    | some w => {([], [], w)}
  | 0, k + 1, t => (((M.trs t).filter fun a => !P a.next : List (MTr T W)) : Multiset (MTr T W)).bind fun a =>
      (M.legsFrom P 0 k a.next).map fun p => a.asPath.cat p
  | n + 1, k, t => (((M.trs t).filter fun a => P a.next : List (MTr T W)) : Multiset (MTr T W)).bind fun a =>
      (M.legsFrom P n k a.next).map fun p => a.asPath.cat p

/-- The same from the start. -/
def Machine.legs (M : Machine T W) (P : T → Bool) (n k : Nat) : Multiset (PathT W) :=
  match M.start with
  | none => 0
  | some t => M.legsFrom P n k t

/-- The sum of the weights of the paths of a collection that transduce `x` to `y`. -/
def sumOf [AddCommMonoid W] (A : Multiset (PathT W)) (x y : List Label) : W :=
  ((A.filter (fun p => p.1 = x ∧ p.2.1 = y)).map (fun p => p.2.2)).sum

/-- The paths of a collection whose weight is not zero. -/
def nonzero [Zero W] [DecidableEq W] (A : Multiset (PathT W)) : Multiset (PathT W) := A.filter fun p => p.2.2 ≠ 0

end Verif
