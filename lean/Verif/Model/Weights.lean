import Verif.Model.Core

/-!
# Weights (`semirings/*.rs`)

Each weight type is modelled by the operations of its `Semiring` implementation. `plus` and `times` return a `Result` in the
code and are kept partial here: only the restricted string weights use that. Floats are idealised: the values of tropical
weights are `-∞`, the elements of an ordered group, or `+∞`; those of probability weights are the elements of a field; those of log
weights are real numbers or `+∞`. Equality of floats up to `KDELTA` is modelled separately (`approxEq`).
-/

namespace Verif
universe u v

/-- `SemiringProperties` (semiring.rs 13-28), without the unions. -/
structure SemiringFlags where
  left : Bool
  right : Bool
  commutative : Bool
  idempotent : Bool
  path : Bool
deriving DecidableEq, Repr

/-- The associated functions of the trait `Semiring` (semiring.rs 37-75). `plus_assign` and `times_assign` change `self` only;
`plus` and `times` clone first. -/
structure WeightOps (W : Type u) where
  zero : W
  one : W
  plus : W → W → R W
  times : W → W → R W
  flags : SemiringFlags

/-- Operations that never fail. -/
def totalOps {W : Type u} (zero one : W) (plus times : W → W → W) (flags : SemiringFlags) : WeightOps W :=
  ⟨zero, one, fun a b => .ok (plus a b), fun a b => .ok (times a b), flags⟩

/-! ## `BooleanWeight` (boolean_weight.rs 5-79) -/

/-- `impl Semiring for BooleanWeight` (11-62). -/
def boolOps : WeightOps Bool := totalOps false true (· || ·) (· && ·) ⟨true, true, true, true, true⟩

/-- `closure` (74-78). -/
def boolStar (_ : Bool) : Bool := true

/-! ## `IntegerWeight` (integer_weight.rs 16-103) -/

/-- `impl Semiring for IntegerWeight` (21-71) on exact integers. -/
def intOps : WeightOps Int := totalOps 0 1 (· + ·) (· * ·) ⟨true, true, true, false, false⟩

/-- The same with the wrapping arithmetic of a release build. -/
def i32Ops : WeightOps (BitVec 32) := totalOps 0 1 (· + ·) (· * ·) ⟨true, true, true, false, false⟩

/-- `closure` (89-97). -/
def i32Star (a : BitVec 32) : BitVec 32 := if a = 0 then 1 else 2147483647

/-! ## `TropicalWeight` (tropical_weight.rs 26-133) -/

/-- A tropical weight: an `f32` that is not NaN. -/
inductive TW (K : Type u) where
  | negInf
  | fin (x : K)
  | inf
deriving DecidableEq, Repr

namespace TW
variable {K : Type u}

/-- `<` on floats. -/
def lt [LT K] [DecidableLT K] : TW K → TW K → Bool
  | negInf, negInf => false
  | negInf, _ => true
  | fin x, fin y => decide (x < y)
  | fin _, inf => true
  | _, _ => false

/-- `plus_assign` (53-58). -/
def plus [LT K] [DecidableLT K] (a b : TW K) : TW K := if lt b a then b else a

/-- `times_assign` (60-70). -/
def times [Add K] : TW K → TW K → TW K
  | inf, _ => inf
  | _, inf => inf
  | negInf, _ => negInf
  | _, negInf => negInf
  | fin x, fin y => fin (x + y)

/-- `impl Semiring for TropicalWeight` (31-99). -/
def ops [LT K] [DecidableLT K] [Add K] [Zero K] : WeightOps (TW K) :=
  totalOps inf (fin 0) plus times ⟨true, true, true, true, true⟩

/-- `closure` (117-125). The sign of a zero is positive. -/
def star [LE K] [DecidableLE K] [Zero K] : TW K → TW K
  | fin x => if 0 ≤ x then fin 0 else negInf
  | _ => negInf

/-- `divide_assign` (127-132): `none` is NaN. -/
def divide [Sub K] : TW K → TW K → Option (TW K)
  | inf, inf => none
  | negInf, negInf => none
  | inf, _ => some inf
  | negInf, _ => some negInf
  | fin _, inf => some negInf
  | fin _, negInf => some inf
  | fin x, fin y => some (fin (x - y))

end TW

/-! ## `ProbabilityWeight` (probability_weight.rs) -/

/-- `impl Semiring for ProbabilityWeight` (27-83). -/
def probOps {K : Type u} [Zero K] [One K] [Add K] [Mul K] : WeightOps K :=
  totalOps 0 1 (· + ·) (· * ·) ⟨true, true, true, false, false⟩

/-- `closure` (121-125). -/
def probStar {K : Type u} [One K] [Sub K] [Div K] (a : K) : K := 1 / (1 - a)

/-- `divide_assign` (127-136): an error when the divisor is zero. -/
def probDivide {K : Type u} [Zero K] [Div K] [DecidableEq K] (a b : K) : R K := if b = 0 then .error .err else .ok (a / b)

/-! ## Equality of floats (semiring.rs 159-176) -/

/-- `PartialEq` for the float weights: equal up to `KDELTA` (`partial_eq_and_hash_f32!`). -/
def approxEq {K : Type u} [LE K] [DecidableLE K] [Add K] (delta a b : K) : Bool := decide (a ≤ b + delta) && decide (b ≤ a + delta)

/-! ## String weights (string_variant.rs, string_weight.rs) -/

/-- `StringWeightVariant` (string_variant.rs 3-7). -/
inductive StrW where
  | inf
  | labels (l : List Label)
deriving DecidableEq, Repr

namespace StrW

/-- `StringWeightVariant::reverse` (58-67). -/
def reverse : StrW → StrW
  | inf => inf
  | labels l => labels l.reverse

/-- `zip`, `take_while`, `map` (string_weight.rs 101-109). -/
def common (a b : List Label) : List Label := ((a.zip b).takeWhile fun p => p.1 == p.2).map Prod.fst

/-- `plus_assign` of `StringWeightLeft` (84-128). -/
def plusLeft : StrW → StrW → StrW
  | inf, b => b
  | a, inf => a
  | labels a, labels b => labels (common a b)

/-- `plus_assign` of `StringWeightRight` (84-128). -/
def plusRight : StrW → StrW → StrW
  | inf, b => b
  | a, inf => a
  | labels a, labels b => labels (common a.reverse b.reverse).reverse

/-- `plus_assign` of `StringWeightRestrict` (84-128): an error on different strings. -/
def plusRestrict : StrW → StrW → R StrW
  | inf, b => .ok b
  | a, inf => .ok a
  | labels a, labels b => if a ≠ b then .error .err else .ok (labels a)

/-- `times_assign` (129-140). -/
def times : StrW → StrW → StrW
  | inf, _ => inf
  | labels _, inf => inf
  | labels a, labels b => labels (a ++ b)

/-- `Semiring for StringWeightLeft` (64-177). -/
def leftOps : WeightOps StrW := totalOps inf (labels []) plusLeft times ⟨true, false, false, true, false⟩

/-- `Semiring for StringWeightRight`. -/
def rightOps : WeightOps StrW := totalOps inf (labels []) plusRight times ⟨false, true, false, true, false⟩

/-- `Semiring for StringWeightRestrict`. -/
def restrictOps : WeightOps StrW :=
  ⟨inf, labels [], plusRestrict, fun a b => .ok (times a b), ⟨true, true, false, true, false⟩⟩

/-- `divide_left` (316-327). -/
def divideLeft : StrW → StrW → R StrW
  | _, inf => .error .panic
  | inf, labels _ => .ok inf
  | labels a, labels b => .ok (labels (a.drop b.length))

/-- `divide_right` (329-340). -/
def divideRight : StrW → StrW → R StrW
  | _, inf => .error .panic
  | inf, labels _ => .ok inf
  | labels a, labels b => .ok (labels (a.reverse.drop b.length).reverse)

/-- `len_labels` (180-185). -/
def lenLabels : StrW → Nat
  | inf => 0
  | labels l => l.length

end StrW

/-! ## `ProductWeight` (product_weight.rs 37-155) -/

section
variable {A : Type u} {B : Type v}

/-- Both components, the first error first (`plus_assign`, `times_assign` 61-71). -/
def pairR (f : R A) (g : R B) : R (A × B) :=
  match f with
  | .error e => .error e
  | .ok a =>
    match g with
    | .error e => .error e
    | .ok b => .ok (a, b)

/-- `SemiringFlags` of a product (95-102): `PATH` is lost. -/
def SemiringFlags.prod (f g : SemiringFlags) : SemiringFlags :=
  ⟨f.left && g.left, f.right && g.right, f.commutative && g.commutative, f.idempotent && g.idempotent, false⟩

/-- `impl Semiring for ProductWeight` (37-103). The gallic weights `GallicWeightLeft`, `GallicWeightRight` and
`GallicWeightRestrict` are products with a string weight (gallic_weight.rs 21-38, 82-146). -/
def prodOps (o : WeightOps A) (p : WeightOps B) : WeightOps (A × B) where
  zero := (o.zero, p.zero)
  one := (o.one, p.one)
  plus a b := pairR (o.plus a.1 b.1) (p.plus a.2 b.2)
  times a b := pairR (o.times a.1 b.1) (p.times a.2 b.2)
  flags := o.flags.prod p.flags

/-- `divide_assign` (150-154). -/
def prodDivide (d : A → A → R A) (e : B → B → R B) (a b : A × B) : R (A × B) := pairR (d a.1 b.1) (e a.2 b.2)

end

/-! ## `GallicWeightMin` (gallic_weight.rs 40-146) -/

section
variable {W : Type u} [DecidableEq W]

/-- `natural_less` (45-47). -/
def naturalLess (o : WeightOps W) (a b : W) : R Bool :=
  match o.plus a b with
  | .error e => .error e
  | .ok s => .ok (s == a && !(a == b))

/-- `plus_assign` of `GallicWeightMin` (102-114): keeps `self` when its second component is naturally less. -/
def gallicMinPlus (o : WeightOps W) (a b : StrW × W) : R (StrW × W) :=
  match naturalLess o a.2 b.2 with
  | .error e => .error e
  | .ok true => .ok a
  | .ok false => .ok b

/-- `Semiring for GallicWeightMin` (82-146). -/
def gallicMinOps (o : WeightOps W) : WeightOps (StrW × W) :=
  { prodOps StrW.restrictOps o with plus := gallicMinPlus o }

end

/-! ## `UnionWeight` (union_weight.rs) -/

section
variable {W : Type u}

/-- `UnionWeightOption` (23-29). -/
structure UnionOpt (W : Type u) where
  compare : W → W → Bool
  merge : W → W → R W

/-- `push_back(weight, true)` (182-192). -/
def pushBack (o : UnionOpt W) (l : List W) (w : W) : R (List W) :=
  match l.getLast? with
  | none => .ok [w]
  | some b =>
    if o.compare b w then .ok (l ++ [w])
    else match o.merge b w with
      | .error e => .error e
      | .ok m => .ok (l.dropLast ++ [m])

/-- A loop of `push_back(…, true)`. -/
def pushAll (o : UnionOpt W) (l : List W) : List W → R (List W)
  | [] => .ok l
  | w :: ws =>
    match pushBack o l w with
    | .error e => .error e
    | .ok l => pushAll o l ws

/-- The order in which `plus_assign` pushes the weights (81-107). -/
def mergeOrder (cmp : W → W → Bool) : List W → List W → List W
  | [], b => b
  | a, [] => a
  | x :: a, y :: b => if cmp x y then x :: mergeOrder cmp a (y :: b) else y :: mergeOrder cmp (x :: a) b
termination_by a b => a.length + b.length

/-- `plus_assign` (75-111). -/
def unionPlus (o : UnionOpt W) (a b : List W) : R (List W) :=
  if a = [] then .ok b else if b = [] then .ok a else pushAll o [] (mergeOrder o.compare a b)

/-- The inner loop of `times_assign` (119-123): the products of `w` with all the weights of `b`. -/
def unionRow (o : UnionOpt W) (times : W → W → R W) (w : W) (l : List W) : List W → R (List W)
  | [] => .ok l
  | v :: b =>
    match times w v with
    | .error e => .error e
    | .ok p =>
      match pushBack o l p with
      | .error e => .error e
      | .ok l => unionRow o times w l b

/-- The outer loop of `times_assign` (117-125). -/
def unionTimesLoop (o : UnionOpt W) (times : W → W → R W) (b : List W) (acc : List W) : List W → R (List W)
  | [] => .ok acc
  | w :: a =>
    match unionRow o times w [] b with
    | .error e => .error e
    | .ok row =>
      match unionPlus o acc row with
      | .error e => .error e
      | .ok acc => unionTimesLoop o times b acc a

/-- `times_assign` (113-129). -/
def unionTimes (o : UnionOpt W) (times : W → W → R W) (a b : List W) : R (List W) :=
  if a = [] ∨ b = [] then .ok [] else unionTimesLoop o times b [] a

/-- `impl Semiring for UnionWeight` (50-179). -/
def unionOps (o : UnionOpt W) (w : WeightOps W) : WeightOps (List W) where
  zero := []
  one := [w.one]
  plus := unionPlus o
  times := unionTimes o w.times
  flags := { w.flags with path := false }

/-- The two division loops of `divide_assign` (230-240). -/
def pushQuotients (o : UnionOpt W) (q : List W) : List (R W) → R (List W)
  | [] => .ok q
  | .error e :: _ => .error e
  | .ok w :: ws =>
    match pushBack o q w with
    | .error e => .error e
    | .ok q => pushQuotients o q ws

/-- `divide_assign` (224-242). -/
def unionDivide (o : UnionOpt W) (divide : W → W → R W) (a b : List W) : R (List W) :=
  match if a = [] ∨ b = [] then [] else a, b with
  | [x], b => pushQuotients o [] (b.reverse.map fun y => divide x y)
  | a, [y] => pushQuotients o [] (a.map fun x => divide x y)
  | _, _ => .error .err

/-- Insertion in the order of `compare`. -/
def insertBy (cmp : W → W → Bool) (w : W) : List W → List W
  | [] => [w]
  | x :: l => if cmp x w then x :: insertBy cmp w l else w :: x :: l

/-- `reverse` (157-170): the reversed weights, sorted. `push_back(…, false)` only changes the order in which they reach `sort_by`. -/
def unionReverse (cmp : W → W → Bool) (rev : W → W) (l : List W) : List W := (l.map rev).foldr (insertBy cmp) []

/-! ## `GallicWeight` (gallic_weight.rs 275-397) -/

/-- The loop comparing two label lists of the same length (300-310). -/
def lexLess : List Label → List Label → Bool
  | a :: l, b :: m => if a < b then true else if b < a then false else lexLess l m
  | _, _ => false

/-- `GallicUnionWeightOption::compare` (285-313). Two empty strings are not compared further, so `Infinity` counts as the empty
string. -/
def gallicCompare (a b : StrW × W) : Bool :=
  if a.1.lenLabels < b.1.lenLabels then true
  else if b.1.lenLabels < a.1.lenLabels then false
  else match a.1, b.1 with
    | .labels l, .labels m => lexLess l m
    | _, _ => false

/-- `GallicUnionWeightOption::merge` (315-321). -/
def gallicMerge (o : WeightOps W) (a b : StrW × W) : R (StrW × W) :=
  match o.plus a.2 b.2 with
  | .error e => .error e
  | .ok s => .ok (a.1, s)

/-- `GallicUnionWeightOption`. -/
def gallicOpt (o : WeightOps W) : UnionOpt (StrW × W) := ⟨gallicCompare, gallicMerge o⟩

/-- `GallicWeight<W>`: the union of restricted gallic weights. -/
def gallicOps (o : WeightOps W) : WeightOps (List (StrW × W)) := unionOps (gallicOpt o) (prodOps StrW.restrictOps o)

end
end Verif
