import Verif.Lemmas.GallicSemiring
import Verif.Lemmas.Weights

/-!
# `GallicWeightLeft` and `GallicWeightRight`

`StringWeightLeft` is `StrW` with the longest common prefix as sum, `StringWeightRight` is `StrR` with the longest common suffix. The gallic weights are
pairs with a second weight (gallic_weight.rs 21-31, product_weight.rs 37-130).
-/

namespace Verif
universe u v

/-- `plus` of `StringWeightLeft` (string_weight.rs 84-128). -/
instance : Add StrW := ⟨StrW.plusLeft⟩

/-- The values of `StringWeightRight` (string_weight.rs 34-37). -/
def StrR := StrW

instance : DecidableEq StrR := inferInstanceAs (DecidableEq StrW)

/-- Products are the same as for `StringWeightLeft`. -/
instance : MonoidWithZero StrR := inferInstanceAs (MonoidWithZero StrW)

/-- `plus` of `StringWeightRight` (string_weight.rs 84-128). -/
instance : Add StrR := ⟨StrW.plusRight⟩

/-- `reverse` of `StringWeightLeft` (string_weight.rs 165-167). -/
def StrW.toRight (a : StrW) : StrR := a.reverse

/-- `reverse` of `StringWeightRight`, which is `reverse_back`. -/
def StrR.toLeft (a : StrR) : StrW := StrW.reverse a

/-- The order that is derived for string weights: infinity first, then lexicographic (string_variant.rs 3-7). -/
def StrW.lt : StrW → StrW → Bool
  | .inf, .inf => false
  | .inf, .labels _ => true
  | .labels _, .inf => false
  | .labels a, .labels b => decide (a < b)

/-- The order that is derived for products (product_weight.rs 18). -/
def gallicLt {W : Type u} (lt : W → W → Bool) (a b : StrW × W) : Bool := a.1.lt b.1 || (decide (a.1 = b.1) && lt a.2 b.2)

/-- `approx_equal` (product_weight.rs 79-82, string_weight.rs 151-153) of `GallicWeightRight`. -/
def gallicEqv {V : Type v} (eqv : V → V → Bool) (a b : StrR × V) : Bool := decide (b.1 = a.1) && eqv a.2 b.2

/-- The properties of `GallicWeightRight` (gallic_weight.rs 139-141). -/
def gallicRightFlags (sf : SemiringFlags) : SemiringFlags := StrW.rightOps.flags.prod sf

/-- `reverse` and `reverse_back` (product_weight.rs 96-98, 111-117). -/
def gallicRev {W : Type u} {V : Type v} (rev : W → V) (a : StrW × W) : StrR × V := (a.1.toRight, rev a.2)
def gallicBack {W : Type u} {V : Type v} (back : V → W) (a : StrR × V) : StrW × W := (a.1.toLeft, back a.2)

/-- `divide_assign` of `GallicWeightLeft` (gallic_weight.rs 187-202) for `DivideLeft`. -/
def gallicDivL {W : Type u} (divL : W → W → R W) : StrW × W → StrW × W → R (StrW × W) := prodDivide StrW.divideLeft divL

/-- … and for the other types, which `StringWeightLeft` refuses (string_weight.rs 342-346). -/
def gallicDivR {W : Type u} (_ _ : StrW × W) : R (StrW × W) := .error .err

end Verif
