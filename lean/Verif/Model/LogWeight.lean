import Verif.Model.Weights
import Mathlib.Analysis.SpecialFunctions.Log.Basic
import Mathlib.Algebra.Order.Floor.Ring

/-!
# Log weights (`semirings/log_weight.rs`) and quantisation

Idealised: the values are real numbers or `+∞`; `exp`, `ln` and `ln_1p` are the real functions. `-∞` and NaN are left out.
-/

namespace Verif

/-- `LogWeight` (25-28). -/
inductive LW where
  | fin (x : ℝ)
  | inf

namespace LW
open Classical

/-- `ln_pos_exp` (30-32): `ln_1p (exp (-x))`. -/
noncomputable def lnPosExp (x : ℝ) : ℝ := Real.log (1 + Real.exp (-x))

/-- `plus_assign` (55-68). -/
noncomputable def plus : LW → LW → LW
  | inf, b => b
  | a, inf => a
  | fin x, fin y => if y < x then fin (y - lnPosExp (x - y)) else fin (x - lnPosExp (y - x))

/-- `times_assign` (70-80). -/
noncomputable def times : LW → LW → LW
  | inf, _ => inf
  | _, inf => inf
  | fin x, fin y => fin (x + y)

/-- `impl Semiring for LogWeight` (34-107). -/
noncomputable def ops : WeightOps LW := totalOps inf (fin 0) plus times ⟨true, true, true, false, false⟩

/-- `closure` (125-133): `none` is `-∞`. -/
noncomputable def star : LW → Option LW
  | inf => none
  | fin x => if 0 ≤ x ∧ x < 1 then some (fin (Real.log (1 - x))) else none

/-- `divide_assign` (135-140): `none` is a value that is not a real number nor `+∞`. -/
noncomputable def divide : LW → LW → Option LW
  | inf, fin _ => some inf
  | fin x, fin y => some (fin (x - y))
  | _, inf => none

end LW

/-- `quantize` of a float weight (semiring.rs 131-145), idealised; infinite values are left alone. -/
def quantize {K : Type} [Field K] [LinearOrder K] [IsStrictOrderedRing K] [FloorRing K] (delta v : K) : K :=
  (⌊v / delta + 1 / 2⌋ : Int) * delta

end Verif
