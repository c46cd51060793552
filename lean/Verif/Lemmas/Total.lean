import Verif.Lemmas.Path
import Mathlib.Algebra.BigOperators.Ring.Multiset

/-! # Weighted totals over paths -/

namespace Verif
set_option linter.unusedSectionVars false
universe u v
variable {W : Type u} [Semiring W]

/-- The sum over the paths of `A` of weight times `F`. -/
def total (A : Multiset (PathT W)) (F : List Nat → List Nat → W) : W := (A.map fun p => p.2.2 * F p.1 p.2.1).sum

theorem total_cat (t : PathT W) (A : Multiset (PathT W)) (F) :
    total (A.map fun p => t.cat p) F = t.2.2 * total A (fun x y => F (t.1 ++ x) (t.2.1 ++ y)) := by
  unfold total
  rw [Multiset.map_map, ← Multiset.sum_map_mul_left]
  simp only [Function.comp_def, PathT.cat, mul_assoc]

theorem total_bind {α : Type*} (M : Multiset α) (B : α → Multiset (PathT W)) (F) :
    total (M.bind B) F = (M.map fun a => total (B a) F).sum := by
  unfold total
  rw [Multiset.map_bind, Multiset.sum_bind]

namespace Fst

theorem total_succ (f : Fst W) (n s F) : total (f.pathsFrom (n + 1) s) F =
    ((f.trsOf s).map fun t => t.weight * total (f.pathsFrom n t.nextstate)
      (fun x y => F (strip t.ilabel ++ x) (strip t.olabel ++ y))).sum := by
  rw [pathsFrom_succ, total_bind, Multiset.map_coe, Multiset.sum_coe]
  simp only [total_cat, Tr.asPath]

theorem weightOf_eq_total (f : Fst W) (n x y) :
    f.weightOf n x y = total (f.accPaths n) (fun x' y' => if x' = x ∧ y' = y then 1 else 0) := by
  unfold weightOf total
  induction f.accPaths n using Multiset.induction_on with
  | empty => simp
  | cons a A ih =>
    rw [Multiset.map_cons, Multiset.sum_cons, ← ih, Multiset.filter_cons]
    by_cases h : a.1 = x ∧ a.2.1 = y <;> simp [h]

end Fst
end Verif
