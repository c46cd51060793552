import Verif.Lemmas.Path
import Mathlib.Algebra.BigOperators.Group.Finset.Basic

/-! # Paths between two states -/

namespace Verif
set_option linter.unusedSectionVars false
universe u v
variable {W : Type u} {V : Type v}
namespace Fst

/-- Single transitions from `a` to `b` as paths. -/
def edgePaths (f : Fst W) (a b : StateId) : Multiset (PathT W) :=
  (((f.trsOf a).filter (fun t => t.nextstate = b)).map Tr.asPath : Multiset (PathT W))

variable [Monoid W]

/-- Paths with exactly `n` transitions from `a` to `b`; no final weight. -/
def mid (f : Fst W) : Nat → StateId → StateId → Multiset (PathT W)
  | 0, a, b => if a = b then {([], [], 1)} else 0
  | n + 1, a, b => (f.trsOf a : Multiset (Tr W)).bind fun t => (f.mid n t.nextstate b).map fun p => t.asPath.cat p

theorem catAll_one_left (B : Multiset (PathT W)) : catAll {([], [], 1)} B = B := by
  simp [catAll_singleton, PathT.cat]

theorem catAll_one_right (B : Multiset (PathT W)) : catAll B {([], [], 1)} = B := by
  have : (fun p : PathT W => ({p} : Multiset (PathT W))) = fun p => {id p} := rfl
  simp [catAll, PathT.cat]
  rw [this, Multiset.bind_singleton, Multiset.map_id]

theorem edgePaths_ge {f : Fst W} {a b} (h : f.numStates ≤ a) : f.edgePaths a b = 0 := by
  simp [edgePaths, trsOf_of_ge h]

theorem bind_single_if {α β : Type*} (p : α → Bool) (φ : α → β) (l : List α) :
    ((l : Multiset α).bind fun t => if p t then ({φ t} : Multiset β) else 0) = ((l.filter p).map φ : Multiset β) := by
  induction l with
  | nil => simp
  | cons a l ih =>
    rw [← Multiset.cons_coe, Multiset.cons_bind, ih]
    cases h : p a <;> simp [h]

theorem mid_one (f : Fst W) (a b) : f.mid 1 a b = f.edgePaths a b := by
  rw [mid, edgePaths, ← bind_single_if]
  refine Multiset.bind_congr fun t _ => ?_
  simp only [mid, decide_eq_true_eq]
  split <;> simp [Tr.asPath, PathT.cat]

/-- Splitting off the last transition. -/
theorem mid_succ_right (f : Fst W) (n a b) : f.mid (n + 1) a b =
    ∑ c ∈ Finset.range f.numStates, catAll (f.mid n a c) (f.edgePaths c b) := by
  induction n generalizing a with
  | zero =>
    rw [mid_one]
    simp only [mid]
    by_cases ha : a < f.numStates
    · rw [Finset.sum_eq_single a]
      · simp [catAll_one_left]
      · intro c _ hc; rw [if_neg (Ne.symm hc)]; simp
      · intro h; exact absurd (Finset.mem_range.2 ha) h
    · rw [edgePaths_ge (by omega)]
      symm
      apply Finset.sum_eq_zero
      intro c hc
      have := Finset.mem_range.1 hc
      rw [if_neg (by omega)]; simp
  | succ n ih =>
    rw [mid, Multiset.bind_congr (fun t _ => by rw [ih t.nextstate, map_sum_range]), bind_sum_range]
    refine Finset.sum_congr rfl fun c _ => ?_
    rw [mid, catAll_bind]
    refine Multiset.bind_congr fun t _ => ?_
    rw [← catAll_singleton, ← catAll_assoc, catAll_singleton]

/-- Paths from a state to a final state: a path to some state and its final weight. -/
theorem pathsFrom_eq_mid (f : Fst W) (n a) : f.pathsFrom n a =
    ∑ c ∈ Finset.range f.numStates, catAll (f.mid n a c) (f.pathsFrom 0 c) := by
  induction n generalizing a with
  | zero =>
    simp only [mid]
    by_cases ha : a < f.numStates
    · rw [Finset.sum_eq_single a]
      · simp [catAll_one_left]
      · intro c _ hc; rw [if_neg (Ne.symm hc)]; simp
      · intro h; exact absurd (Finset.mem_range.2 ha) h
    · rw [pathsFrom_ge (by omega)]
      symm
      apply Finset.sum_eq_zero
      intro c hc
      have := Finset.mem_range.1 hc
      rw [if_neg (by omega)]; simp
  | succ n ih =>
    rw [pathsFrom_succ, Multiset.bind_congr (fun t _ => by rw [ih t.nextstate, map_sum_range]), bind_sum_range]
    refine Finset.sum_congr rfl fun c _ => ?_
    rw [mid, catAll_bind]
    refine Multiset.bind_congr fun t _ => ?_
    rw [← catAll_singleton, ← catAll_assoc, catAll_singleton]

end Fst
end Verif
