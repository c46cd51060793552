import Verif.Spec.Legs
import Verif.Lemmas.Path

/-!
# Machines whose steps advance two counters

Every transition is tagged with how far it gets in each of two other machines. The paths are grouped by the totals.
-/

namespace Verif
universe u v
variable {W : Type u} {T : Type v} [Mul W]

/-- The path of no transitions. -/
def finPath (w : Option W) : Multiset (PathT W) :=
  match w with
  | none => 0
  | some w => {([], [], w)}

/-- The accepting paths from `t` with `N` transitions whose tags add up to `n` and `m`. -/
def graded (fin : T → Option W) (tag : T → Multiset (MTr T W × Nat × Nat)) : Nat → Nat → Nat → T → Multiset (PathT W)
  | 0, n, m, t => if n = 0 ∧ m = 0 then finPath (fin t) else 0
  | N + 1, n, m, t => (tag t).bind fun x =>
      if x.2.1 ≤ n ∧ x.2.2 ≤ m then (graded fin tag N (n - x.2.1) (m - x.2.2) x.1.next).map (fun p => x.1.asPath.cat p) else 0

/-- The accepting paths from `t` whose tags add up to `n` and `m`. -/
def gradedAll (fin : T → Option W) (tag : T → Multiset (MTr T W × Nat × Nat)) (n m : Nat) (t : T) : Multiset (PathT W) :=
  ∑ N ∈ Finset.range (n + m + 1), graded fin tag N n m t

section
variable {fin : T → Option W} {tag : T → Multiset (MTr T W × Nat × Nat)}

theorem bind_eq_zero_of {α β : Type*} (A : Multiset α) (F : α → Multiset β) (h : ∀ a ∈ A, F a = 0) : A.bind F = 0 := by
  rw [Multiset.bind_congr h]; simp

theorem graded_big (h1 : ∀ t, ∀ x ∈ tag t, x.2.1 ≤ 1 ∧ x.2.2 ≤ 1) : ∀ (N n m t), N < n ∨ N < m → graded fin tag N n m t = 0
  | 0, n, m, t, h => by unfold graded; rw [if_neg (by omega)]
  | N + 1, n, m, t, h => by
    unfold graded
    refine bind_eq_zero_of _ _ fun x hx => ?_
    have := h1 t x hx
    split
    · rw [graded_big h1 N _ _ _ (by omega)]; rfl
    · rfl

theorem graded_long (h2 : ∀ t, ∀ x ∈ tag t, 1 ≤ x.2.1 + x.2.2) : ∀ (N n m t), n + m < N → graded fin tag N n m t = 0
  | 0, n, m, t, h => by omega
  | N + 1, n, m, t, h => by
    unfold graded
    refine bind_eq_zero_of _ _ fun x hx => ?_
    have := h2 t x hx
    split
    · rw [graded_long h2 N _ _ _ (by omega)]; rfl
    · rfl

/-- Shifting a sum by zero or one, when the last term vanishes. -/
theorem sum_shift {α : Type*} [AddCommMonoid α] (F : Nat → α) (N i : Nat) (hi : i ≤ 1) (h0 : F (N + 1) = 0) :
    ∑ n ∈ Finset.range (N + 2), (if i ≤ n then F (n - i) else 0) = ∑ n ∈ Finset.range (N + 1), F n := by
  rcases Nat.le_one_iff_eq_zero_or_eq_one.1 hi with rfl | rfl
  · rw [Finset.sum_range_succ]; simp [h0]
  · rw [Finset.sum_range_succ']; simp

theorem graded_sum (M : Machine T W) {P : T → Prop} (hP : ∀ t, P t → ∀ a ∈ M.trs t, P a.next)
    (hM : ∀ t, P t → (M.trs t : Multiset (MTr T W)) = (tag t).map (·.1))
    (h1 : ∀ t, ∀ x ∈ tag t, x.2.1 ≤ 1 ∧ x.2.2 ≤ 1) : ∀ N t, P t → M.pathsFrom N t =
      ∑ n ∈ Finset.range (N + 1), ∑ m ∈ Finset.range (N + 1), graded M.fin tag N n m t
  | 0, t, _ => by simp [Machine.pathsFrom, graded]; rfl
  | N + 1, t, ht => by
    have e : M.pathsFrom (N + 1) t = (M.trs t : Multiset (MTr T W)).bind fun a => (M.pathsFrom N a.next).map fun p => a.asPath.cat p := rfl
    rw [e, hM t ht, Multiset.bind_map]
    simp only [graded]
    conv_rhs => arg 2; ext n; rw [← bind_sum_range (tag t) (N + 1 + 1)]
    rw [← bind_sum_range (tag t) (N + 1 + 1)]
    refine Multiset.bind_congr fun x hx => ?_
    obtain ⟨hi, hj⟩ := h1 t x hx
    have hx' : P x.1.next := hP t ht x.1 (by
      rw [← Multiset.mem_coe, hM t ht]; exact Multiset.mem_map_of_mem _ hx)
    rw [graded_sum M hP hM h1 N _ hx', map_sum_range]
    conv_lhs => arg 2; ext n; rw [map_sum_range]
    have e1 : ∀ n, ∑ m ∈ Finset.range (N + 2), (if x.2.1 ≤ n ∧ x.2.2 ≤ m then (graded M.fin tag N (n - x.2.1) (m - x.2.2) x.1.next).map (fun p => x.1.asPath.cat p) else 0)
        = if x.2.1 ≤ n then ∑ m ∈ Finset.range (N + 1), (graded M.fin tag N (n - x.2.1) m x.1.next).map (fun p => x.1.asPath.cat p) else 0 := by
      intro n
      by_cases hn : x.2.1 ≤ n
      · simp only [hn, true_and, if_true]
        exact sum_shift (fun m => (graded M.fin tag N (n - x.2.1) m x.1.next).map (fun p => x.1.asPath.cat p)) N x.2.2 hj (by
          beta_reduce; rw [graded_big h1 N _ _ _ (by omega)]; rfl)
      · simp [hn]
    simp only [e1]
    refine (sum_shift (fun n => ∑ m ∈ Finset.range (N + 1), (graded M.fin tag N n m x.1.next).map (fun p => x.1.asPath.cat p)) N x.2.1 hi ?_).symm
    refine Finset.sum_eq_zero fun m _ => ?_
    rw [graded_big h1 N _ _ _ (by omega)]; rfl

theorem gradedAll_rec (h2 : ∀ t, ∀ x ∈ tag t, 1 ≤ x.2.1 + x.2.2) (n m t) : gradedAll fin tag n m t =
    (if n = 0 ∧ m = 0 then finPath (fin t) else 0) + (tag t).bind fun x =>
      if x.2.1 ≤ n ∧ x.2.2 ≤ m then (gradedAll fin tag (n - x.2.1) (m - x.2.2) x.1.next).map (fun p => x.1.asPath.cat p) else 0 := by
  unfold gradedAll
  rw [Finset.sum_range_succ', add_comm]
  congr 1
  simp only [graded]
  rw [← bind_sum_range]
  refine Multiset.bind_congr fun x hx => ?_
  have hx := h2 t x hx
  by_cases hc : x.2.1 ≤ n ∧ x.2.2 ≤ m
  · simp only [hc, and_self, if_true]
    rw [map_sum_range]
    obtain ⟨k, hk⟩ : ∃ k, n + m = (n - x.2.1 + (m - x.2.2) + 1) + k := ⟨n + m - (n - x.2.1 + (m - x.2.2) + 1), by omega⟩
    conv_lhs => rw [hk]
    rw [Finset.sum_range_add]
    conv_rhs => rw [← add_zero (∑ _ ∈ _, _)]
    congr 1
    refine Finset.sum_eq_zero fun i _ => ?_
    rw [graded_long h2 _ _ _ _ (by omega)]; rfl
  · simp [hc]

end
end Verif
