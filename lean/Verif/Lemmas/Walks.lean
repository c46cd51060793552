import Verif.Spec.Distance
import Verif.Lemmas.Access
import Mathlib.Algebra.Ring.Defs
import Mathlib.Algebra.BigOperators.Ring.Multiset
import Mathlib.Algebra.BigOperators.Group.Multiset.Basic
import Mathlib.Algebra.BigOperators.Group.Finset.Sigma
import Mathlib.Algebra.BigOperators.Group.Finset.Piecewise
import Mathlib.Tactic.Abel

/-! # Lemmas about the walks of the distance specification -/

namespace Verif
universe u
set_option linter.unusedSectionVars false
namespace Fst

section Mon
variable {W : Type u} [Monoid W] (f : Fst W) (keep : Tr W → Bool)

/-- A walk can also be extended at its end. -/
theorem walks_succ' (n : Nat) (p : StateId) :
    f.walks keep (n + 1) p = (f.walks keep n p).bind fun e =>
      (((f.trsOf e.1).filter keep : List (Tr W)) : Multiset (Tr W)).map fun t => (t.nextstate, e.2 * t.weight) := by
  induction n generalizing p with
  | zero =>
    simp [walks, Multiset.bind_singleton, Multiset.singleton_bind]
  | succ n ih =>
    have h1 : f.walks keep (n + 1 + 1) p = (((f.trsOf p).filter keep : List (Tr W)) : Multiset (Tr W)).bind fun t =>
      (f.walks keep (n + 1) t.nextstate).map fun e => (e.1, t.weight * e.2) := rfl
    have h2 : f.walks keep (n + 1) p = (((f.trsOf p).filter keep : List (Tr W)) : Multiset (Tr W)).bind fun t =>
      (f.walks keep n t.nextstate).map fun e => (e.1, t.weight * e.2) := rfl
    rw [h1, h2, Multiset.bind_assoc]
    refine Multiset.bind_congr fun t _ => ?_
    rw [ih, Multiset.map_bind, Multiset.bind_map]
    refine Multiset.bind_congr fun e _ => ?_
    rw [Multiset.map_map]
    refine Multiset.map_congr rfl fun t' _ => ?_
    simp [mul_assoc]

theorem mem_walks_zero {p x : StateId} {w : W} : (x, w) ∈ f.walks keep 0 p ↔ x = p ∧ w = 1 := by
  simp [walks]

theorem mem_walks_succ {n : Nat} {p x : StateId} {w : W} :
    (x, w) ∈ f.walks keep (n + 1) p ↔ ∃ t ∈ f.trsOf p, keep t = true ∧ ∃ v, (x, v) ∈ f.walks keep n t.nextstate ∧ w = t.weight * v := by
  simp only [walks, Multiset.mem_bind, Multiset.mem_coe, List.mem_filter, Multiset.mem_map, Prod.exists, Prod.mk.injEq]
  constructor
  · rintro ⟨t, ⟨ht, hk⟩, y, v, hv, rfl, rfl⟩
    exact ⟨t, ht, hk, v, hv, rfl⟩
  · rintro ⟨t, ht, hk, v, hv, rfl⟩
    exact ⟨t, ⟨ht, hk⟩, x, v, hv, rfl, rfl⟩

theorem mem_walks_succ' {n : Nat} {p x : StateId} {w : W} :
    (x, w) ∈ f.walks keep (n + 1) p ↔
      ∃ s a, (s, a) ∈ f.walks keep n p ∧ ∃ t ∈ f.trsOf s, keep t = true ∧ x = t.nextstate ∧ w = a * t.weight := by
  rw [walks_succ']
  simp only [Multiset.mem_bind, Multiset.mem_coe, List.mem_filter, Multiset.mem_map, Prod.exists, Prod.mk.injEq]
  constructor
  · rintro ⟨s, a, h, t, ⟨ht, hk⟩, rfl, rfl⟩
    exact ⟨s, a, h, t, ht, hk, rfl, rfl⟩
  · rintro ⟨s, a, h, t, ht, hk, rfl, rfl⟩
    exact ⟨s, a, h, t, ⟨ht, hk⟩, rfl, rfl⟩

variable {f keep}

theorem walks_snoc {n : Nat} {p s : StateId} {a : W} (h : (s, a) ∈ f.walks keep n p) {t : Tr W} (ht : t ∈ f.trsOf s)
    (hk : keep t = true) : (t.nextstate, a * t.weight) ∈ f.walks keep (n + 1) p :=
  (f.mem_walks_succ' keep).2 ⟨s, a, h, t, ht, hk, rfl, rfl⟩

theorem walks_append {n m : Nat} {p x y : StateId} {a b : W} (h : (x, a) ∈ f.walks keep n p) (h' : (y, b) ∈ f.walks keep m x) :
    (y, a * b) ∈ f.walks keep (n + m) p := by
  induction m generalizing y b with
  | zero =>
    obtain ⟨rfl, rfl⟩ := (f.mem_walks_zero keep).1 h'
    simpa using h
  | succ m ih =>
    obtain ⟨s, v, hv, t, ht, hk, rfl, rfl⟩ := (f.mem_walks_succ' keep).1 h'
    rw [← mul_assoc]
    exact walks_snoc (ih hv) ht hk

end Mon

section Sum
variable {W : Type u} [AddCommMonoid W] [Monoid W] (f : Fst W) (keep : Tr W → Bool)

theorem walkSum_zero (p q : StateId) : f.walkSum keep 0 p q = if p = q then 1 else 0 := by
  unfold walkSum walks
  by_cases h : p = q <;> simp [h, Multiset.filter_singleton]

/-- What one turn adds to the distance of `q` when a state with pending weight `a` has the transitions `l`. -/
def cont (keep : Tr W → Bool) (l : List (Tr W)) (q : StateId) (a : W) : W :=
  ((l.filter (fun t => keep t && decide (t.nextstate = q))).map (fun t => a * t.weight)).sum

@[simp] theorem cont_nil (q : StateId) (a : W) : cont keep [] q a = 0 := rfl

theorem cont_snoc (l : List (Tr W)) (t : Tr W) (q : StateId) (a : W) :
    cont keep (l ++ [t]) q a = cont keep l q a + if keep t = true ∧ t.nextstate = q then a * t.weight else 0 := by
  unfold cont
  rw [List.filter_append, List.map_append, List.sum_append]
  by_cases h1 : keep t = true <;> by_cases h2 : t.nextstate = q <;> simp [h1, h2]

theorem cont_cons (l : List (Tr W)) (t : Tr W) (q : StateId) (a : W) :
    cont keep (t :: l) q a = (if keep t = true ∧ t.nextstate = q then a * t.weight else 0) + cont keep l q a := by
  unfold cont
  by_cases h1 : keep t = true <;> by_cases h2 : t.nextstate = q <;> simp [h1, h2]

theorem cont_zero (hz : ∀ a : W, 0 * a = 0) (l : List (Tr W)) (q : StateId) : cont keep l q (0 : W) = 0 := by
  induction l with
  | nil => rfl
  | cons t l ih => rw [cont_cons, ih]; simp [hz]

theorem cont_add [RightDistribClass W] (l : List (Tr W)) (q : StateId) (a b : W) :
    cont keep l q (a + b) = cont keep l q a + cont keep l q b := by
  induction l with
  | nil => simp
  | cons t l ih =>
    rw [cont_cons, cont_cons, cont_cons, ih]
    split
    · rw [right_distrib]; abel
    · simp

theorem cont_eq_zero (l : List (Tr W)) (q : StateId) (a : W) (h : ∀ t ∈ l, keep t = true → t.nextstate ≠ q) : cont keep l q a = 0 := by
  induction l with
  | nil => rfl
  | cons t l ih =>
    rw [cont_cons, ih (fun t ht => h t (List.mem_cons_of_mem _ ht)), if_neg, add_zero]
    rintro ⟨h1, h2⟩
    exact h t (by simp) h1 h2

theorem cont_sum [RightDistribClass W] (hz : ∀ a : W, 0 * a = 0) (l : List (Tr W)) (q : StateId) (s : Finset Nat) (g : Nat → W) :
    cont keep l q (∑ k ∈ s, g k) = ∑ k ∈ s, cont keep l q (g k) := by
  classical
  induction s using Finset.induction_on with
  | empty => simp [cont_zero keep hz]
  | insert a s ha ih => rw [Finset.sum_insert ha, Finset.sum_insert ha, cont_add, ih]

theorem walks_lt (hw : f.WF) {n : Nat} {p x : StateId} {w : W} (hp : p < f.numStates) (h : (x, w) ∈ f.walks keep n p) :
    x < f.numStates := by
  cases n with
  | zero => obtain ⟨rfl, -⟩ := (f.mem_walks_zero keep).1 h; exact hp
  | succ n =>
    obtain ⟨s, v, hv, t, ht, hk, rfl, rfl⟩ := (f.mem_walks_succ' keep).1 h
    exact hw.next_lt s t ht

/-- One more transition. -/
theorem walkSum_succ [RightDistribClass W] (hz : ∀ a : W, 0 * a = 0) (hw : f.WF) {p : StateId} (hp : p < f.numStates) (n : Nat) (q : StateId) :
    f.walkSum keep (n + 1) p q = ∑ s ∈ Finset.range f.numStates, cont keep (f.trsOf s) q (f.walkSum keep n p s) := by
  have key : ∀ M : Multiset (StateId × W), (∀ e ∈ M, e.1 < f.numStates) →
      ((((M.bind fun e => (((f.trsOf e.1).filter keep : List (Tr W)) : Multiset (Tr W)).map fun t =>
        (t.nextstate, e.2 * t.weight)).filter (fun e => e.1 = q)).map (fun e => e.2)).sum : W) =
      ∑ s ∈ Finset.range f.numStates, cont keep (f.trsOf s) q (((M.filter (fun e => e.1 = s)).map (fun e => e.2)).sum) := by
    intro M
    induction M using Multiset.induction_on with
    | empty => intro _; simp [cont_zero keep hz]
    | cons e M ih =>
      intro hM
      rw [Multiset.cons_bind, Multiset.filter_add, Multiset.map_add, Multiset.sum_add, ih (fun e' h => hM e' (Multiset.mem_cons_of_mem h))]
      have h1 : (((((((f.trsOf e.1).filter keep : List (Tr W)) : Multiset (Tr W)).map fun t =>
          (t.nextstate, e.2 * t.weight)).filter (fun e => e.1 = q)).map (fun e => e.2)).sum : W) = cont keep (f.trsOf e.1) q e.2 := by
        generalize f.trsOf e.1 = l
        induction l with
        | nil => simp
        | cons t l ihl =>
          rw [cont_cons, ← ihl]
          by_cases hk : keep t = true
          · by_cases hq : t.nextstate = q <;> simp [hk, hq]
          · simp [hk]
      rw [h1]
      have h2 : ∀ s, cont keep (f.trsOf s) q ((((e ::ₘ M).filter (fun e => e.1 = s)).map (fun e => e.2)).sum) =
          (if s = e.1 then cont keep (f.trsOf s) q e.2 else 0) +
            cont keep (f.trsOf s) q (((M.filter (fun e => e.1 = s)).map (fun e => e.2)).sum) := by
        intro s
        by_cases hs : e.1 = s
        · subst hs; simp [cont_add]
        · have : ¬ s = e.1 := fun h => hs h.symm
          simp [hs, this]
      simp only [h2]
      rw [Finset.sum_add_distrib, Finset.sum_ite_eq', if_pos (Finset.mem_range.2 (hM e (by simp)))]
  unfold walkSum
  rw [walks_succ']
  exact key _ (fun e he => f.walks_lt keep hw hp (w := e.2) he)

/-- The sums over the paths with fewer than `n` transitions. -/
def walkSums (n : Nat) (p q : StateId) : W := ∑ k ∈ Finset.range n, f.walkSum keep k p q

theorem walkSums_succ [RightDistribClass W] (hz : ∀ a : W, 0 * a = 0) (hw : f.WF) {p : StateId} (hp : p < f.numStates) (n : Nat) (q : StateId) :
    f.walkSums keep (n + 1) p q = (if p = q then 1 else 0) +
      ∑ s ∈ Finset.range f.numStates, cont keep (f.trsOf s) q (f.walkSums keep n p s) := by
  unfold walkSums
  rw [Finset.sum_range_succ' (fun k => f.walkSum keep k p q), walkSum_zero, add_comm]
  congr 1
  simp only [cont_sum keep hz]
  rw [Finset.sum_comm]
  exact Finset.sum_congr rfl fun k _ => f.walkSum_succ keep hz hw hp k q

end Sum
end Fst
end Verif
