import Verif.Spec.Path
import Verif.Lemmas.Access
import Mathlib.Algebra.Order.BigOperators.Group.Multiset

/-! # Calculating with path multisets -/

namespace Verif
set_option linter.unusedSectionVars false
universe u v
variable {W : Type u} {V : Type v}

theorem PathT.cat_assoc [Semigroup W] (p q r : PathT W) : (p.cat q).cat r = p.cat (q.cat r) := by
  simp [PathT.cat, List.append_assoc, mul_assoc]

section catAll
variable [Mul W]

@[simp] theorem catAll_zero_left (B : Multiset (PathT W)) : catAll 0 B = 0 := by simp [catAll]
@[simp] theorem catAll_zero_right (A : Multiset (PathT W)) : catAll A 0 = 0 := by simp [catAll]
theorem catAll_add_left (A B C : Multiset (PathT W)) : catAll (A + B) C = catAll A C + catAll B C := by simp [catAll]
theorem catAll_add_right (A B C : Multiset (PathT W)) : catAll A (B + C) = catAll A B + catAll A C := by
  simp [catAll]
theorem catAll_sum_left (n : Nat) (A : Nat → Multiset (PathT W)) (C : Multiset (PathT W)) :
    catAll (∑ i ∈ Finset.range n, A i) C = ∑ i ∈ Finset.range n, catAll (A i) C := by
  induction n with
  | zero => simp
  | succ n ih => rw [Finset.sum_range_succ, Finset.sum_range_succ, catAll_add_left, ih]
theorem catAll_sum_right (n : Nat) (A : Multiset (PathT W)) (C : Nat → Multiset (PathT W)) :
    catAll A (∑ i ∈ Finset.range n, C i) = ∑ i ∈ Finset.range n, catAll A (C i) := by
  induction n with
  | zero => simp
  | succ n ih => rw [Finset.sum_range_succ, Finset.sum_range_succ, catAll_add_right, ih]
theorem catAll_singleton (p : PathT W) (B : Multiset (PathT W)) : catAll {p} B = B.map fun q => p.cat q := by
  simp [catAll]
theorem mem_catAll {A B : Multiset (PathT W)} {r : PathT W} :
    r ∈ catAll A B ↔ ∃ p ∈ A, ∃ q ∈ B, p.cat q = r := by
  simp [catAll]
theorem catAll_bind {α : Type*} (M : Multiset α) (F : α → Multiset (PathT W)) (C : Multiset (PathT W)) :
    catAll (M.bind F) C = M.bind fun a => catAll (F a) C := by
  simp [catAll, Multiset.bind_assoc]

end catAll

theorem catAll_assoc [Semigroup W] (A B C : Multiset (PathT W)) : catAll (catAll A B) C = catAll A (catAll B C) := by
  simp only [catAll, Multiset.bind_assoc, Multiset.bind_map, Multiset.map_bind, Multiset.map_map]
  refine Multiset.bind_congr fun p _ => Multiset.bind_congr fun q _ => Multiset.map_congr rfl fun r _ => ?_
  simp [PathT.cat_assoc]

theorem bind_sum_range {α β : Type*} (M : Multiset α) (n : Nat) (F : α → Nat → Multiset β) :
    (M.bind fun a => ∑ i ∈ Finset.range n, F a i) = ∑ i ∈ Finset.range n, M.bind fun a => F a i := by
  induction n with
  | zero => simp
  | succ n ih => simp only [Finset.sum_range_succ, Multiset.bind_add, ih]

theorem map_sum_range {α β : Type*} (φ : α → β) (n : Nat) (F : Nat → Multiset α) :
    (∑ i ∈ Finset.range n, F i).map φ = ∑ i ∈ Finset.range n, (F i).map φ := by
  induction n with
  | zero => simp
  | succ n ih => simp only [Finset.sum_range_succ, Multiset.map_add, ih]

theorem mem_sum_range {α : Type*} {n : Nat} {F : Nat → Multiset α} {a : α} :
    a ∈ (∑ i ∈ Finset.range n, F i) ↔ ∃ i, i < n ∧ a ∈ F i := by
  induction n with
  | zero => simp
  | succ n ih =>
    rw [Finset.sum_range_succ, Multiset.mem_add, ih]
    constructor
    · rintro (⟨i, hi, h⟩ | h)
      · exact ⟨i, by omega, h⟩
      · exact ⟨n, by omega, h⟩
    · rintro ⟨i, hi, h⟩
      by_cases e : i = n
      · subst e; exact Or.inr h
      · exact Or.inl ⟨i, by omega, h⟩

@[simp] theorem strip_eps : strip EPS = [] := rfl

/-- An ε-transition of weight one does not change a path. -/
theorem cat_epsOne [Monoid W] (p : PathT W) : PathT.cat ([], [], 1) p = p := by simp [PathT.cat]

theorem delay_zero {α : Type u} (A : Nat → Multiset α) : delay 0 A = A := by funext n; simp [delay]
@[simp] theorem delay_one_zero {α : Type u} (A : Nat → Multiset α) : delay 1 A 0 = 0 := by simp [delay]
@[simp] theorem delay_one_succ {α : Type u} (A : Nat → Multiset α) (n) : delay 1 A (n + 1) = A n := by simp [delay]

namespace Fst
variable [Mul W] [Mul V]

theorem pathsFrom_zero (f : Fst W) (s) : f.pathsFrom 0 s = match f.finOf s with
    | none => 0
    | some w => {([], [], w)} := rfl
theorem pathsFrom_succ (f : Fst W) (n s) : f.pathsFrom (n + 1) s =
    (f.trsOf s : Multiset (Tr W)).bind fun t => (f.pathsFrom n t.nextstate).map fun p => t.asPath.cat p := rfl
theorem accPaths_some {f : Fst W} {i} (h : f.start = some i) (n) : f.accPaths n = f.pathsFrom n i := by
  simp [accPaths, h]
theorem accPaths_none {f : Fst W} (h : f.start = none) (n) : f.accPaths n = 0 := by simp [accPaths, h]

/-- States without transitions and final weight have no paths; in particular states that do not exist. -/
theorem pathsFrom_ge {f : Fst W} {s} (h : f.numStates ≤ s) (n) : f.pathsFrom n s = 0 := by
  cases n with
  | zero => simp [pathsFrom_zero, finOf_of_ge h]
  | succ n => simp [pathsFrom_succ, trsOf_of_ge h]

/-- Paths only depend on start, transitions and final weights. -/
theorem pathsFrom_congr {f g : Fst W} (ht : ∀ s, g.trsOf s = f.trsOf s) (hf : ∀ s, g.finOf s = f.finOf s) (n s) :
    g.pathsFrom n s = f.pathsFrom n s := by
  induction n generalizing s with
  | zero => simp [pathsFrom_zero, hf]
  | succ n ih => simp [pathsFrom_succ, ht, ih]
theorem accPaths_congr {f g : Fst W} (hs : g.start = f.start) (ht : ∀ s, g.trsOf s = f.trsOf s)
    (hf : ∀ s, g.finOf s = f.finOf s) (n) : g.accPaths n = f.accPaths n := by
  simp [accPaths, hs, pathsFrom_congr ht hf]

/-- Simulation: `g` has at `σ s` the transitions of `f` at `s`, up to order, rewritten by `k`; `φ` rewrites paths
accordingly. `S` is a set of states of `f` closed under transitions. -/
theorem pathsFrom_sim {f : Fst W} {g : Fst V} (σ : Nat → Nat) (k : Tr W → Tr V) (φ : PathT W → PathT V)
    (S : Nat → Prop)
    (htr : ∀ s, S s → (g.trsOf (σ s) : Multiset (Tr V)) = ((f.trsOf s).map k : Multiset (Tr V)))
    (hnext : ∀ s, S s → ∀ t ∈ f.trsOf s, S t.nextstate ∧ (k t).nextstate = σ t.nextstate)
    (hφ : ∀ s, S s → ∀ t ∈ f.trsOf s, ∀ p, φ (t.asPath.cat p) = (k t).asPath.cat (φ p))
    (hfin : ∀ s, S s → g.pathsFrom 0 (σ s) = (f.pathsFrom 0 s).map φ) (n s) (hs : S s) :
    g.pathsFrom n (σ s) = (f.pathsFrom n s).map φ := by
  induction n generalizing s with
  | zero => exact hfin s hs
  | succ n ih =>
    rw [pathsFrom_succ, pathsFrom_succ, htr s hs]
    rw [← Multiset.map_coe, Multiset.bind_map, Multiset.map_bind]
    refine Multiset.bind_congr fun t ht => ?_
    have ht' : t ∈ f.trsOf s := by simpa using ht
    obtain ⟨h1, h2⟩ := hnext s hs t ht'
    rw [h2, ih _ h1, Multiset.map_map, Multiset.map_map]
    refine Multiset.map_congr rfl fun p _ => ?_
    simp [hφ s hs t ht']

/-- Simulation without rewriting labels. -/
theorem pathsFrom_sub {f g : Fst W} (σ : Nat → Nat) (S : Nat → Prop)
    (htr : ∀ s, S s → (g.trsOf (σ s)) = (f.trsOf s).map fun t => { t with nextstate := σ t.nextstate })
    (hnext : ∀ s, S s → ∀ t ∈ f.trsOf s, S t.nextstate)
    (hfin : ∀ s, S s → g.finOf (σ s) = f.finOf s) (n s) (hs : S s) :
    g.pathsFrom n (σ s) = f.pathsFrom n s := by
  have := pathsFrom_sim σ (fun t => { t with nextstate := σ t.nextstate }) id S (fun s hs => by rw [htr s hs])
    (fun s hs t ht => ⟨hnext s hs t ht, rfl⟩) (fun _ _ _ _ _ => rfl)
    (fun s hs => by simp [pathsFrom_zero, hfin s hs]) n s hs
  simpa using this

end Fst
end Verif
