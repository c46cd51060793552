import Verif.Lemmas.Append
import Mathlib.Algebra.BigOperators.Group.Finset.Sigma

/-! # Paths of an FST whose final states continue elsewhere (concat, closure) -/

namespace Verif
set_option linter.unusedSectionVars false
universe u v
variable {W : Type u}

theorem seqPaths_zero_left [Mul W] (B : Nat → Multiset (PathT W)) (n) : seqPaths (fun _ => 0) B n = 0 := by
  simp [seqPaths]

theorem seqPaths_zero_right [Mul W] (A : Nat → Multiset (PathT W)) (n) : seqPaths A (fun _ => 0) n = 0 := by
  simp [seqPaths]

theorem repeatPaths_gt [Mul W] (A : Nat → Multiset (PathT W)) {k n : Nat} (h : n < k) : repeatPaths A k n = 0 := by
  induction k generalizing n with
  | zero => omega
  | succ k ih =>
    show seqPaths A (repeatPaths A k) n = 0
    unfold seqPaths
    apply Finset.sum_eq_zero
    intro i hi
    rw [Finset.mem_range] at hi
    rw [ih (by omega), catAll_zero_right]

/-- The recursive equation of iteration has one solution. -/
theorem iterate_eq [Mul W] {L H : Nat → Multiset (PathT W)} (h : ∀ n, H n = L n + seqPaths L H n) (n : Nat) :
    H n = ∑ k ∈ Finset.range (n + 1), repeatPaths L k n := by
  induction n using Nat.strong_induction_on with
  | _ n ih =>
    rw [h, Finset.sum_range_succ', add_comm]
    congr 1
    show seqPaths L H n = ∑ k ∈ Finset.range n, seqPaths L (repeatPaths L k) n
    unfold seqPaths
    rw [Finset.sum_comm]
    apply Finset.sum_congr rfl
    intro i hi
    rw [Finset.mem_range] at hi
    rw [ih (n - 1 - i) (by omega), ← catAll_sum_right]
    congr 1
    rw [show n - 1 - i + 1 = n - i from by omega]
    apply Finset.sum_subset
    · intro k hk; simp at hk ⊢; omega
    · intro k hk hk'
      simp at hk hk'
      exact repeatPaths_gt _ (by omega)

/-- Members of `repeatPaths`: the concatenation of `k + 1` members. -/
theorem mem_repeatPaths [Monoid W] {A : Nat → Multiset (PathT W)} {k : Nat} {x y : List Label} {w : W} :
    (∃ n, (x, y, w) ∈ repeatPaths A k n) ↔
    ∃ ps : List (PathT W), ps.length = k + 1 ∧ (∀ p ∈ ps, ∃ n, p ∈ A n) ∧ x = (ps.map (·.1)).flatten ∧
      y = (ps.map (·.2.1)).flatten ∧ w = (ps.map (·.2.2)).prod := by
  induction k generalizing x y w with
  | zero =>
    constructor
    · rintro ⟨n, h⟩
      exact ⟨[(x, y, w)], rfl, by simpa using ⟨n, h⟩, by simp, by simp, by simp⟩
    · rintro ⟨ps, hl, hp, rfl, rfl, rfl⟩
      match ps, hl with
      | [p], _ =>
        obtain ⟨n, hn⟩ := hp p (by simp)
        exact ⟨n, by simpa [repeatPaths] using hn⟩
  | succ k ih =>
    constructor
    · rintro ⟨n, h⟩
      change _ ∈ seqPaths A (repeatPaths A k) n at h
      unfold seqPaths at h
      obtain ⟨i, hi, h⟩ := mem_sum_range.1 h
      obtain ⟨p, hp, ⟨x', y', w'⟩, hq, e⟩ := mem_catAll.1 h
      obtain ⟨ps, h1, h2, rfl, rfl, rfl⟩ := ih.1 ⟨_, hq⟩
      refine ⟨p :: ps, by simp [h1], ?_, ?_, ?_, ?_⟩
      · intro r hr
        rcases List.mem_cons.1 hr with rfl | hr
        · exact ⟨_, hp⟩
        · exact h2 r hr
      all_goals (simp only [PathT.cat, Prod.mk.injEq] at e; simp [← e.1, ← e.2.1, ← e.2.2])
    · rintro ⟨ps, hl, hp, rfl, rfl, rfl⟩
      match ps, hl with
      | p :: ps, hl =>
        obtain ⟨i, hi⟩ := hp p (by simp)
        obtain ⟨j, hj⟩ := ih.2 ⟨ps, by simpa using hl, fun q hq => hp q (List.mem_cons_of_mem _ hq), rfl, rfl, rfl⟩
        refine ⟨i + j + 1, ?_⟩
        change _ ∈ seqPaths A (repeatPaths A k) _
        unfold seqPaths
        refine mem_sum_range.2 ⟨i, by omega, mem_catAll.2 ⟨p, hi, (_, _, _), ?_, by simp only [PathT.cat, List.map_cons, List.flatten_cons, List.prod_cons]; rfl⟩⟩
        rw [show i + j + 1 - 1 - i = j from by omega]
        exact hj

theorem exists_mem_seqPaths [Mul W] {A B : Nat → Multiset (PathT W)} {r : PathT W} :
    (∃ n, r ∈ seqPaths A B n) ↔ ∃ p q, (∃ n, p ∈ A n) ∧ (∃ n, q ∈ B n) ∧ p.cat q = r := by
  constructor
  · rintro ⟨n, h⟩
    obtain ⟨i, hi, h⟩ := mem_sum_range.1 h
    obtain ⟨p, hp, q, hq, e⟩ := mem_catAll.1 h
    exact ⟨p, q, ⟨_, hp⟩, ⟨_, hq⟩, e⟩
  · rintro ⟨p, q, ⟨i, hi⟩, ⟨j, hj⟩, e⟩
    refine ⟨i + j + 1, mem_sum_range.2 ⟨i, by omega, mem_catAll.2 ⟨p, hi, q, ?_, e⟩⟩⟩
    rw [show i + j + 1 - 1 - i = j from by omega]
    exact hj

namespace Fst

/-- The ε-transition that replaces or follows a final weight. -/
def contTrs (fin : Option W) (j : StateId) : List (Tr W) :=
  match fin with
  | some w => [epsTr w j]
  | none => []

theorem pathsFrom_continue [Semigroup W] {f h : Fst W} (j : StateId) (keep : Bool) (S : Nat → Prop)
    (htr : ∀ s, S s → h.trsOf s = f.trsOf s ++ contTrs (f.finOf s) j)
    (hnext : ∀ s, S s → ∀ t ∈ f.trsOf s, S t.nextstate)
    (hfin : ∀ s, S s → h.finOf s = if keep then f.finOf s else none) (n s) (hs : S s) :
    h.pathsFrom n s = (if keep then f.pathsFrom n s else 0) +
      seqPaths (fun m => f.pathsFrom m s) (fun m => h.pathsFrom m j) n := by
  induction n generalizing s with
  | zero =>
    rw [pathsFrom_zero, hfin s hs]
    cases keep <;> simp [seqPaths, pathsFrom_zero]
  | succ n ih =>
    rw [pathsFrom_succ, htr s hs, ← Multiset.coe_add, Multiset.add_bind]
    have e1 : ((f.trsOf s : List (Tr W)) : Multiset (Tr W)).bind (fun t => (h.pathsFrom n t.nextstate).map fun p => t.asPath.cat p) =
        (if keep then f.pathsFrom (n + 1) s else 0) +
          ∑ i ∈ Finset.range n, catAll (f.pathsFrom (i + 1) s) (h.pathsFrom (n - 1 - i) j) := by
      rw [Multiset.bind_congr (fun t ht => by
        rw [ih t.nextstate (hnext s hs t (Multiset.mem_coe.1 ht)), Multiset.map_add])]
      rw [Multiset.bind_add]
      congr 1
      · cases keep
        · simp
        · simp [pathsFrom_succ]
      · unfold seqPaths
        rw [Multiset.bind_congr (fun t _ => map_sum_range _ _ _), bind_sum_range]
        apply Finset.sum_congr rfl
        intro i _
        rw [pathsFrom_succ, catAll_bind]
        refine Multiset.bind_congr fun t _ => ?_
        rw [← catAll_singleton, ← catAll_assoc, catAll_singleton]
    have e2 : ((contTrs (f.finOf s) j : List (Tr W)) : Multiset (Tr W)).bind
        (fun t => (h.pathsFrom n t.nextstate).map fun p => t.asPath.cat p) =
        catAll (f.pathsFrom 0 s) (h.pathsFrom n j) := by
      rw [pathsFrom_zero]
      cases f.finOf s with
      | none => simp [contTrs]
      | some w => simp [contTrs, catAll_singleton, epsTr, Tr.asPath]
    rw [e1, e2, add_assoc]
    congr 1
    unfold seqPaths
    rw [Finset.sum_range_succ']
    congr 1
    apply Finset.sum_congr rfl
    intro i _
    rw [show n + 1 - 1 - (i + 1) = n - 1 - i from by omega]

end Fst
end Verif
