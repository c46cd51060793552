import Verif.Model.Paths
import Verif.Spec.Path
import Verif.Spec.Distance
import Verif.Lemmas.Path
import Mathlib.Data.Finset.Card
import Mathlib.Combinatorics.Pigeonhole

/-!
# The path iterator goes through the paths level by level
-/

namespace Verif
universe u
variable {W : Type u}

/-- A path as a triple. -/
def FstPath.toT (p : FstPath W) : PathT W := (p.ilabels, p.olabels, p.weight)

theorem FstPath.toT_injective : Function.Injective (FstPath.toT : FstPath W → PathT W) := by
  rintro ⟨i, o, w⟩ ⟨i', o', w'⟩ h
  simp only [FstPath.toT, Prod.mk.injEq] at h
  obtain ⟨rfl, rfl, rfl⟩ := h
  rfl

theorem FstPath.pushLabel_eq (l : List Label) (a : Label) : FstPath.pushLabel l a = l ++ strip a := by
  unfold FstPath.pushLabel strip
  by_cases h : a = EPS <;> simp [h]

theorem FstPath.addToPath_toT [Mul W] (p : FstPath W) (t : Tr W) :
    (p.addToPath t.ilabel t.olabel t.weight).toT = p.toT.cat t.asPath := by
  simp [FstPath.addToPath, FstPath.toT, PathT.cat, Tr.asPath, FstPath.pushLabel_eq]

namespace Fst

section
variable [Mul W] (f : Fst W)

/-- What a queue entry yields. -/
def yieldOf (e : StateId × FstPath W) : Option (FstPath W) := (f.finOf e.1).map e.2.addWeight

/-- What a queue entry adds. -/
def extOf (e : StateId × FstPath W) : PathQueue W := f.pathExts e.1 e.2

/-- `n` queue entries are processed. -/
def emit : Nat → PathQueue W → List (FstPath W) × PathQueue W
  | 0, q => ([], q)
  | _ + 1, [] => ([], [])
  | n + 1, e :: q => ((f.yieldOf e).toList ++ (emit n (q ++ f.extOf e)).1, (emit n (q ++ f.extOf e)).2)

theorem emit_nil (n : Nat) : f.emit n [] = ([], []) := by cases n <;> rfl

theorem emit_level (a b : PathQueue W) (n : Nat) :
    f.emit (a.length + n) (a ++ b) = (a.filterMap f.yieldOf ++ (f.emit n (b ++ a.flatMap f.extOf)).1, (f.emit n (b ++ a.flatMap f.extOf)).2) := by
  induction a generalizing b with
  | nil => simp
  | cons e a ih =>
    have h : (e :: a).length + n = (a.length + n) + 1 := by simp; omega
    rw [h]
    simp only [List.cons_append, emit]
    rw [List.append_assoc, ih]
    rw [List.filterMap_cons, List.flatMap_cons, ← List.append_assoc]
    cases f.yieldOf e <;> simp

/-- The entries `k` levels further. -/
def level : Nat → PathQueue W → PathQueue W
  | 0, q => q
  | k + 1, q => level k (q.flatMap f.extOf)

/-- What the first `k` levels yield. -/
def levelYields : Nat → PathQueue W → List (FstPath W)
  | 0, _ => []
  | k + 1, q => q.filterMap f.yieldOf ++ levelYields k (q.flatMap f.extOf)

theorem emit_levels (k : Nat) (q : PathQueue W) : ∃ n, f.emit n q = (f.levelYields k q, f.level k q) := by
  induction k generalizing q with
  | zero => exact ⟨0, rfl⟩
  | succ k ih =>
    obtain ⟨n, hn⟩ := ih (q.flatMap f.extOf)
    refine ⟨q.length + n, ?_⟩
    have := f.emit_level q [] n
    simp only [List.append_nil, List.nil_append] at this
    rw [this, hn]
    rfl

theorem nextPath_nil (n : Nat) : f.nextPath n [] = some (none, []) := by cases n <;> rfl

theorem nextPath_of_emit (n : Nat) (q : PathQueue W) (y : FstPath W) (ys : List (FstPath W)) (q' : PathQueue W) (h : f.emit n q = (y :: ys, q')) :
    ∃ m q1, m ≤ n ∧ (∀ k, n ≤ k → f.nextPath k q = some (some y, q1)) ∧ f.emit m q1 = (ys, q') := by
  induction n generalizing q with
  | zero => simp [emit] at h
  | succ n ih =>
    match q, h with
    | (s, p) :: q, h =>
      simp only [emit, yieldOf, Prod.mk.injEq] at h
      cases hf : f.finOf s with
      | none =>
        rw [hf] at h
        simp only [Option.map_none, Option.toList_none, List.nil_append] at h
        obtain ⟨m, q1, hm, hk, he⟩ := ih (q ++ f.extOf (s, p)) (Prod.ext h.1 h.2)
        refine ⟨m, q1, by omega, fun k hk' => ?_, he⟩
        obtain ⟨k, rfl⟩ : ∃ j, k = j + 1 := ⟨k - 1, by omega⟩
        simp only [nextPath, hf]
        exact hk k (by omega)
      | some w =>
        rw [hf] at h
        simp only [Option.map_some, Option.toList_some, List.singleton_append, List.cons.injEq] at h
        refine ⟨n, q ++ f.extOf (s, p), by omega, fun k hk' => ?_, Prod.ext h.1.2 h.2⟩
        obtain ⟨k, rfl⟩ : ∃ j, k = j + 1 := ⟨k - 1, by omega⟩
        simp only [nextPath, hf, ← h.1.1]
        rfl

theorem nextPath_of_empty (n : Nat) (q : PathQueue W) (h : f.emit n q = ([], [])) (k : Nat) (hk : n ≤ k) : f.nextPath k q = some (none, []) := by
  induction n generalizing q k with
  | zero =>
    simp only [emit, Prod.mk.injEq, true_and] at h
    subst h
    exact f.nextPath_nil k
  | succ n ih =>
    match q, h with
    | [], _ => exact f.nextPath_nil k
    | (s, p) :: q, h =>
      simp only [emit, yieldOf, Prod.mk.injEq] at h
      cases hf : f.finOf s with
      | none =>
        rw [hf] at h
        simp only [Option.map_none, Option.toList_none, List.nil_append] at h
        obtain ⟨k, rfl⟩ : ∃ j, k = j + 1 := ⟨k - 1, by omega⟩
        simp only [nextPath, hf]
        exact ih _ (Prod.ext h.1 h.2) k (by omega)
      | some w =>
        rw [hf] at h
        simp at h

theorem nextPaths_of_emit (ys : List (FstPath W)) (n : Nat) (q q' : PathQueue W) (h : f.emit n q = (ys, q')) :
    ∃ m q1, m ≤ n ∧ (∀ k, n ≤ k → f.nextPaths k ys.length q = some (ys.map some, q1)) ∧ f.emit m q1 = ([], q') := by
  induction ys generalizing n q with
  | nil => exact ⟨n, q, le_refl n, fun k _ => rfl, h⟩
  | cons y ys ih =>
    obtain ⟨m, q1, hm, h1, h2⟩ := f.nextPath_of_emit n q y ys q' h
    obtain ⟨m', q2, hm', h3, h4⟩ := ih m q1 h2
    refine ⟨m', q2, by omega, fun k hk => ?_, h4⟩
    simp only [List.length_cons, nextPaths, h1 k hk, h3 k (by omega), List.map_cons]

theorem nextPaths_nil (n k : Nat) : f.nextPaths n k [] = some (List.replicate k none, []) := by
  induction k with
  | zero => rfl
  | succ k ih => simp only [nextPaths, nextPath_nil, ih, List.replicate_succ]

theorem nextPaths_add (n k j : Nat) (q : PathQueue W) {l q1 l' q2} (h : f.nextPaths n k q = some (l, q1)) (h' : f.nextPaths n j q1 = some (l', q2)) :
    f.nextPaths n (k + j) q = some (l ++ l', q2) := by
  induction k generalizing q l with
  | zero =>
    simp only [nextPaths, Option.some.injEq, Prod.mk.injEq] at h
    obtain ⟨rfl, rfl⟩ := h
    simpa using h'
  | succ k ih =>
    rw [show k + 1 + j = (k + j) + 1 by omega]
    simp only [nextPaths] at h ⊢
    cases hx : f.nextPath n q with
    | none => simp [hx] at h
    | some r =>
      obtain ⟨r, q3⟩ := r
      simp only [hx] at h ⊢
      cases hy : f.nextPaths n k q3 with
      | none => simp [hy] at h
      | some s =>
        obtain ⟨s, q4⟩ := s
        simp only [hy, Option.some.injEq, Prod.mk.injEq] at h
        obtain ⟨rfl, rfl⟩ := h
        rw [ih q3 hy]
        rfl
end

section
variable [Monoid W] (f : Fst W)

theorem cat_assoc (p q r : PathT W) : (p.cat q).cat r = p.cat (q.cat r) := by
  simp [PathT.cat, mul_assoc]

theorem level_yield (k : Nat) (q : PathQueue W) :
    ((f.level k q).filterMap f.yieldOf : Multiset (FstPath W)).map FstPath.toT =
      (q : Multiset (StateId × FstPath W)).bind fun e => (f.pathsFrom k e.1).map fun r => e.2.toT.cat r := by
  induction k generalizing q with
  | zero =>
    simp only [level, pathsFrom_zero]
    induction q with
    | nil => rfl
    | cons e q ih =>
      rw [List.filterMap_cons, ← Multiset.cons_coe, Multiset.cons_bind, ← ih]
      unfold yieldOf
      cases hf : f.finOf e.1 with
      | none => simp
      | some w => simp [FstPath.toT, FstPath.addWeight, PathT.cat]
  | succ k ih =>
    rw [level, ih]
    induction q with
    | nil => rfl
    | cons e q ih' =>
      rw [List.flatMap_cons, ← Multiset.cons_coe, Multiset.cons_bind, ← ih', ← Multiset.coe_add, Multiset.add_bind, pathsFrom_succ,
        Multiset.map_bind]
      congr 1
      unfold extOf pathExts
      rw [← Multiset.map_coe, Multiset.bind_map]
      refine Multiset.bind_congr fun t _ => ?_
      rw [Multiset.map_map]
      refine Multiset.map_congr rfl fun r _ => ?_
      simp only [Function.comp, FstPath.addToPath_toT, cat_assoc]

theorem levelYields_eq (k : Nat) (q : PathQueue W) :
    (f.levelYields k q : Multiset (FstPath W)) = ∑ i ∈ Finset.range k, ((f.level i q).filterMap f.yieldOf : Multiset (FstPath W)) := by
  induction k generalizing q with
  | zero => rfl
  | succ k ih =>
    rw [levelYields, ← Multiset.coe_add, ih, Finset.sum_range_succ', add_comm]
    rfl

theorem levelYields_acc (k : Nat) :
    (f.levelYields k f.pathsIter : Multiset (FstPath W)).map FstPath.toT = ∑ i ∈ Finset.range k, f.accPaths i := by
  rw [levelYields_eq, ← Multiset.coe_mapAddMonoidHom, map_sum]
  refine Finset.sum_congr rfl fun i _ => ?_
  rw [Multiset.coe_mapAddMonoidHom, level_yield]
  unfold pathsIter accPaths
  cases f.start with
  | none => rfl
  | some s =>
    simp [FstPath.default, FstPath.toT, PathT.cat]

/-- An entry of a level has been reached by that many transitions. -/
theorem mem_level (k : Nat) (q : PathQueue W) (e : StateId × FstPath W) (h : e ∈ f.level k q) :
    ∃ e0 ∈ q, ∃ c : Nat → StateId, c 0 = e0.1 ∧ c k = e.1 ∧ ∀ i < k, f.Edge (c i) (c (i + 1)) := by
  induction k generalizing q with
  | zero => exact ⟨e, h, fun _ => e.1, rfl, rfl, fun i hi => absurd hi (Nat.not_lt_zero i)⟩
  | succ k ih =>
    obtain ⟨e1, h1, c, h2, h3, h4⟩ := ih _ h
    obtain ⟨e0, h5, h6⟩ := List.mem_flatMap.1 h1
    obtain ⟨t, ht, rfl⟩ := List.mem_map.1 h6
    refine ⟨e0, h5, fun i => if i = 0 then e0.1 else c (i - 1), rfl, by simp [h3], fun i hi => ?_⟩
    cases i with
    | zero => simp only [if_true, Nat.zero_add, Nat.one_ne_zero, if_false, Nat.sub_self, h2]; exact ⟨t, ht, rfl⟩
    | succ i => simpa using h4 i (by omega)
end

/-- A sequence of more transitions than there are states runs through a cycle. -/
theorem cycle_of_long {f : Fst W} (hw : f.WF) {n : Nat} (hn : f.numStates ≤ n) {c : Nat → StateId} (h0 : c 0 < f.numStates)
    (hc : ∀ i < n, f.Edge (c i) (c (i + 1))) : ∃ i ≤ n, f.OnCycle (c i) ∧ f.Reach (c 0) (c i) := by
  have hlt : ∀ i ≤ n, c i < f.numStates := by
    intro i hi
    cases i with
    | zero => exact h0
    | succ i =>
      obtain ⟨t, ht, h⟩ := hc i (by omega)
      rw [← h]
      exact hw.next_lt _ t ht
  have htr : ∀ j ≤ n, ∀ i < j, Relation.TransGen f.Edge (c i) (c j) := by
    intro j
    induction j with
    | zero => intro _ i hi; omega
    | succ j ih =>
      intro hj i hi
      rcases Nat.lt_or_ge i j with h | h
      · exact .tail (ih (by omega) i h) (hc j (by omega))
      · have : i = j := by omega
        subst this
        exact .single (hc i (by omega))
  obtain ⟨i, hi, j, hj, hne, he⟩ := Finset.exists_ne_map_eq_of_card_lt_of_maps_to (s := Finset.range (n + 1)) (t := Finset.range f.numStates)
    (by simp; omega) (f := c) (fun i hi => by simpa using hlt i (by simpa [Nat.lt_succ_iff] using hi))
  have hi' : i ≤ n := by simpa [Nat.lt_succ_iff] using hi
  have hj' : j ≤ n := by simpa [Nat.lt_succ_iff] using hj
  have hreach : ∀ i ≤ n, f.Reach (c 0) (c i) := by
    intro i hi
    cases i with
    | zero => exact .refl
    | succ i => exact (htr (i + 1) hi 0 (by omega)).to_reflTransGen
  rcases Nat.lt_or_gt_of_ne hne with h | h
  · exact ⟨i, hi', by unfold OnCycle; conv_rhs => rw [he]
                      exact htr j hj' i h, hreach i hi'⟩
  · exact ⟨j, hj', by unfold OnCycle; conv_rhs => rw [← he]
                      exact htr i hi' j h, hreach j hj'⟩

end Fst
end Verif
