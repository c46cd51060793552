import Verif.Model.AllPairs
import Verif.Lemmas.Walks
import Verif.Lemmas.ListAux
import Mathlib.Data.List.Nodup
import Mathlib.Algebra.BigOperators.Ring.Finset
import Mathlib.Tactic.Abel

/-! # Gauss–Jordan–Floyd elimination -/

namespace Verif
universe u
set_option linter.unusedSectionVars false
namespace Fst
open Finset

theorem upd2_apply {W : Type u} (d : Nat → Nat → W) (i j : Nat) (x : W) (a b : Nat) :
    upd2 d i j x a b = if a = i ∧ b = j then x else d a b := by
  unfold upd2 upd
  by_cases h1 : a = i
  · subst h1; by_cases h2 : b = j <;> simp [h2]
  · simp [h1]

theorem mem_others {n k i : Nat} : i ∈ others n k ↔ i < n ∧ i ≠ k := by simp [others]
theorem others_nodup (n k : Nat) : (others n k).Nodup := List.Nodup.filter _ List.nodup_range

section
variable {W : Type u} [Semiring W]

/-- The weight of the transitions from `i` to `j`. -/
def edge (f : Fst W) (i j : Nat) : W := (((f.trsOf i).filter (fun t => t.nextstate = j)).map (fun t => t.weight)).sum

theorem apInit_trs (l : List (Tr W)) (s : Nat) (d : Nat → Nat → W) (i j : Nat) :
    l.foldl (fun d t => upd2 d s t.nextstate (d s t.nextstate + t.weight)) d i j =
      d i j + if i = s then ((l.filter (fun t => t.nextstate = j)).map (fun t => t.weight)).sum else 0 := by
  induction l generalizing d with
  | nil => simp
  | cons t l ih =>
    rw [List.foldl_cons, ih, upd2_apply]
    by_cases h1 : i = s
    · subst h1
      by_cases h2 : t.nextstate = j
      · subst h2; simp [add_assoc]
      · have : ¬ j = t.nextstate := fun h => h2 h.symm
        simp [h2, this]
    · simp [h1]

theorem apInit_get (f : Fst W) (i j : Nat) (hi : i < f.numStates) : f.apInit i j = f.edge i j := by
  have key : ∀ n, (List.range n).foldl (fun d s => (f.trsOf s).foldl (fun d t => upd2 d s t.nextstate (d s t.nextstate + t.weight)) d)
      (fun _ _ => (0 : W)) i j = if i < n then f.edge i j else 0 := by
    intro n
    induction n with
    | zero => simp
    | succ n ih =>
      rw [List.range_succ, List.foldl_append, List.foldl_cons, List.foldl_nil, apInit_trs, ih]
      by_cases h : i = n
      · subst h; simp [edge]
      · by_cases h2 : i < n
        · rw [if_pos h2, if_neg h, if_pos (by omega), add_zero]
        · rw [if_neg h2, if_neg h, if_neg (by omega), add_zero]
  unfold apInit
  rw [key, if_pos hi]

theorem apRow_get {n k i : Nat} (hi : i ≠ k) (c : W) (d : Nat → Nat → W) (a b : Nat) :
    apRow n k c d i a b = if a = i ∧ b < n ∧ b ≠ k then d i b + d i k * c * d k b else d a b := by
  have key : ∀ (l : List Nat) (d : Nat → Nat → W), l.Nodup → k ∉ l →
      l.foldl (fun d j => upd2 d i j (d i j + d i k * c * d k j)) d a b = if a = i ∧ b ∈ l then d i b + d i k * c * d k b else d a b := by
    intro l
    induction l with
    | nil => intro d _ _; simp
    | cons j l ih =>
      intro d hn hk
      obtain ⟨hj, hn⟩ := List.nodup_cons.1 hn
      have hjk : j ≠ k := fun h => hk (by simp [h])
      have hkl : k ∉ l := fun h => hk (by simp [h])
      have hik : ¬ (k = i) := fun h => hi h.symm
      have hkj : ¬ (k = j) := fun h => hjk h.symm
      rw [List.foldl_cons, ih _ hn hkl]
      simp only [upd2_apply, hik, hkj, and_false, false_and, if_false]
      by_cases ha : a = i
      · subst ha
        by_cases hb : b = j
        · subst hb; simp [hj]
        · simp [hb]
      · simp [ha]
  unfold apRow
  rw [key _ _ (others_nodup n k) (fun h => (mem_others.1 h).2 rfl)]
  simp only [mem_others]

theorem apRows_get {n k : Nat} (c : W) (d : Nat → Nat → W) (a b : Nat) :
    (others n k).foldl (apRow n k c) d a b =
      if (a < n ∧ a ≠ k) ∧ b < n ∧ b ≠ k then d a b + d a k * c * d k b else d a b := by
  have key : ∀ (l : List Nat) (d : Nat → Nat → W), l.Nodup → k ∉ l →
      l.foldl (apRow n k c) d a b = if a ∈ l ∧ b < n ∧ b ≠ k then d a b + d a k * c * d k b else d a b := by
    intro l
    induction l with
    | nil => intro d _ _; simp
    | cons i l ih =>
      intro d hn hk
      obtain ⟨hj, hn⟩ := List.nodup_cons.1 hn
      have hik : i ≠ k := fun h => hk (by simp [h])
      have hkl : k ∉ l := fun h => hk (by simp [h])
      have hki : ¬ (k = i) := fun h => hik h.symm
      rw [List.foldl_cons, ih _ hn hkl]
      simp only [apRow_get hik, hki, ne_eq, not_true, and_false, false_and, if_false]
      by_cases ha : a = i
      · subst ha
        simp [hj]
      · simp [ha]
  rw [key _ _ (others_nodup n k) (fun h => (mem_others.1 h).2 rfl)]
  simp only [mem_others]

theorem apScales_get {n k : Nat} (c : W) (d : Nat → Nat → W) (a b : Nat) :
    (others n k).foldl (apScale k c) d a b =
      if a = k ∧ b < n ∧ b ≠ k then c * d k b else if b = k ∧ a < n ∧ a ≠ k then d a k * c else d a b := by
  have key : ∀ (l : List Nat) (d : Nat → Nat → W), l.Nodup → k ∉ l →
      l.foldl (apScale k c) d a b = if a = k ∧ b ∈ l then c * d k b else if b = k ∧ a ∈ l then d a k * c else d a b := by
    intro l
    induction l with
    | nil => intro d _ _; simp
    | cons i l ih =>
      intro d hn hk
      obtain ⟨hj, hn⟩ := List.nodup_cons.1 hn
      have hik : i ≠ k := fun h => hk (by simp [h])
      have hkl : k ∉ l := fun h => hk (by simp [h])
      have hki : ¬ (k = i) := fun h => hik h.symm
      rw [List.foldl_cons, ih _ hn hkl]
      simp only [apScale, upd2_apply]
      by_cases ha : a = k
      · subst ha
        by_cases hb : b = i
        · subst hb; simp [hj, hki, hik]
        · by_cases hbl : b ∈ l
          · simp [hbl, hb, hki]
          · have : ¬ (b = a ∧ a ∈ l) := fun h => hkl h.2
            simp [hbl, hb, hki]
      · by_cases hb : b = k
        · subst hb
          by_cases hai : a = i
          · subst hai; simp [hj, hki, hik]
          · simp [ha, hai]
        · simp [ha, hb]
  rw [key _ _ (others_nodup n k) (fun h => (mem_others.1 h).2 rfl)]
  simp only [mem_others]

theorem apStep_get (star : W → W) {n k : Nat} (d : Nat → Nat → W) (hk : k < n) {a b : Nat} (ha : a < n) (hb : b < n) :
    apStep star n d k a b =
      if a = k then (if b = k then star (d k k) else star (d k k) * d k b)
      else if b = k then d a k * star (d k k) else d a b + d a k * star (d k k) * d k b := by
  unfold apStep
  simp only [upd2_apply, apScales_get, apRows_get]
  by_cases h1 : a = k <;> by_cases h2 : b = k <;> simp [h1, h2, ha, hb]

/-- The elimination invariant: with the first `k` states eliminated. -/
structure ApInv (f : Fst W) (k : Nat) (d : Nat → Nat → W) : Prop where
  eq : ∀ i j, i < f.numStates → j < f.numStates →
    d i j = (if i = j ∧ i < k then 1 else 0) + (if j < k then 0 else f.edge i j) + ∑ m ∈ range k, f.edge i m * d m j

theorem apInv_step {f : Fst W} {k : Nat} {d : Nat → Nat → W} (h : ApInv f k d) (star : W → W) (hk : k < f.numStates)
    (hs : star (d k k) = 1 + d k k * star (d k k)) : ApInv f (k + 1) (apStep star f.numStates d k) := by
  obtain ⟨c, hc⟩ : ∃ c, c = star (d k k) := ⟨_, rfl⟩
  -- the new entries, uniformly
  obtain ⟨E, hE⟩ : ∃ E : Nat → W, E = fun j => if j = k then 1 else d k j := ⟨_, rfl⟩
  have hget : ∀ i j, i < f.numStates → j < f.numStates →
      apStep star f.numStates d k i j = (if i = k ∧ j = k then 1 else 0) + (if j = k then 0 else d i j) + d i k * c * E j := by
    intro i j hi hj
    rw [apStep_get star d hk hi hj, ← hc, hE]
    rw [← hc] at hs
    by_cases h1 : i = k
    · subst h1
      by_cases h2 : j = i
      · subst h2; simp [← hs]
      · simp only [h2, if_true, if_false, and_false, zero_add]
        conv_lhs => rw [hs]
        rw [add_mul, one_mul]
    · by_cases h2 : j = k <;> simp [h1, h2]
  have hrow : ∀ j, j < f.numStates → apStep star f.numStates d k k j = c * E j := by
    intro j hj
    rw [apStep_get star d hk hk hj, hE, ← hc]
    by_cases h2 : j = k <;> simp [h2]
  refine ⟨fun i j hi hj => ?_⟩
  rw [Finset.sum_range_succ, hrow j hj, hget i j hi hj]
  have hsum : ∑ m ∈ range k, f.edge i m * apStep star f.numStates d k m j =
      (if j = k then 0 else ∑ m ∈ range k, f.edge i m * d m j) + (∑ m ∈ range k, f.edge i m * d m k) * c * E j := by
    have : ∀ m ∈ range k, f.edge i m * apStep star f.numStates d k m j =
        (if j = k then 0 else f.edge i m * d m j) + f.edge i m * d m k * c * E j := by
      intro m hm
      have hm := Finset.mem_range.1 hm
      rw [hget m j (by omega) hj, if_neg (by omega), zero_add, mul_add]
      by_cases h2 : j = k <;> simp [h2, mul_assoc]
    rw [Finset.sum_congr rfl this, Finset.sum_add_distrib, Finset.sum_mul, Finset.sum_mul]
    by_cases h2 : j = k <;> simp [h2]
  rw [hsum]
  have e1 := h.eq i k hi hk
  rw [if_neg (by omega), if_neg (by omega), zero_add] at e1
  have e2 := h.eq i j hi hj
  rw [e1, add_mul, add_mul]
  by_cases h2 : j = k
  · subst h2
    have h3 : (if i = j ∧ j = j then (1 : W) else 0) = if i = j ∧ i < j + 1 then 1 else 0 := by
      by_cases h : i = j <;> simp [h]
    rw [h3, if_pos rfl, if_pos rfl, if_pos (Nat.lt_succ_self j)]
    rw [mul_assoc (f.edge i j)]
    abel
  · rw [e2]
    have h3 : ¬ (i = k ∧ j = k) := fun h => h2 h.2
    have h4 : (i = j ∧ i < k) ↔ (i = j ∧ i < k + 1) := by
      constructor
      · rintro ⟨rfl, h⟩; exact ⟨rfl, by omega⟩
      · rintro ⟨rfl, h⟩; exact ⟨rfl, by omega⟩
    have h5 : (j < k) ↔ (j < k + 1) := by omega
    simp only [h2, if_false, ← h4, ← h5, false_and, and_false, zero_add]
    rw [mul_assoc (f.edge i k)]
    abel

theorem apBefore_zero (f : Fst W) (star : W → W) : ApInv f 0 (f.apBefore star 0) :=
  ⟨fun i j hi _ => by simp [apBefore, apInit_get f i j hi]⟩

theorem apBefore_succ (f : Fst W) (star : W → W) (k : Nat) :
    f.apBefore star (k + 1) = apStep star f.numStates (f.apBefore star k) k := by
  simp [apBefore, List.range_succ]

theorem apBefore_inv (f : Fst W) (star : W → W)
    (hs : ∀ k, k < f.numStates → star (f.apBefore star k k k) = 1 + f.apBefore star k k k * star (f.apBefore star k k k)) :
    ∀ k, k ≤ f.numStates → ApInv f k (f.apBefore star k)
  | 0, _ => apBefore_zero f star
  | k + 1, hk => by
    rw [apBefore_succ]
    exact apInv_step (apBefore_inv f star hs k (by omega)) star (by omega) (hs k (by omega))

/-- Without cycles: an entry that is not zero belongs to a path. -/
theorem apBefore_ord (f : Fst W) (star : W → W) (h0 : star 0 = 1) (ord : Nat → Nat)
    (hord : ∀ s, ∀ t ∈ f.trsOf s, ord s < ord t.nextstate) :
    ∀ k, k ≤ f.numStates → ∀ i j, i < f.numStates → j < f.numStates → f.apBefore star k i j ≠ 0 → ord i < ord j ∨ (i = j ∧ i < k)
  | 0, _, i, j, hi, _, h => by
    left
    simp only [apBefore, List.range_zero, List.foldl_nil, apInit_get f i j hi, edge] at h
    by_contra hlt
    refine h ?_
    rw [List.filter_eq_nil_iff.2]
    · rfl
    · intro t ht hj
      have := hord i t ht
      have hj : t.nextstate = j := by simpa using hj
      rw [hj] at this
      exact hlt this
  | k + 1, hk, i, j, hi, hj, h => by
    have ih := apBefore_ord f star h0 ord hord k (by omega)
    have hkk : f.apBefore star k k k = 0 := by
      by_contra hne
      rcases ih k k (by omega) (by omega) hne with h | h <;> omega
    rw [apBefore_succ, apStep_get star _ (by omega) hi hj, hkk, h0] at h
    by_cases h1 : i = k
    · subst h1
      rw [if_pos rfl] at h
      by_cases h2 : j = i
      · exact .inr ⟨h2.symm, by omega⟩
      · rw [if_neg h2, one_mul] at h
        rcases ih i j hi hj h with h | h
        · exact .inl h
        · omega
    · rw [if_neg h1] at h
      by_cases h2 : j = k
      · subst h2
        rw [if_pos rfl, mul_one] at h
        rcases ih i j hi hj h with h | h
        · exact .inl h
        · omega
      · rw [if_neg h2, mul_one] at h
        by_cases h3 : f.apBefore star k i j = 0
        · rw [h3, zero_add] at h
          have h4 : f.apBefore star k i k ≠ 0 := fun h' => h (by rw [h', zero_mul])
          have h5 : f.apBefore star k k j ≠ 0 := fun h' => h (by rw [h', mul_zero])
          rcases ih i k hi (by omega) h4 with h4 | h4
          · rcases ih k j (by omega) hj h5 with h5 | h5
            · exact .inl (by omega)
            · omega
          · omega
        · rcases ih i j hi hj h3 with h | h
          · exact .inl h
          · exact .inr ⟨h.1, by omega⟩

end
end Fst
end Verif
