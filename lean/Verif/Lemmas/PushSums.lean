import Verif.Lemmas.SdReverse
import Verif.Lemmas.Path
import Verif.Spec.Reweight

/-! # The equations the distances satisfy -/

namespace Verif
set_option linter.unusedSectionVars false
universe u
variable {W : Type u}

theorem list_sum_split [AddCommMonoid W] {l : List W} {x : W} (h : x ∈ l) : ∃ r, l.sum = x + r := by
  induction l with
  | nil => cases h
  | cons y l ih =>
    rcases List.mem_cons.1 h with rfl | h
    · exact ⟨l.sum, by simp⟩
    · obtain ⟨r, hr⟩ := ih h
      exact ⟨y + r, by rw [List.sum_cons, hr, add_left_comm]⟩

section
variable [AddCommMonoid W] [Monoid W] {P : W → Prop}

theorem Closed.listSum (h : Closed P) {l : List W} (hl : ∀ x ∈ l, P x) : P l.sum := by
  induction l with
  | nil => exact h.zero
  | cons x l ih => rw [List.sum_cons]; exact h.add _ _ (hl x (by simp)) (ih fun y hy => hl y (by simp [hy]))

theorem Closed.split (h : Closed P) {l : List W} (hl : ∀ x ∈ l, P x) {x : W} (hx : x ∈ l) : ∃ r, P r ∧ l.sum = x + r := by
  induction l with
  | nil => cases hx
  | cons y l ih =>
    rcases List.mem_cons.1 hx with rfl | hx
    · exact ⟨l.sum, h.listSum fun z hz => hl z (by simp [hz]), by simp⟩
    · obtain ⟨r, h1, hr⟩ := ih (fun z hz => hl z (by simp [hz])) hx
      exact ⟨y + r, h.add _ _ (hl y (by simp)) h1, by rw [List.sum_cons, hr, add_left_comm]⟩

theorem Closed.rangeSum (h : Closed P) (n : Nat) {g : Nat → W} (hl : ∀ k, P (g k)) : P (∑ k ∈ Finset.range n, g k) := by
  induction n with
  | zero => exact h.zero
  | succ n ih => rw [Finset.sum_range_succ]; exact h.add _ _ ih (hl n)

theorem Closed.rangeSplit (h : Closed P) {n : Nat} {g : Nat → W} (hl : ∀ k, P (g k)) {m : Nat} (hm : m < n) :
    ∃ r, P r ∧ ∑ k ∈ Finset.range n, g k = g m + r := by
  induction n with
  | zero => omega
  | succ n ih =>
    rw [Finset.sum_range_succ]
    by_cases he : m = n
    · subst he; exact ⟨_, h.rangeSum m hl, add_comm _ _⟩
    · obtain ⟨r, h1, h2⟩ := ih (by omega)
      exact ⟨r + g n, h.add _ _ h1 (hl n), by rw [h2, add_assoc]⟩

namespace Fst
variable {f : Fst W}

theorem finalSum_in [LeftDistribClass W] (hz : ∀ a : W, a * 0 = 0) (h : Closed P) (hf : f.WeightsIn P) (keep : Tr W → Bool) :
    ∀ n s, P (f.finalSum keep n s) := by
  intro n
  induction n with
  | zero =>
    intro s
    rw [finalSum_zero]
    cases hs : f.finOf s with
    | none => exact h.zero
    | some w => exact hf.2 s w hs
  | succ n ih =>
    intro s
    rw [finalSum_succ _ hz]
    refine h.listSum fun x hx => ?_
    obtain ⟨t, ht, rfl⟩ := List.mem_map.1 hx
    exact h.mul _ _ (hf.1 s t (List.mem_of_mem_filter ht)) (ih _)

theorem cont_in (h : Closed P) {l : List (Tr W)} (hl : ∀ t ∈ l, P t.weight) (keep : Tr W → Bool) (q : StateId) {a : W} (ha : P a) :
    P (cont keep l q a) := by
  refine h.listSum fun x hx => ?_
  obtain ⟨t, ht, rfl⟩ := List.mem_map.1 hx
  exact h.mul _ _ ha (hl t (List.mem_of_mem_filter ht))

theorem walkSum_in [RightDistribClass W] (hz : ∀ a : W, 0 * a = 0) (h : Closed P) (hf : f.WeightsIn P) (hw : f.WF) (keep : Tr W → Bool)
    {p : StateId} (hp : p < f.numStates) : ∀ n q, P (f.walkSum keep n p q) := by
  intro n
  induction n with
  | zero =>
    intro q
    rw [walkSum_zero]
    split
    · exact h.one
    · exact h.zero
  | succ n ih =>
    intro q
    rw [f.walkSum_succ keep hz hw hp]
    exact h.rangeSum _ fun s => cont_in h (hf.1 s) keep q (ih s)

/-- A common bound for finitely many limits. -/
theorem common_bound {m : Nat} {Q : Nat → Nat → Prop} (h : ∀ s, s < m → ∃ N, ∀ n, N ≤ n → Q s n) : ∃ N, ∀ s, s < m → ∀ n, N ≤ n → Q s n := by
  induction m with
  | zero => exact ⟨0, fun s hs => by omega⟩
  | succ m ih =>
    obtain ⟨N, hN⟩ := ih fun s hs => h s (by omega)
    obtain ⟨M, hM⟩ := h m (by omega)
    refine ⟨max N M, fun s hs n hn => ?_⟩
    by_cases hsm : s = m
    · subst hsm; exact hM n (by omega)
    · exact hN s (by omega) n (by omega)

theorem sum_mul_range [LeftDistribClass W] (hz : ∀ a : W, a * 0 = 0) (a : W) (n : Nat) (g : Nat → W) :
    ∑ k ∈ Finset.range n, a * g k = a * ∑ k ∈ Finset.range n, g k := by
  induction n with
  | zero => simp [hz]
  | succ n ih => rw [Finset.sum_range_succ, Finset.sum_range_succ, ih, left_distrib]

theorem sum_list_range (n : Nat) (l : List (Tr W)) (g : Tr W → Nat → W) :
    ∑ k ∈ Finset.range n, (l.map fun t => g t k).sum = (l.map fun t => ∑ k ∈ Finset.range n, g t k).sum := by
  induction l with
  | nil => simp
  | cons t l ih => simp only [List.map_cons, List.sum_cons]; rw [Finset.sum_add_distrib, ih]

/-- The distances to the final states: final weight plus the weighted distances of the next states. -/
theorem finalDistance_eq [LeftDistribClass W] (hz : ∀ a : W, a * 0 = 0) (hw : f.WF) {d : StateId → W}
    (hd : ∀ q, q < f.numStates → f.IsFinalDistance (fun _ => true) q (d q)) {s : StateId} (hs : s < f.numStates) :
    d s = (f.finOf s).getD 0 + ((f.trsOf s).map fun t => t.weight * d t.nextstate).sum := by
  obtain ⟨N, hN⟩ := common_bound hd
  rw [← hN s hs (N + 1) (by omega), Finset.sum_range_succ' (fun k => f.finalSum (fun _ => true) k s), finalSum_zero, add_comm]
  congr 1
  have h1 : ∀ k, f.finalSum (fun _ => true) (k + 1) s = ((f.trsOf s).map fun t => t.weight * f.finalSum (fun _ => true) k t.nextstate).sum := by
    intro k
    rw [finalSum_succ _ hz, List.filter_eq_self.2 (fun _ _ => rfl)]
  simp only [h1]
  rw [sum_list_range]
  congr 1
  refine List.map_congr_left fun t ht => ?_
  rw [sum_mul_range hz, hN _ (hw.next_lt s t ht) N (Nat.le_refl _)]

/-- The distances from `i`: one at `i`, plus what arrives over the transitions. -/
theorem distance_eq [RightDistribClass W] (hz : ∀ a : W, 0 * a = 0) (hw : f.WF) {d : StateId → W} {i : StateId} (hi : i < f.numStates)
    (hd : ∀ q, f.IsDistance (fun _ => true) i q (d q)) (q : StateId) :
    d q = (if i = q then 1 else 0) + ∑ s ∈ Finset.range f.numStates, cont (fun _ => true) (f.trsOf s) q (d s) := by
  obtain ⟨N, hN⟩ := common_bound (m := f.numStates) (fun s _ => hd s)
  obtain ⟨M, hM⟩ := hd q
  have h1 := f.walkSums_succ (fun _ => true) hz hw hi (max N M) q
  rw [walkSums, hM _ (by omega)] at h1
  rw [h1]
  congr 1
  refine Finset.sum_congr rfl fun s hs => ?_
  rw [walkSums, hN s (Finset.mem_range.1 hs) _ (by omega)]

/-- The weights of the paths sum up to `finalSum`. -/
theorem sum_pathsFrom [LeftDistribClass W] (hz : ∀ a : W, a * 0 = 0) : ∀ n s,
    ((f.pathsFrom n s).map fun p => p.2.2).sum = f.finalSum (fun _ => true) n s := by
  have hmul : ∀ (M : Multiset (PathT W)) (a : W), (M.map fun p => a * p.2.2).sum = a * (M.map fun p => p.2.2).sum := by
    intro M a
    induction M using Multiset.induction_on with
    | empty => simp [hz]
    | cons e M ih => rw [Multiset.map_cons, Multiset.sum_cons, ih, Multiset.map_cons, Multiset.sum_cons, left_distrib]
  intro n
  induction n with
  | zero =>
    intro s
    rw [pathsFrom_zero, finalSum_zero]
    cases f.finOf s <;> simp
  | succ n ih =>
    intro s
    rw [pathsFrom_succ, finalSum_succ _ hz, List.filter_eq_self.2 (fun _ _ => rfl), Multiset.map_bind]
    generalize f.trsOf s = l
    induction l with
    | nil => simp
    | cons t l ihl =>
      rw [← Multiset.cons_coe, Multiset.cons_bind, Multiset.sum_add, ihl, List.map_cons, List.sum_cons, ← ih, Multiset.map_map, ← hmul]
      rfl

/-- The distance to the final states is the sum over the states of the distance to the state and its final weight. -/
theorem finalSum_eq_walkSum [RightDistribClass W] (hz' : ∀ a : W, 0 * a = 0) (hw : f.WF) {i : StateId}
    (hi : i < f.numStates) (n : Nat) : f.finalSum (fun _ => true) n i =
      ∑ s ∈ Finset.range f.numStates, f.walkSum (fun _ => true) n i s * (f.finOf s).getD 0 := by
  have key : ∀ M : Multiset (StateId × W), (∀ e ∈ M, e.1 < f.numStates) → (M.map fun e => e.2 * (f.finOf e.1).getD 0).sum =
      ∑ s ∈ Finset.range f.numStates, ((M.filter (fun e => e.1 = s)).map (fun e => e.2)).sum * (f.finOf s).getD 0 := by
    intro M
    induction M using Multiset.induction_on with
    | empty => intro _; simp [hz']
    | cons e M ih =>
      intro hM
      rw [Multiset.map_cons, Multiset.sum_cons, ih (fun e' h => hM e' (Multiset.mem_cons_of_mem h))]
      have h2 : ∀ s, (((e ::ₘ M).filter (fun e => e.1 = s)).map (fun e => e.2)).sum * (f.finOf s).getD 0 =
          (if s = e.1 then e.2 * (f.finOf s).getD 0 else 0) + ((M.filter (fun e => e.1 = s)).map (fun e => e.2)).sum * (f.finOf s).getD 0 := by
        intro s
        by_cases hs : e.1 = s
        · subst hs; simp [right_distrib]
        · have : ¬ s = e.1 := fun h => hs h.symm
          simp [hs, this]
      simp only [h2]
      rw [Finset.sum_add_distrib, Finset.sum_ite_eq', if_pos (Finset.mem_range.2 (hM e (by simp)))]
  exact key _ (fun e he => f.walks_lt (fun _ => true) hw hi (w := e.2) he)

theorem finalDistance_of_distance [RightDistribClass W] (hz' : ∀ a : W, 0 * a = 0) (hw : f.WF) {d : StateId → W} {i : StateId}
    (hi : i < f.numStates) (hd : ∀ q, f.IsDistance (fun _ => true) i q (d q)) :
    f.IsFinalDistance (fun _ => true) i (∑ s ∈ Finset.range f.numStates, d s * (f.finOf s).getD 0) := by
  obtain ⟨N, hN⟩ := common_bound (m := f.numStates) (fun s _ => hd s)
  refine ⟨N, fun n hn => ?_⟩
  simp only [finalSum_eq_walkSum hz' hw hi]
  rw [Finset.sum_comm]
  refine Finset.sum_congr rfl fun s hs => ?_
  rw [← hN s (Finset.mem_range.1 hs) n hn]
  generalize (f.finOf s).getD 0 = a
  induction n with
  | zero => simp [hz']
  | succ m ih =>
    clear ih
    generalize m + 1 = m
    induction m with
    | zero => simp [hz']
    | succ m ih => rw [Finset.sum_range_succ, Finset.sum_range_succ, ih, right_distrib]

end Fst
end
end Verif
