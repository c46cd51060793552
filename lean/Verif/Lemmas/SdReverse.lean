import Verif.Lemmas.Walks
import Verif.Lemmas.Reverse

/-! # Distances in the reversal -/

namespace Verif
universe u v
set_option linter.unusedSectionVars false
namespace Fst

section
variable {W : Type u} [AddCommMonoid W] [Monoid W] (keep : Tr W → Bool)

theorem cont_append (l m : List (Tr W)) (q : StateId) (a : W) : cont keep (l ++ m) q a = cont keep l q a + cont keep m q a := by
  unfold cont
  rw [List.filter_append, List.map_append, List.sum_append]

theorem cont_flatMap (n : Nat) (F : Nat → List (Tr W)) (q : StateId) (a : W) :
    cont keep ((List.range n).flatMap F) q a = ∑ i ∈ Finset.range n, cont keep (F i) q a := by
  induction n with
  | zero => simp
  | succ n ih =>
    rw [List.range_succ, List.flatMap_append, cont_append, ih, Finset.sum_range_succ]
    simp

theorem finalSum_zero (f : Fst W) (p : StateId) : f.finalSum keep 0 p = (f.finOf p).getD 0 := by
  simp [finalSum, walks]

theorem finalSum_succ [LeftDistribClass W] (hz' : ∀ a : W, a * 0 = 0) (f : Fst W) (n : Nat) (p : StateId) :
    f.finalSum keep (n + 1) p = (((f.trsOf p).filter keep).map fun t => t.weight * f.finalSum keep n t.nextstate).sum := by
  have hmul : ∀ (M : Multiset (StateId × W)) (a : W),
      (M.map fun e => a * e.2 * (f.finOf e.1).getD 0).sum = a * (M.map fun e => e.2 * (f.finOf e.1).getD 0).sum := by
    intro M a
    induction M using Multiset.induction_on with
    | empty => simp [hz']
    | cons e M ih => rw [Multiset.map_cons, Multiset.sum_cons, ih, Multiset.map_cons, Multiset.sum_cons, left_distrib, mul_assoc]
  unfold finalSum
  simp only [walks]
  rw [Multiset.map_bind]
  simp only [Multiset.map_map, Function.comp_def]
  generalize (f.trsOf p).filter keep = l
  induction l with
  | nil => simp
  | cons t l ih =>
    rw [← Multiset.cons_coe, Multiset.cons_bind, Multiset.sum_add, ih, List.map_cons, List.sum_cons, hmul]

end

section
variable {W : Type u} {V : Type v} [AddCommMonoid W] [Monoid W] [LeftDistribClass W] [AddCommMonoid V] [Monoid V] [RightDistribClass V]
  [DecidableEq V] {rev : W → V} {f : Fst W} {o : Fst V}

theorem cont_revFinals {q : StateId} (h0 : rev 0 = 0) (hq : q < f.numStates) :
    cont (fun _ => true) (revFinals rev f f.numStates) (q + 1) (1 : V) = rev ((f.finOf q).getD 0) := by
  unfold revFinals
  rw [cont_flatMap]
  have : ∀ i, cont (fun _ => true) (match f.finOf i with
      | some w => [(⟨EPS, EPS, rev w, i + 1⟩ : Tr V)]
      | none => []) (q + 1) (1 : V) = if i = q then rev ((f.finOf q).getD 0) else 0 := by
    intro i
    by_cases hi : i = q
    · subst hi
      cases h : f.finOf i with
      | none => simp [h0]
      | some w => simp [cont]
    · rw [if_neg hi]
      cases h : f.finOf i with
      | none => rfl
      | some w => simp [cont, hi]
  refine (Finset.sum_congr rfl fun i _ => this i).trans ?_
  rw [Finset.sum_ite_eq', if_pos (Finset.mem_range.2 hq)]

theorem cont_revList {q s : StateId} (hq : q < f.numStates) (a : V) :
    cont (fun _ => true) (revList rev f f.numStates s) (q + 1) a =
      (((f.trsOf q).filter (fun t => t.nextstate = s)).map (fun t => a * rev t.weight)).sum := by
  unfold revList
  rw [cont_flatMap]
  have : ∀ i, cont (fun _ => true) (((f.trsOf i).filter (fun t => t.nextstate = s)).map (revTr rev i)) (q + 1) a =
      if i = q then (((f.trsOf q).filter (fun t => t.nextstate = s)).map (fun t => a * rev t.weight)).sum else 0 := by
    intro i
    by_cases hi : i = q
    · subst hi
      rw [if_pos rfl]
      unfold cont
      rw [List.filter_eq_self.2]
      · rw [List.map_map]; rfl
      · intro t ht
        obtain ⟨t', -, rfl⟩ := List.mem_map.1 ht
        simp [revTr]
    · rw [if_neg hi]
      refine cont_eq_zero _ _ _ _ fun t ht _ => ?_
      obtain ⟨t', -, rfl⟩ := List.mem_map.1 ht
      simp [revTr, hi]
  simp only [this]
  rw [Finset.sum_ite_eq', if_pos (Finset.mem_range.2 hq)]

/-- The sums along the paths of the reversal are the reversals of the sums to the final states. -/
theorem walkSum_reverse (h0 : rev 0 = 0) (hadd : ∀ a b, rev (a + b) = rev a + rev b) (hm : ∀ a b, rev (a * b) = rev b * rev a)
    (hz' : ∀ a : W, a * 0 = 0) (hz : ∀ a : V, 0 * a = 0) (hw : f.WF) (ho : o.WF) (hn : o.numStates = f.numStates + 1)
    (t0 : o.trsOf 0 = revFinals rev f f.numStates)
    (ts : ∀ q, q < f.numStates → o.trsOf (q + 1) = revList rev f f.numStates q) (k : Nat) :
    o.walkSum (fun _ => true) (k + 1) 0 0 = 0 ∧
    ∀ q, q < f.numStates → o.walkSum (fun _ => true) (k + 1) 0 (q + 1) = rev (f.finalSum (fun _ => true) k q) := by
  have hz0 : ∀ k, o.walkSum (fun _ => true) (k + 1) 0 0 = 0 := by
    intro k
    rw [o.walkSum_succ _ hz ho (by omega)]
    refine Finset.sum_eq_zero fun s hs => cont_eq_zero _ _ _ _ fun t ht _ => ?_
    rw [Finset.mem_range, hn] at hs
    cases s with
    | zero =>
      rw [t0, revFinals, List.mem_flatMap] at ht
      obtain ⟨i, -, ht⟩ := ht
      cases h : f.finOf i with
      | none => rw [h] at ht; cases ht
      | some w =>
        rw [h] at ht
        obtain rfl := List.mem_singleton.1 ht
        simp
    | succ s =>
      rw [ts s (by omega), revList, List.mem_flatMap] at ht
      obtain ⟨i, -, ht⟩ := ht
      obtain ⟨t', -, rfl⟩ := List.mem_map.1 ht
      simp [revTr]
  refine ⟨hz0 k, ?_⟩
  induction k with
  | zero =>
    intro q hq
    rw [o.walkSum_succ _ hz ho (by omega), hn, Finset.sum_range_succ', Finset.sum_eq_zero, zero_add, walkSum_zero, t0, if_pos rfl,
      cont_revFinals h0 hq, finalSum_zero]
    intro s _
    rw [walkSum_zero, if_neg (by omega), cont_zero _ hz]
  | succ k ih =>
    intro q hq
    rw [o.walkSum_succ _ hz ho (by omega), hn, Finset.sum_range_succ', hz0, cont_zero _ hz, add_zero, finalSum_succ _ hz']
    have h1 : ∀ s ∈ Finset.range f.numStates, cont (fun _ => true) (o.trsOf (s + 1)) (q + 1) (o.walkSum (fun _ => true) (k + 1) 0 (s + 1)) =
        (((f.trsOf q).filter (fun t => t.nextstate = s)).map (fun t => rev (t.weight * f.finalSum (fun _ => true) k t.nextstate))).sum := by
      intro s hs
      have hs := Finset.mem_range.1 hs
      rw [ih s hs, ts s hs, cont_revList hq]
      congr 1
      refine List.map_congr_left fun t ht => ?_
      have : t.nextstate = s := by simpa using (List.mem_filter.1 ht).2
      rw [hm, this]
    rw [Finset.sum_congr rfl h1]
    have h2 : ∀ l : List (Tr W), (∀ t ∈ l, t.nextstate < f.numStates) →
        ∑ s ∈ Finset.range f.numStates,
          ((l.filter (fun t => t.nextstate = s)).map (fun t => rev (t.weight * f.finalSum (fun _ => true) k t.nextstate))).sum =
        rev ((l.map fun t => t.weight * f.finalSum (fun _ => true) k t.nextstate).sum) := by
      intro l
      induction l with
      | nil => simp [h0]
      | cons t l ihl =>
        intro hl
        have hstep : ∀ s, (((t :: l).filter (fun t => t.nextstate = s)).map
              (fun t => rev (t.weight * f.finalSum (fun _ => true) k t.nextstate))).sum =
            (if s = t.nextstate then rev (t.weight * f.finalSum (fun _ => true) k t.nextstate) else 0) +
            ((l.filter (fun t => t.nextstate = s)).map (fun t => rev (t.weight * f.finalSum (fun _ => true) k t.nextstate))).sum := by
          intro s
          by_cases h : t.nextstate = s
          · rw [List.filter_cons_of_pos (by simpa using h), List.map_cons, List.sum_cons, if_pos h.symm]
          · rw [List.filter_cons_of_neg (by simpa using h), if_neg (Ne.symm h), zero_add]
        simp only [hstep]
        rw [Finset.sum_add_distrib, ihl (fun u hu => hl u (List.mem_cons_of_mem _ hu)), Finset.sum_ite_eq',
          if_pos (Finset.mem_range.2 (hl t (by simp))), List.map_cons, List.sum_cons, hadd]
    rw [h2 _ (fun t ht => hw.next_lt q t ht)]
    simp

/-- A walk of the reversal is a walk read backwards. -/
theorem walks_reverse (hm : ∀ a b, rev (a * b) = rev b * rev a) (h1 : rev 1 = 1)
    (ts : ∀ q, q < f.numStates → o.trsOf (q + 1) = revList rev f f.numStates q) {n : Nat} {p x : StateId} {v : V}
    (hp : p < f.numStates) (h : (x, v) ∈ o.walks (fun _ => true) n (p + 1)) :
    ∃ y w, x = y + 1 ∧ y < f.numStates ∧ v = rev w ∧ (p, w) ∈ f.walks (fun _ => true) n y := by
  induction n generalizing x v with
  | zero =>
    obtain ⟨rfl, rfl⟩ := (o.mem_walks_zero _).1 h
    exact ⟨p, 1, rfl, hp, h1.symm, (f.mem_walks_zero _).2 ⟨rfl, rfl⟩⟩
  | succ n ih =>
    obtain ⟨s, a, hs, t, ht, -, rfl, rfl⟩ := (o.mem_walks_succ' _).1 h
    obtain ⟨y, w, rfl, hy, rfl, hwk⟩ := ih hs
    rw [ts y hy, revList, List.mem_flatMap] at ht
    obtain ⟨i, hi, ht⟩ := ht
    obtain ⟨t', ht', rfl⟩ := List.mem_map.1 ht
    obtain ⟨ht', hny⟩ := List.mem_filter.1 ht'
    have hny : t'.nextstate = y := by simpa using hny
    refine ⟨i, t'.weight * w, rfl, List.mem_range.1 hi, ?_, ?_⟩
    · rw [hm]; rfl
    · exact (f.mem_walks_succ _).2 ⟨t', ht', rfl, w, hny ▸ hwk, rfl⟩

end
end Fst
end Verif
