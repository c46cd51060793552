import Verif.Lemmas.AllPairs
import Verif.Lemmas.Weights
import Verif.Lemmas.DecHist
import Verif.Props.C32

/-! # C33: `all_pairs_shortest_distance` -/

namespace Verif
universe u
set_option linter.unusedSectionVars false
open Fst Finset

section
variable {W : Type u} [Semiring W]

/-- Entry of a matrix given by its rows. -/
def entry (m : List (List W)) (i j : Nat) : W := (m[i]?.bind (·[j]?)).getD 0

theorem allPairs_get {star : W → W} {f : Fst W} (hw : f.WF) :
    ∃ m, f.allPairs star = .ok m ∧ m.length = f.numStates ∧ (∀ r ∈ m, r.length = f.numStates) ∧
      ∀ i j, i < f.numStates → j < f.numStates → entry m i j = f.apBefore star f.numStates i j := by
  refine ⟨_, by unfold Fst.allPairs; rw [if_pos (targetsOk_of_wf hw)], by simp, ?_, ?_⟩
  · intro r hr
    obtain ⟨i, -, rfl⟩ := List.mem_map.1 hr
    simp
  · intro i j hi hj
    simp [entry, hi, hj]

/-- C33: with a closure that satisfies `a* = 1 ⊕ a ⊗ a*` on the values it is applied to, the result is a square matrix `D` with
`D = 1 ⊕ A ⊗ D`, where `A` (`edge`) holds the sums of the weights of the transitions from `i` to `j`. -/
theorem C33_path_equation {star : W → W} {f : Fst W} (hw : f.WF)
    (hstar : ∀ k, k < f.numStates → star (f.apBefore star k k k) = 1 + f.apBefore star k k k * star (f.apBefore star k k k)) :
    ∃ D, f.allPairs star = .ok D ∧ D.length = f.numStates ∧ (∀ r ∈ D, r.length = f.numStates) ∧
      ∀ i j, i < f.numStates → j < f.numStates →
        entry D i j = (if i = j then 1 else 0) + ∑ m ∈ range f.numStates, f.edge i m * entry D m j := by
  obtain ⟨D, h1, h2, h3, h4⟩ := allPairs_get (star := star) hw
  refine ⟨D, h1, h2, h3, fun i j hi hj => ?_⟩
  have := (apBefore_inv f star hstar f.numStates le_rfl).eq i j hi hj
  rw [h4 i j hi hj, this, if_pos hj, add_zero]
  congr 1
  · simp [hi]
  · exact Finset.sum_congr rfl fun m hm => by rw [h4 m j (Finset.mem_range.1 hm) hj]

/-- C33 for a closure that satisfies the equation everywhere (Boolean weights). -/
theorem C33_star {star : W → W} {f : Fst W} (hw : f.WF) (hstar : ∀ a, star a = 1 + a * star a) :
    ∃ D, f.allPairs star = .ok D ∧ ∀ i j, i < f.numStates → j < f.numStates →
        entry D i j = (if i = j then 1 else 0) + ∑ m ∈ range f.numStates, f.edge i m * entry D m j := by
  obtain ⟨D, h1, -, -, h2⟩ := C33_path_equation hw (star := star) fun k _ => hstar _
  exact ⟨D, h1, h2⟩

theorem edge_sum (f : Fst W) (hw : f.WF) (i : StateId) (g : Nat → W) :
    ∑ m ∈ range f.numStates, f.edge i m * g m = ((f.trsOf i).map fun t => t.weight * g t.nextstate).sum := by
  unfold edge
  have : ∀ l : List (Tr W), (∀ t ∈ l, t.nextstate < f.numStates) →
      ∑ m ∈ range f.numStates, (((l.filter (fun t => t.nextstate = m)).map (fun t => t.weight)).sum) * g m =
        (l.map fun t => t.weight * g t.nextstate).sum := by
    intro l
    induction l with
    | nil => simp
    | cons t l ih =>
      intro hl
      have hstep : ∀ m, ((((t :: l).filter (fun t => t.nextstate = m)).map (fun t => t.weight)).sum) * g m =
          (if m = t.nextstate then t.weight * g t.nextstate else 0) + (((l.filter (fun t => t.nextstate = m)).map (fun t => t.weight)).sum) * g m := by
        intro m
        by_cases h : t.nextstate = m
        · subst h; simp [add_mul]
        · have : ¬ m = t.nextstate := fun h' => h h'.symm
          simp [h, this]
      simp only [hstep]
      rw [Finset.sum_add_distrib, ih (fun u hu => hl u (List.mem_cons_of_mem _ hu)), Finset.sum_ite_eq',
        if_pos (Finset.mem_range.2 (hl t (by simp))), List.map_cons, List.sum_cons]
  exact this _ (fun t ht => hw.next_lt i t ht)

theorem walkSum_front (f : Fst W) (n : Nat) (p q : StateId) :
    f.walkSum (fun _ => true) (n + 1) p q = ((f.trsOf p).map fun t => t.weight * f.walkSum (fun _ => true) n t.nextstate q).sum := by
  have hmul : ∀ (M : Multiset (StateId × W)) (a : W),
      (((M.map fun e => (e.1, a * e.2)).filter (fun e => e.1 = q)).map (fun e => e.2)).sum =
        a * ((M.filter (fun e => e.1 = q)).map (fun e => e.2)).sum := by
    intro M a
    induction M using Multiset.induction_on with
    | empty => simp
    | cons e M ih =>
      by_cases h : e.1 = q
      · simp [h, ih, mul_add]
      · simp [h, ih]
  unfold walkSum
  simp only [walks, List.filter_true]
  generalize f.trsOf p = l
  induction l with
  | nil => simp
  | cons t l ih =>
    rw [← Multiset.cons_coe, Multiset.cons_bind, Multiset.filter_add, Multiset.map_add, Multiset.sum_add, ih, List.map_cons, List.sum_cons,
      hmul]

/-- An FST without cycles has ranks that every transition increases. -/
theorem exists_ord {f : Fst W} (hac : f.NoCycles (fun _ => true)) :
    ∃ ord : StateId → Nat, ∀ s, ∀ t ∈ f.trsOf s, ord s < ord t.nextstate := by
  classical
  refine ⟨fun s => ((range f.numStates).filter fun x => Relation.TransGen (Dfs.KEdge f (fun _ => true)) x s).card, fun s t ht => ?_⟩
  have hedge : Dfs.KEdge f (fun _ => true) s t.nextstate := ⟨t, ht, rfl, rfl⟩
  refine Finset.card_lt_card ?_
  rw [Finset.ssubset_iff_of_subset]
  · refine ⟨s, ?_, ?_⟩
    · rw [Finset.mem_filter]
      exact ⟨Finset.mem_range.2 (lt_of_mem_trsOf ht), .single hedge⟩
    · rw [Finset.mem_filter]
      rintro ⟨-, h⟩
      obtain ⟨n, c, hc⟩ := walk_of_transGen h
      exact hac n s c hc
  · intro x hx
    rw [Finset.mem_filter] at hx ⊢
    exact ⟨hx.1, hx.2.tail hedge⟩

/-- C33 for FSTs without cycles, over any semiring whose closure of zero is one: entry `(p, q)` is the sum of the weights of all paths
from `p` to `q`. -/
theorem C33_acyclic {star : W → W} {f : Fst W} (hw : f.WF) (h0 : star 0 = 1) (hac : f.NoCycles (fun _ => true)) :
    ∃ D, f.allPairs star = .ok D ∧ ∀ p q, p < f.numStates → q < f.numStates → f.IsDistance (fun _ => true) p q (entry D p q) := by
  obtain ⟨ord, hord⟩ := exists_ord hac
  have hpiv : ∀ k, k < f.numStates → f.apBefore star k k k = 0 := by
    intro k hk
    by_contra hne
    rcases apBefore_ord f star h0 ord hord k hk.le k k hk hk hne with h | h <;> omega
  obtain ⟨D, h1, -, -, h2⟩ := C33_path_equation hw (star := star) fun k hk => by rw [hpiv k hk, h0]; simp
  refine ⟨D, h1, fun p q hp hq => ?_⟩
  obtain ⟨M, hM⟩ : ∃ M, ∀ s, s < f.numStates → ord s < M := by
    refine ⟨((range f.numStates).sup ord) + 1, fun s hs => ?_⟩
    have := Finset.le_sup (f := ord) (Finset.mem_range.2 hs)
    omega
  have key : ∀ n p, p < f.numStates → M ≤ n + ord p → ∑ k ∈ range n, f.walkSum (fun _ => true) k p q = entry D p q := by
    intro n
    induction n with
    | zero =>
      intro p hp hn
      have := hM p hp
      omega
    | succ n ih =>
      intro p hp hn
      rw [h2 p q hp hq, edge_sum f hw p (fun m => entry D m q), Finset.sum_range_succ', walkSum_zero, add_comm]
      congr 1
      simp only [walkSum_front]
      have : ∀ l : List (Tr W), (∀ t ∈ l, t.nextstate < f.numStates ∧ ord p < ord t.nextstate) →
          ∑ k ∈ range n, (l.map fun t => t.weight * f.walkSum (fun _ => true) k t.nextstate q).sum =
            (l.map fun t => t.weight * entry D t.nextstate q).sum := by
        intro l
        induction l with
        | nil => simp
        | cons t l ihl =>
          intro hl
          simp only [List.map_cons, List.sum_cons]
          rw [Finset.sum_add_distrib, ihl (fun u hu => hl u (List.mem_cons_of_mem _ hu)), ← Finset.mul_sum]
          obtain ⟨h3, h4⟩ := hl t (by simp)
          rw [ih t.nextstate h3 (by omega)]
      exact this _ (fun t ht => ⟨hw.next_lt p t ht, hord p t ht⟩)
  exact ⟨M, fun n hn => key n p hp (by omega)⟩

end

/-- C33: a transition to a state that does not exist makes it panic. -/
theorem C33_panics : (((Fst.new : Fst Nat).addStates 1).addTr 0 ⟨1, 1, 1, 1⟩).allPairs id = .error .panic := by decide

/-! ## The hypotheses are met -/

/-- The FST of the documentation, and what the documentation says. -/
example : exDoc.allPairs (fun a => if a = 0 then 1 else 2147483647) = .ok [[1, 18, 18 * 55 + 21], [0, 1, 55], [0, 0, 1]] := by
  decide +kernel

example : ∃ D, exDoc.allPairs (fun a => if a = 0 then 1 else 2147483647) = .ok D ∧
    ∀ p q, p < exDoc.numStates → q < exDoc.numStates → exDoc.IsDistance (fun _ => true) p q (entry D p q) := by
  refine C33_acyclic (Fst.wf_of_wfB (by decide)) rfl (noCycles_of_ord id fun s => ?_)
  by_cases hs : s < 3
  · have : ∀ s < 3, ∀ t ∈ exDoc.trsOf s, id s < id t.nextstate := by decide +kernel
    exact this s hs
  · rw [trsOf_eq, List.getElem?_eq_none (show exDoc.states.length ≤ s from Nat.le_of_not_lt hs)]
    intro t ht; cases ht

/-- Probability weights with a cycle: `1/(1-a)` solves the equation. -/
example : (((((Fst.new : Fst ℚ).addStates 2).addTr 0 ⟨1, 1, 1 / 2, 1⟩).addTr 1 ⟨1, 1, 1 / 2, 0⟩)).allPairs (fun a => 1 / (1 - a)) =
    .ok [[4 / 3, 2 / 3], [2 / 3, 4 / 3]] := by decide +kernel

/-! ## What fails -/

/-- Defect: with tropical weights a state without cycle gets the closure of `zero`, which is `-∞` (C54_tropical_zero_defect): the
distance from state 0 to itself is `-∞` although the only path has weight 0. -/
theorem C33_tropical_defect :
    (((Fst.new : Fst (TW Int)).addStates 2).addTr 0 ⟨1, 1, .fin 3, 1⟩).allPairs TW.star =
      .ok [[.negInf, .negInf], [.inf, .negInf]] := by decide +kernel

end Verif
