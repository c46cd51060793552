import Verif.Lemmas.PathIter
import Verif.Lemmas.DecHist

/-!
# C47: `paths_iter` enumerates exactly the successful paths
-/

namespace Verif
universe u
variable {W : Type u} [Monoid W]
open Fst

/-- An FST whose accessible part has no cycle has no accepting path with `num_states` or more transitions. -/
theorem level_acyclic {f : Fst W} (hw : f.WF) (hac : ∀ s, f.Accessible s → ¬ f.OnCycle s) {n : Nat} (hn : f.numStates ≤ n) :
    f.level n f.pathsIter = [] := by
  rw [List.eq_nil_iff_forall_not_mem]
  intro e he
  obtain ⟨e0, h0, c, h1, -, h2⟩ := f.mem_level n _ e he
  unfold pathsIter at h0
  cases hs : f.start with
  | none => rw [hs] at h0; cases h0
  | some i =>
    rw [hs] at h0
    simp only [List.mem_singleton] at h0
    subst h0
    obtain ⟨k, -, h3, h4⟩ := cycle_of_long hw hn (c := c) (by rw [h1]; exact hw.start_lt i hs) h2
    exact hac _ ⟨i, hs, by rw [h1] at h4; exact h4⟩ h3

/-- C47: for an FST without cycle among its accessible states, the iterator yields a list of paths and then `None` for ever; the list
contains every accepting path exactly once. None of them has `num_states` or more transitions. -/
theorem C47_paths_iter {f : Fst W} (hw : f.WF) (hac : ∀ s, f.Accessible s → ¬ f.OnCycle s) :
    ∃ ps : List (FstPath W),
      (∀ j, EndsWith (fun n => (f.nextPaths n (ps.length + j) f.pathsIter).map Prod.fst) (ps.map some ++ List.replicate j none)) ∧
      ((ps : Multiset (FstPath W)).map fun p => (p.ilabels, p.olabels, p.weight)) = ∑ n ∈ Finset.range f.numStates, f.accPaths n ∧
      ∀ n, f.numStates ≤ n → f.accPaths n = 0 := by
  obtain ⟨n, hn⟩ := f.emit_levels f.numStates f.pathsIter
  rw [level_acyclic hw hac le_rfl] at hn
  obtain ⟨m, q1, hm, h1, h2⟩ := f.nextPaths_of_emit _ n _ _ hn
  refine ⟨_, fun j => ⟨n, fun k hk => ?_⟩, f.levelYields_acc f.numStates, fun n hn => ?_⟩
  · have h3 := h1 k hk
    cases j with
    | zero => simp [h3]
    | succ j =>
      have h4 := f.nextPath_of_empty m q1 h2 k (by omega)
      have h5 : f.nextPaths k (j + 1) q1 = some (List.replicate (j + 1) none, []) := by
        simp only [nextPaths, h4, nextPaths_nil, List.replicate_succ]
      simp only [f.nextPaths_add k _ _ _ h3 h5, Option.map_some]
  · have h := f.levelYields_acc (n + 1)
    have h' := f.levelYields_acc n
    rw [Finset.sum_range_succ, ← h'] at h
    rw [levelYields_eq, Finset.sum_range_succ, ← levelYields_eq, level_acyclic hw hac hn] at h
    simpa using h

/-- C47 for all FSTs, cycles or not: every accepting path is yielded after finitely many calls, shorter ones (in transitions) first. -/
theorem C47_any (f : Fst W) (N : Nat) :
    ∃ ps : List (FstPath W), EndsWith (fun n => (f.nextPaths n ps.length f.pathsIter).map Prod.fst) (ps.map some) ∧
      ((ps : Multiset (FstPath W)).map fun p => (p.ilabels, p.olabels, p.weight)) = ∑ n ∈ Finset.range N, f.accPaths n := by
  obtain ⟨n, hn⟩ := f.emit_levels N f.pathsIter
  obtain ⟨m, q1, hm, h1, h2⟩ := f.nextPaths_of_emit _ n _ _ hn
  exact ⟨_, ⟨n, fun k hk => by simp [h1 k hk]⟩, f.levelYields_acc N⟩

/-! ## Examples -/

/-- Two paths share a label sequence; one path has an ε-transition. -/
def exPaths : Fst Nat :=
  (((((((Fst.new.addStates 4).setStart 0).addTr 0 ⟨1, 2, 3, 1⟩).addTr 0 ⟨1, 2, 5, 1⟩).addTr 1 ⟨0, 4, 7, 3⟩).setFinal 1 2).setFinal 3 1).addTr 2
    ⟨1, 1, 1, 2⟩

/-- `exPaths` has a cycle, but not one that can be reached. -/
example : ∃ ps : List (FstPath Nat),
    (∀ j, EndsWith (fun n => (exPaths.nextPaths n (ps.length + j) exPaths.pathsIter).map Prod.fst) (ps.map some ++ List.replicate j none)) ∧
    ((ps : Multiset (FstPath Nat)).map fun p => (p.ilabels, p.olabels, p.weight)) = ∑ n ∈ Finset.range exPaths.numStates, exPaths.accPaths n ∧
    ∀ n, exPaths.numStates ≤ n → exPaths.accPaths n = 0 := by
  refine C47_paths_iter (Fst.wf_of_wfB (by decide)) ?_
  have hedge : ∀ s t, exPaths.Edge s t → s ≠ 2 → s < t ∧ t ≠ 2 := by
    rintro s _ ⟨t, ht, rfl⟩
    by_cases hs : s < 4
    · have : ∀ s < 4, ∀ t ∈ exPaths.trsOf s, s ≠ 2 → s < t.nextstate ∧ t.nextstate ≠ 2 := by decide +kernel
      exact this s hs t ht
    · rw [trsOf_eq, List.getElem?_eq_none (show exPaths.states.length ≤ s from Nat.le_of_not_lt hs)] at ht
      cases ht
  rintro s ⟨i, hi, hr⟩ hc
  have hne : s ≠ 2 := by
    have hi : i = 0 := by simpa [exPaths] using hi.symm
    subst hi
    clear hc
    induction hr with
    | refl => decide
    | tail _ h ih => exact (hedge _ _ h ih).2
  have key : ∀ x, Relation.TransGen exPaths.Edge s x → s < x ∧ x ≠ 2 := by
    intro x hx
    induction hx with
    | single h => exact hedge _ _ h hne
    | tail _ h ih => exact ⟨lt_trans ih.1 (hedge _ _ h ih.2).1, (hedge _ _ h ih.2).2⟩
  exact lt_irrefl _ (key s hc).1

example : (exPaths.nextPaths 10 5 exPaths.pathsIter).map Prod.fst =
    some [some ⟨[1], [2], 6⟩, some ⟨[1], [2], 10⟩, some ⟨[1], [2, 4], 21⟩, some ⟨[1], [2, 4], 35⟩, none] := by decide +kernel

end Verif
