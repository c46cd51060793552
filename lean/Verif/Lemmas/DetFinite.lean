import Verif.Lemmas.Determinize
import Verif.Lemmas.FactorFinite
import Mathlib.Data.Set.Card
import Mathlib.Data.Set.Finite.List

/-! # Determinization: when the result is finite -/

namespace Verif
set_option linter.unusedSectionVars false
universe u v
variable {W : Type u} {S : Type v} [Zero W] [One W] [Mul W] [DecidableEq W] [Semiring S] {f : Fst W} {o : DetOps W} {val : W → S}
  {good : W → Prop} (L : DetLaw o val good)
  {ord : DTup W → Label → List (DElt W) → List (DElt W)} (ho : Orders ord) (hf : f.WF) (hw : ∀ s, ∀ tr ∈ f.trsOf s, good tr.weight)

/-- The number of states strictly below a state. -/
noncomputable def Fst.below (f : Fst W) (s : StateId) : Nat := {q | Relation.TransGen f.Edge s q}.ncard

theorem Fst.below_lt {f : Fst W} (hf : f.WF) (hac : f.Holds .acyclic) {s q : StateId} (h : f.Edge s q) : f.below q < f.below s := by
  refine Set.ncard_lt_ncard ?_ ?_
  · refine ⟨fun p hp => .head h hp, fun hsub => ?_⟩
    exact hac ⟨q, hsub (.single h : q ∈ {q | Relation.TransGen f.Edge s q})⟩
  · refine Set.Finite.subset (Set.finite_Iio f.numStates) ?_
    intro p hp
    obtain ⟨_, _, tr, htr, rfl⟩ := Relation.TransGen.tail'_iff.1 hp
    exact hf.next_lt _ tr htr

include L ho hf hw

theorem det_trs_ok {t : DTup W} (ht : DGood f good t) : DetTrsOk f good t ((detMachine f o ord).trs t) ∨ (detMachine f o ord).trs t = [] := by
  simp only [TupleOp.machine, detOp]
  cases h : detTrs f o ord t with
  | error e => exact .inr rfl
  | ok as => exact .inl (detTrs_spec L ho hf hw h ht).1

theorem det_finite_acyclic (hac : f.Holds .acyclic) : {t | (detMachine f o ord).Reach t}.Finite := by
  have key : ∀ k t, DGood f good t → (∀ e ∈ t.subset, f.below e.state < k) → ((detMachine f o ord).From t).Finite := by
    intro k
    induction k with
    | zero =>
      intro t ht hk
      refine Machine.from_finite fun a ha => ?_
      rcases det_trs_ok L ho hf hw ht with h | h
      · obtain ⟨x, hx⟩ := List.exists_mem_of_ne_nil _ (h.nonempty a ha)
        obtain ⟨e, he, _⟩ := (h.next a ha x.state).1 (List.mem_map_of_mem hx)
        exact absurd (hk e he) (Nat.not_lt_zero _)
      · rw [h] at ha; cases ha
    | succ k ih =>
      intro t ht hk
      refine Machine.from_finite fun a ha => ?_
      refine ih a.next (det_trs_good L ho hf hw ht a ha) fun x hx => ?_
      rcases det_trs_ok L ho hf hw ht with h | h
      · obtain ⟨e, he, tr, htr, _, e2⟩ := (h.next a ha x.state).1 (List.mem_map_of_mem hx)
        have := Fst.below_lt hf hac (⟨tr, htr, e2⟩ : f.Edge e.state x.state)
        have := hk e he
        omega
      · rw [h] at ha; cases ha
  cases hs : f.start with
  | none =>
    have : {e | (detMachine f o ord).Reach e} = ∅ := by
      ext e
      simp only [Set.mem_setOf_eq, Set.mem_empty_iff_false, iff_false]
      intro he
      induction he with
      | start h => simp [TupleOp.machine, detOp, hs] at h
      | step _ _ ih => exact ih
    rw [this]; exact Set.finite_empty
  | some i =>
    have h0 : (detMachine f o ord).start = some ⟨[⟨i, 1⟩], i⟩ := by simp [TupleOp.machine, detOp, hs]
    refine Set.Finite.subset (key (f.below i + 1) _ (det_reach_good L ho hf hw (.start h0)) ?_) fun e he => Machine.reach_eq h0 e he
    intro e he
    simp only [List.mem_singleton] at he
    subst he
    exact Nat.lt_succ_self _

theorem det_finite_good (hg : {w | good w}.Finite) : {t | (detMachine f o ord).Reach t}.Finite := by
  have hA : {e : DElt W | e.state < f.numStates ∧ good e.weight}.Finite := by
    refine Set.Finite.subset (Set.Finite.image2 (fun s w => (⟨s, w⟩ : DElt W)) (Set.finite_Iio f.numStates) hg) ?_
    intro e he
    exact ⟨e.state, he.1, e.weight, he.2, rfl⟩
  have hL : {l : List (DElt W) | l.length ≤ f.numStates ∧ ∀ e ∈ l, e.state < f.numStates ∧ good e.weight}.Finite := by
    haveI : Finite {e : DElt W // e.state < f.numStates ∧ good e.weight} := hA.to_subtype
    refine Set.Finite.subset (Set.Finite.image (List.map Subtype.val)
      (List.finite_length_le {e : DElt W // e.state < f.numStates ∧ good e.weight} f.numStates)) ?_
    rintro l ⟨h1, h2⟩
    exact ⟨l.attach.map fun e => ⟨e.1, h2 e.1 e.2⟩, by simpa using h1, by simp [Function.comp_def]⟩
  refine Set.Finite.subset (Set.Finite.union (Set.Finite.image (fun l => (⟨l, 0⟩ : DTup W)) hL)
    (Set.Finite.subset (Set.finite_Iio f.numStates |>.image fun i => (⟨[⟨i, 1⟩], i⟩ : DTup W)) (Set.Subset.refl _))) ?_
  intro t ht
  cases ht with
  | start h =>
    simp only [TupleOp.machine, detOp, Option.map_eq_some_iff] at h
    obtain ⟨s, hs, rfl⟩ := h
    exact .inr ⟨s, hf.start_lt s hs, rfl⟩
  | @step t a hr ha =>
    left
    have hgd := det_reach_good L ho hf hw hr
    have hgn := det_trs_good L ho hf hw hgd a ha
    rcases det_trs_ok L ho hf hw hgd with h | h
    · refine ⟨a.next.subset, ⟨?_, hgn⟩, ?_⟩
      · have := List.Subperm.length_le ((h.nodup a ha).subperm (l₂ := List.range f.numStates) (by
          intro s hs
          obtain ⟨e, he, rfl⟩ := List.mem_map.1 hs
          exact List.mem_range.2 (hgn e he).1))
        simpa using this
      · have := h.filter a ha
        cases hn : a.next with
        | mk l i => rw [hn] at this; simp only at this; rw [this]
    · rw [h] at ha; cases ha

end Verif
