import Verif.Lemmas.LazyStates

/-! # Lazy FSTs: the expansion into a static FST -/

set_option linter.unusedSectionVars false

namespace Verif
universe u v w x
variable {W : Type u} {C : Type v} {σ : Type w} {T : Type x}

section table
variable {τ : Type w} {find : τ → T → StateId × τ} {tup : τ → StateId → Option T} {size : τ → Nat} {inv : τ → Prop}

theorem find_tight (L : TableLaw find tup size inv) {m : τ} (hm : inv m) (t : T) (p : StateId)
    (h : (tup (find m t).2 p).isSome) : (tup m p).isSome ∨ p = (find m t).1 := by
  by_cases hk : p < size m
  · exact .inl ((L.dense m hm p).1 hk)
  · have hlt := (L.dense _ (L.keep m hm t) p).2 h
    rcases L.grow m hm t with e | ⟨e, e'⟩
    · omega
    · exact .inr (by omega)

theorem nameAll_tight (L : TableLaw find tup size inv) (l : List (MTr T W)) : ∀ m, inv m → ∀ p,
    (tup (nameAll find m l).2 p).isSome → (tup m p).isSome ∨ ∃ tr ∈ (nameAll find m l).1, tr.nextstate = p := by
  induction l with
  | nil => intro m _ p h; exact .inl h
  | cons a as ih =>
    intro m hm p h
    rcases ih _ (L.keep m hm a.next) p h with h | ⟨tr, h1, h2⟩
    · rcases find_tight L hm _ _ h with h | h
      · exact .inl h
      · exact .inr ⟨_, List.mem_cons_self .., h.symm⟩
    · exact .inr ⟨tr, List.mem_cons_of_mem _ h1, h2⟩

theorem TupleOp.tight (L : TableLaw find tup size inv) {tuple : τ → StateId → R T}
    (ht : ∀ m s t, tuple m s = .ok t ↔ tup m s = some t) (O : TupleOp T W) (M : Machine T W)
    (htrs : ∀ t, M.Reach t → O.trs t = .ok (M.trs t)) :
    TightOp (O.withTable find tuple) tup (fun m => inv m ∧ ∀ s t, tup m s = some t → M.Reach t) where
  start o ho p hp := by
    simp only [TupleOp.withTable] at hp ⊢
    cases hs : O.start with
    | error e => rw [hs] at hp; exact .inl hp
    | ok r =>
      rw [hs] at hp
      cases r with
      | none => exact .inl hp
      | some t =>
        rcases find_tight L ho.1 _ _ hp with h | h
        · exact .inl h
        · exact .inr (by rw [h])
  trs o ho s hs p hp := by
    obtain ⟨t, hst⟩ := Option.isSome_iff_exists.1 hs
    simp only [TupleOp.withTable, (ht o s t).2 hst, htrs t (ho.2 s t hst)] at hp ⊢
    rcases nameAll_tight L _ _ ho.1 p hp with h | h
    · exact .inl h
    · exact .inr ⟨_, rfl, h⟩
  fin o ho s hs p hp := by
    obtain ⟨t, hst⟩ := Option.isSome_iff_exists.1 hs
    simp only [TupleOp.withTable, (ht o s t).2 hst] at hp
    exact hp

end table

open Lz
variable [Zero W] [One W] [DecidableEq W]

/-- More fuel does not change what `compute` returns. -/
theorem compute_more {K : CacheOps W C} {O : LazyOp σ W} (n : Nat) (z : Lz C σ) {x} (h : Lz.compute K O n z = some x) :
    Lz.compute K O (n + 1) z = some x := by
  unfold Lz.compute at h ⊢
  split at h
  · exact h
  · exact h
  · rename_i s z1 hs
    split at h
    · cases h
    · rename_i e z2 hc
      rw [computeLoop_more _ _ _ _ _ _ hc]; exact h
    · rename_i out z2 hc
      rw [computeLoop_more _ _ _ _ _ _ hc]; exact h

/-- The expansion from any coherent state; when the names are tight and dense and there are none yet, it presents the machine. -/
theorem compute_core {K : CacheOps W C} {cinv : C → Prop} {O : LazyOp σ W} {M : Machine T W} {name : σ → StateId → Option T}
    {oinv : σ → Prop} (L : CacheLaw K cinv) (OL : OpLaw O M name oinv) {z : Lz C σ} (hcoh : Coh K cinv M name oinv z)
    (hfin : {t | M.Reach t}.Finite ∨ ∃ n, Lz.compute K O n z ≠ none) :
    ∃ F z', EndsWith (fun n => Lz.compute K O n z) (.ok F, z') ∧
      F.WF ∧ F.AllCounters ∧ F.props = (if M.start = none then Props.nullMask else O.props) ∧
      OneName (name z'.op) ∧ Option.Rel (fun s t => name z'.op s = some t) F.start M.start ∧
        (∀ t, M.Reach t → ∃ s, name z'.op s = some t ∧ s < F.numStates ∧ F.finOf s = M.fin t ∧
          List.Forall₂ (Names (name z'.op)) (F.trsOf s) (M.trs t) ∧
          (z'.getTrs K O s).1 = .ok (F.trsOf s) ∧ (z'.finalWeight K O s).1 = .ok (F.finOf s)) ∧
      (TightOp O name oinv → Dense name oinv → (∀ s, name z.op s = none) → K.getStart z.cache = none → M.Presents (name z'.op) F) ∧ oinv z'.op := by
  classical
  obtain ⟨h1, h2, r, h3, h4⟩ := start_coh L OL hcoh
  have htight : TightOp O name oinv → (∀ s, name z.op s = none) → K.getStart z.cache = none → ∀ p, (name (z.start K O).2.op p).isSome →
      (z.start K O).1 = .ok (some p) := by
    intro H hno hnc p hp
    unfold Lz.start at hp ⊢
    rw [hnc] at hp ⊢
    have := H.start z.op hcoh.op p
    rcases hcs : O.computeStart z.op with ⟨a, o⟩
    rw [hcs] at hp this
    simp only [hno] at this
    cases a with
    | error e => simpa using this hp
    | ok r => simpa using this hp
  rcases hs : z.start K O with ⟨a, z1⟩
  rw [hs] at htight
  rw [hs] at h1 h2 h3 h4
  simp only at h1 h2 h3 h4
  subst h3
  cases hM : M.start with
  | none =>
    rw [hM] at h4
    cases h4
    have hno : ∀ t, ¬ M.Reach t := by
      intro t ht
      induction ht with
      | start e => rw [hM] at e; exact absurd e (by simp)
      | step _ _ ih => exact ih
    refine ⟨Fst.new, z1, ⟨0, fun n _ => by simp only [Lz.compute, hs]⟩, ⟨by simp [Fst.new], by simp [Fst.new, Fst.trsOf]⟩, ?_, ?_, OL.one _ h1.op, ?_, ?_, ?_, h1.op⟩
    · intro s st hst; simp [Fst.new] at hst
    · simp [Fst.new]
    · exact .none
    · intro t ht
      exact absurd ht (hno t)
    · intro H _ i1 i2
      have hz1 : ∀ p, name z1.op p = none := by
        intro p
        cases hp : name z1.op p with
        | none => rfl
        | some t => exact absurd (htight H i1 i2 p (by simp [hp])) (by simp)
      refine ⟨OL.one _ h1.op, fun s => ?_, fun t => ?_, ?_, fun s t h => ?_, fun s t h => ?_⟩
      · simp [hz1, Fst.new, Fst.numStates]
      · simp [hz1, hno t]
      · rw [hM]; exact .none
      · rw [hz1] at h; cases h
      · rw [hz1] at h; cases h
  | some t0 =>
    rw [hM] at h4
    cases h4 with
    | @some s0 _ e0 =>
      obtain ⟨N, hN⟩ : ∃ N, (∃ R : List T, (∀ t, M.Reach t → t ∈ R) ∧ R.length < N + ([] : List StateId).length) ∨
          computeLoop K O N [s0] ((List.replicate (s0 + 1) false).set s0 true) ((Fst.new.addStates (s0 + 1)).setStart s0) z1 ≠ none := by
        rcases hfin with hfin | ⟨n, hn⟩
        · refine ⟨hfin.toFinset.toList.length + 1, .inl ⟨hfin.toFinset.toList, fun t ht => ?_, by simp⟩⟩
          rw [Finset.mem_toList, Set.Finite.mem_toFinset]
          exact ht
        · refine ⟨n, .inr fun h => hn ?_⟩
          simp only [Lz.compute, hs, h]
      have hmk : ∀ s, Marked ((List.replicate (s0 + 1) false).set s0 true) s ↔ s ∈ ([] : List StateId) ++ [s0] := by
        intro s
        unfold Marked
        by_cases hss : s = s0
        · subst hss; rw [List.getElem?_set_self (by simp)]; simp
        · rw [List.getElem?_set_ne (Ne.symm hss), List.getElem?_replicate]
          simp only [List.nil_append, List.mem_singleton, hss, iff_false]
          split <;> simp
      have key := fun n hn => computeLoop_spec L OL n [s0] [] ((List.replicate (s0 + 1) false).set s0 true)
        ((Fst.new.addStates (s0 + 1)).setStart s0) z1 h1 (by simp) hmk (by
          refine ⟨by simp, by simp, ?_, ?_, ?_⟩
          · intro s _; exact ⟨by simp, by simp⟩
          · intro s hms
            have := (hmk s).1 hms
            simp only [List.nil_append, List.mem_singleton] at this
            subst this
            simp
          · intro s hms
            have := (hmk s).1 hms
            simp only [List.nil_append, List.mem_singleton] at this
            subst this
            rw [e0]; rfl)
        (Fst.allCounters_setStart (Fst.allCounters_addStates (fun s st hst => by simp [Fst.new] at hst) _) _) hn
      obtain ⟨out, z', D, vis, k1, k2, k3, k4, k5, k6, k7, k8, k9, k10⟩ := key N hN
      have hmore : ∀ n, N ≤ n → computeLoop K O n [s0] ((List.replicate (s0 + 1) false).set s0 true)
          ((Fst.new.addStates (s0 + 1)).setStart s0) z1 = some (.ok out, z') := by
        intro n hn
        induction n, hn using Nat.le_induction with
        | base => exact k1
        | succ n _ ih => exact computeLoop_more _ _ _ _ _ _ ih
      have hstart : out.start = some s0 := by rw [k7]; rfl
      have hclosed : ∀ s ∈ D, ∀ tr ∈ out.trsOf s, tr.nextstate ∈ D := fun s hs tr htr => (k4 _).1 (k6.next s hs tr htr)
      have hreach : ∀ t, M.Reach t → ∃ s ∈ D, name z'.op s = some t := by
        intro t ht
        induction ht with
        | @start t e =>
          rw [hM] at e; injection e with e; subst e
          exact ⟨s0, k5 s0 (by simp), k3 _ _ e0⟩
        | @step t a _ ha ih =>
          obtain ⟨s, hs, hn⟩ := ih
          obtain ⟨t', g1, g2, _⟩ := k6.trs s hs
          rw [hn] at g1; injection g1 with g1; subst g1
          have : ∀ {l : List (Tr W)} {m : List (MTr T W)}, List.Forall₂ (Names (name z'.op)) l m → ∀ a ∈ m, ∃ tr ∈ l, Names (name z'.op) tr a := by
            intro l m hl
            induction hl with
            | nil => simp
            | cons hd _ ih =>
              intro a ha
              rcases List.mem_cons.1 ha with rfl | ha
              · exact ⟨_, by simp, hd⟩
              · obtain ⟨tr, htr, h⟩ := ih a ha
                exact ⟨tr, by simp [htr], h⟩
          obtain ⟨tr, htr, hnm⟩ := this g2 a ha
          exact ⟨tr.nextstate, hclosed s hs tr htr, hnm.2.2.2⟩
      refine ⟨out.setProps O.props, z', ⟨N, fun n hn => ?_⟩, ⟨?_, ?_⟩, k9, ?_, OL.one _ k2.op, ?_, ?_, ?_, k2.op⟩
      · simp only [Lz.compute, hs, hmore n hn]
      · intro s hs'
        have : s = s0 := by
          have : (out.setProps O.props).start = some s0 := hstart
          rw [this] at hs'; injection hs' with hs'; exact hs'.symm
        subst this
        exact k6.lt _ ((k4 _).2 (k5 _ (by simp)))
      · intro s tr htr
        have htr' : tr ∈ out.trsOf s := htr
        by_cases hs' : s ∈ D
        · exact k6.lt _ (k6.next s hs' tr htr')
        · rw [(k6.empty s hs').1] at htr'; cases htr'
      · simp [Fst.setProps]
      · show Option.Rel _ out.start _
        rw [hstart]; exact .some (k3 _ _ e0)
      · intro t ht
        obtain ⟨s, hs', hn⟩ := hreach t ht
        obtain ⟨t', g1, g2, g3⟩ := k6.trs s hs'
        rw [hn] at g1; injection g1 with g1; subst g1
        refine ⟨s, hn, k6.lt s ((k4 s).2 hs'), g3, g2, ?_, ?_⟩
        · obtain ⟨c1, c2, l, c3, c4⟩ := trs_coh L OL k2 hn
          rw [c3]
          have := names_unique (OL.one _ c1.op) c4 (forall2_mono (fun _ _ => Names.mono c2) g2)
          rw [this]; rfl
        · obtain ⟨c1, c2, c3⟩ := fin_coh L OL k2 hn
          rw [c3, ← g3]; rfl
      · intro H hd i1 i2
        obtain ⟨j1, j2⟩ := k10 H (by
          intro p hp
          have := htight H i1 i2 p hp
          simp only [Except.ok.injEq, Option.some.injEq] at this
          subst this
          exact (hmk _).2 (by simp)) (by
          intro p hp
          refine ⟨s0, ?_, (hmk s0).2 (by simp)⟩
          rw [Fst.setStart_numStates, Fst.addStates_numStates] at hp
          simp [Fst.new, Fst.numStates] at hp
          omega)
        have hlt : ∀ s, s < out.numStates ↔ ∃ t, name z'.op s = some t := by
          intro s
          constructor
          · intro h
            obtain ⟨p, e1, e2⟩ := j2 s h
            exact Option.isSome_iff_exists.1 (hd _ k2.op p s e1 (k6.named p e2))
          · rintro ⟨t, ht⟩
            exact k6.lt s (j1 s (by rw [ht]; rfl))
        have hdat : ∀ s t, name z'.op s = some t → List.Forall₂ (Names (name z'.op)) (out.trsOf s) (M.trs t) ∧ out.finOf s = M.fin t := by
          intro s t hst
          obtain ⟨t', g1, g2, g3⟩ := k6.trs s ((k4 s).1 (j1 s (by rw [hst]; rfl)))
          rw [hst] at g1; injection g1 with g1; subst g1
          exact ⟨g2, g3⟩
        refine ⟨OL.one _ k2.op, hlt, fun t => ⟨fun h => ?_, fun ⟨s, h⟩ => OL.reach _ k2.op s t h⟩, ?_, fun s t h => (hdat s t h).1, fun s t h => (hdat s t h).2⟩
        · obtain ⟨s, _, h⟩ := hreach t h; exact ⟨s, h⟩
        · show Option.Rel _ out.start _
          rw [hstart, hM]; exact .some (k3 _ _ e0)

end Verif
