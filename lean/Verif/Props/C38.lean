import Verif.Props.C36
import Verif.Lemmas.Numbering
import Mathlib.Data.Set.Finite.Lattice
import Mathlib.Order.Interval.Finset.Nat
import Mathlib.Order.Interval.Set.Infinite

/-! # C38: lazy FST expansion is complete -/

namespace Verif
universe u v w x
variable {W : Type u} {C : Type v} {σ : Type w} {T : Type x}
open Lz

section compute
variable [Zero W] [One W] [DecidableEq W]

/-- C38: `compute`, called at any point of any history of queries, on an operation with finitely many reachable tuples, ends without
an error. The static FST it returns is well formed with right counters; its start is the start of the lazy FST; every tuple the lazy FST can reach is a state
of it with the same final weight and the same transitions in the same order; and asking the lazy FST afterwards about such a state
gives literally the transitions and the final weight of the static FST. The flags are those the operation declares. -/
theorem C38_compute {K : CacheOps W C} {cinv : C → Prop} {O : LazyOp σ W} {M : Machine T W} {name : σ → StateId → Option T}
    {oinv : σ → Prop} (L : CacheLaw K cinv) (OL : OpLaw O M name oinv) {o : σ} (ho : oinv o) (h : List Query)
    (hf : Fair K O (fun _ => False) ⟨K.empty, o⟩ h) (hfin : {t | M.Reach t}.Finite) :
    ∃ F z', EndsWith (fun n => Lz.compute K O n ((⟨K.empty, o⟩ : Lz C σ).run K O h).2) (.ok F, z') ∧
      F.WF ∧ F.AllCounters ∧ F.props = (if M.start = none then Props.nullMask else O.props) ∧
      ∃ nm, OneName nm ∧ Option.Rel (fun s t => nm s = some t) F.start M.start ∧
        (∀ t, M.Reach t → ∃ s, nm s = some t ∧ s < F.numStates ∧ F.finOf s = M.fin t ∧ List.Forall₂ (Names nm) (F.trsOf s) (M.trs t) ∧
          (z'.getTrs K O s).1 = .ok (F.trsOf s) ∧ (z'.finalWeight K O s).1 = .ok (F.finOf s)) := by
  obtain ⟨F, z', h1, h2, h3, h4, h5, h6, h7, _⟩ := compute_core L OL
    (run_coh L OL h _ _ (coh_fresh L ho) (fun _ hs => hs.elim) hf).1 (.inl hfin)
  exact ⟨F, z', h1, h2, h3, h4, _, h5, h6, h7⟩

/-- C38: `compute`, called at any point of any history of queries, ends if and only if finitely many tuples can be reached. -/
theorem C38_ends {K : CacheOps W C} {cinv : C → Prop} {O : LazyOp σ W} {M : Machine T W} {name : σ → StateId → Option T}
    {oinv : σ → Prop} (L : CacheLaw K cinv) (OL : OpLaw O M name oinv) {o : σ} (ho : oinv o) (h : List Query)
    (hf : Fair K O (fun _ => False) ⟨K.empty, o⟩ h) :
    (∃ n, Lz.compute K O n ((⟨K.empty, o⟩ : Lz C σ).run K O h).2 ≠ none) ↔ {t | M.Reach t}.Finite := by
  have hc := (run_coh L OL h _ _ (coh_fresh L ho) (fun _ hs => hs.elim) hf).1
  constructor
  · intro hn
    obtain ⟨F, z', _, _, _, _, _, _, h7, _⟩ := compute_core L OL hc (.inr hn)
    choose! g hg using h7
    refine Set.Finite.of_finite_image (f := g) (Set.Finite.subset (Set.finite_Iio F.numStates) ?_) ?_
    · rintro _ ⟨t, ht, rfl⟩
      exact (hg t ht).2.1
    · intro t ht u hu e
      have h1 := (hg t ht).1
      have h2 := (hg u hu).1
      rw [e, h2] at h1
      injection h1 with h1
      exact h1.symm
  · intro hfin
    obtain ⟨F, z', ⟨N, hN⟩, _⟩ := compute_core L OL hc (.inl hfin)
    refine ⟨N, fun h' => ?_⟩
    have := hN N (Nat.le_refl _)
    simp only [h'] at this
    cases this

/-- C38, on a fresh lazy FST over a state table: the static FST is the reachable part of the machine up to the names of the states.
All its states are reachable tuples, each once, numbered in the order of the search, and the
table says which. -/
theorem C38_present_table {τ : Type w} {find : τ → T → StateId × τ} {tup : τ → StateId → Option T} {size : τ → Nat} {inv : τ → Prop}
    {K : CacheOps W C} {cinv : C → Prop} (L : CacheLaw K cinv) (TL : TableLaw find tup size inv) {tuple : τ → StateId → R T}
    (ht : ∀ m s t, tuple m s = .ok t ↔ tup m s = some t) (O : TupleOp T W) (M : Machine T W) (hstart : O.start = .ok M.start)
    (htrs : ∀ t, M.Reach t → O.trs t = .ok (M.trs t)) (hfin : ∀ t, M.Reach t → O.fin t = .ok (M.fin t)) {o : τ} (ho : inv o)
    (hnew : ∀ s, tup o s = none) (hR : {t | M.Reach t}.Finite) :
    ∃ F z', EndsWith (fun n => Lz.compute K (O.withTable find tuple) n ⟨K.empty, o⟩) (.ok F, z') ∧ F.WF ∧ F.AllCounters ∧
      F.props = (if M.start = none then Props.nullMask else O.props) ∧ M.Presents (tup z'.op) F ∧ M.InSearchOrder (tup z'.op) := by
  have OL := TupleOp.numbered_law TL ht O M hstart htrs hfin
  have ho' : (inv o ∧ ∀ s t, tup o s = some t → M.Reach t) ∧ M.InSearchOrder (tup o) :=
    ⟨⟨ho, fun s t h => by rw [hnew] at h; cases h⟩, fun s t h => by rw [hnew] at h; cases h⟩
  obtain ⟨F, z', h1, h2, h3, h4, _, _, _, h8, h9⟩ := compute_core L OL (coh_fresh L ho') (.inl hR)
  have HT := TupleOp.tight TL ht O M htrs
  refine ⟨F, z', h1, h2, h3, h4, h8 ⟨fun o ho => HT.start o ho.1, fun o ho => HT.trs o ho.1, fun o ho => HT.fin o ho.1⟩ ?_ ?_ ?_, h9.2⟩
  · intro m hm s s' hs h
    exact (TL.dense m hm.1.1 s').1 (Nat.lt_of_le_of_lt hs ((TL.dense m hm.1.1 s).2 h))
  · exact hnew
  · exact L.start_empty

/-- C38, without the table. -/
theorem C38_present {τ : Type w} {find : τ → T → StateId × τ} {tup : τ → StateId → Option T} {size : τ → Nat} {inv : τ → Prop}
    {K : CacheOps W C} {cinv : C → Prop} (L : CacheLaw K cinv) (TL : TableLaw find tup size inv) {tuple : τ → StateId → R T}
    (ht : ∀ m s t, tuple m s = .ok t ↔ tup m s = some t) (O : TupleOp T W) (M : Machine T W) (hstart : O.start = .ok M.start)
    (htrs : ∀ t, M.Reach t → O.trs t = .ok (M.trs t)) (hfin : ∀ t, M.Reach t → O.fin t = .ok (M.fin t)) {o : τ} (ho : inv o)
    (hnew : ∀ s, tup o s = none) (hR : {t | M.Reach t}.Finite) :
    ∃ F z', EndsWith (fun n => Lz.compute K (O.withTable find tuple) n ⟨K.empty, o⟩) (.ok F, z') ∧ F.WF ∧ F.AllCounters ∧
      F.props = (if M.start = none then Props.nullMask else O.props) ∧ ∃ nm, M.Presents nm F ∧ M.InSearchOrder nm := by
  obtain ⟨F, z', h1, h2, h3, h4, h5, h6⟩ := C38_present_table L TL ht O M hstart htrs hfin ho hnew hR
  exact ⟨F, z', h1, h2, h3, h4, _, h5, h6⟩

/-- C38, partial correctness: whenever `compute` on a fresh lazy FST returns, it returns this FST, and finitely many tuples can be reached. -/
theorem C38_returns {τ : Type w} {find : τ → T → StateId × τ} {tup : τ → StateId → Option T} {size : τ → Nat} {inv : τ → Prop}
    {K : CacheOps W C} {cinv : C → Prop} (L : CacheLaw K cinv) (TL : TableLaw find tup size inv) {tuple : τ → StateId → R T}
    (ht : ∀ m s t, tuple m s = .ok t ↔ tup m s = some t) (O : TupleOp T W) (M : Machine T W) (hstart : O.start = .ok M.start)
    (htrs : ∀ t, M.Reach t → O.trs t = .ok (M.trs t)) (hfin : ∀ t, M.Reach t → O.fin t = .ok (M.fin t)) {o : τ} (ho : inv o)
    (hnew : ∀ s, tup o s = none) {n : Nat} {r : R (Fst W)} {z' : Lz C τ}
    (hr : Lz.compute K (O.withTable find tuple) n ⟨K.empty, o⟩ = some (r, z')) :
    {t | M.Reach t}.Finite ∧ ∃ F, r = .ok F ∧ F.WF ∧ F.AllCounters ∧
      F.props = (if M.start = none then Props.nullMask else O.props) ∧ ∃ nm, M.Presents nm F ∧ M.InSearchOrder nm := by
  have hR : {t | M.Reach t}.Finite := (C38_ends L (TupleOp.law TL ht O M hstart htrs hfin) (o := o)
    ⟨ho, fun s t h => by rw [hnew] at h; cases h⟩ [] trivial).1 ⟨n, by
      simp only [Lz.run]; rw [hr]; simp⟩
  obtain ⟨F, z2, ⟨N, hN⟩, h2, h3, h4, h5⟩ := C38_present L TL ht O M hstart htrs hfin ho hnew hR
  have : ∀ k, Lz.compute K (O.withTable find tuple) (n + k) ⟨K.empty, o⟩ = some (r, z') := by
    intro k
    induction k with
    | zero => exact hr
    | succ k ih => exact compute_more _ _ ih
  have h1 := hN (n + N) (by omega)
  simp only [this N, Option.some.injEq, Prod.mk.injEq] at h1
  exact ⟨hR, F, h1.1, h2, h3, h4, h5⟩

/-- C38, in terms of behaviour: the static FST has exactly the accepting paths of the lazy one, with multiplicity. -/
theorem C38_paths [Mul W] {K : CacheOps W C} {cinv : C → Prop} {O : LazyOp σ W} {M : Machine T W} {name : σ → StateId → Option T}
    {oinv : σ → Prop} (L : CacheLaw K cinv) (OL : OpLaw O M name oinv) {o : σ} (ho : oinv o) (h : List Query)
    (hf : Fair K O (fun _ => False) ⟨K.empty, o⟩ h) (hfin : {t | M.Reach t}.Finite) :
    ∃ F z', EndsWith (fun n => Lz.compute K O n ((⟨K.empty, o⟩ : Lz C σ).run K O h).2) (.ok F, z') ∧ F.WF ∧
      ∀ n, F.accPaths n = M.accPaths n := by
  obtain ⟨F, z', h1, h2, _, _, nm, h3, h4, h5⟩ := C38_compute L OL ho h hf hfin
  refine ⟨F, z', h1, h2, fun n => ?_⟩
  have hD : ∀ s t, M.Reach t → nm s = some t → List.Forall₂ (Names nm) (F.trsOf s) (M.trs t) ∧ F.finOf s = M.fin t := by
    intro s t ht hs
    obtain ⟨s', e, _, g1, g2, _⟩ := h5 t ht
    rw [h3 s s' t hs e]; exact ⟨g2, g1⟩
  have key := pathsFrom_named (F := F) (M := M) (nm := nm) (D := fun s => ∃ t, M.Reach t ∧ nm s = some t) (by
    rintro s ⟨t, ht, hs⟩
    exact ⟨t, hs, hD s t ht hs⟩) (by
    rintro s ⟨t, ht, hs⟩ tr htr
    obtain ⟨a, ha, hn⟩ := names_next (hD s t ht hs).1 tr htr
    exact ⟨a.next, .step ht ha, hn.2.2.2⟩)
  unfold Fst.accPaths Machine.accPaths
  cases hM : M.start with
  | none =>
    rw [hM] at h4
    generalize F.start = fs at h4
    cases h4; rfl
  | some t =>
    rw [hM] at h4
    generalize F.start = fs at h4
    cases h4 with
    | some e => exact key n _ t ⟨t, .start hM, e⟩ e

end compute

/-- C38, `states_iter`: for an operation with a state table and finitely many reachable tuples, iterating over the states at any
point of any history ends, and lists the ids `0, …, N - 1` once each; these are exactly the ids of the reachable tuples. -/
theorem C38_states_iter [DecidableEq T] {K : CacheOps W C} {cinv : C → Prop} (L : CacheLaw K cinv) (O : TupleOp T W) (M : Machine T W)
    (hstart : O.start = .ok M.start) (htrs : ∀ t, M.Reach t → O.trs t = .ok (M.trs t)) (hfin : ∀ t, M.Reach t → O.fin t = .ok (M.fin t))
    (h : List Query) (hf : Fair K (O.withTable BiMap.findId BiMap.findTuple) (fun _ => False) ⟨K.empty, BiMap.new⟩ h)
    (hR : {t | M.Reach t}.Finite) :
    ∃ N z', EndsWith (fun n => Lz.statesIter K (O.withTable BiMap.findId BiMap.findTuple) n
        ((⟨K.empty, BiMap.new⟩ : Lz C (BiMap T)).run K (O.withTable BiMap.findId BiMap.findTuple) h).2) (.ok (List.range N), z') ∧
      (∀ s, s < N → ∃ t, z'.op.findTuple s = .ok t ∧ M.Reach t) ∧ (∀ t, M.Reach t → ∃ s, s < N ∧ z'.op.findTuple s = .ok t) := by
  classical
  have OL := TupleOp.law BiMap.law BiMap.findTuple_eq O M hstart htrs hfin
  have hd : Dense (BiMap.tup (T := T)) (fun m => m.Ok ∧ ∀ s t, m.tup s = some t → M.Reach t) := by
    intro m hm s s' hs h
    exact (BiMap.law.dense m hm.1 s').1 (Nat.lt_of_le_of_lt hs ((BiMap.law.dense m hm.1 s).2 h))
  have hnew : (BiMap.new : BiMap T).Ok ∧ ∀ s t, (BiMap.new : BiMap T).tup s = some t → M.Reach t :=
    ⟨BiMap.ok_new, fun s t h => by simp [BiMap.tup, BiMap.new] at h⟩
  obtain ⟨z, hz⟩ : ∃ z, z = ((⟨K.empty, BiMap.new⟩ : Lz C (BiMap T)).run K (O.withTable BiMap.findId BiMap.findTuple) h).2 := ⟨_, rfl⟩
  have hcoh := (run_coh L OL h _ (fun _ => False) (coh_fresh L hnew) (fun _ hs => hs.elim) hf).1
  have hkn := known_run L OL hd h _ (fun _ => False) (coh_fresh L hnew) (knownOk_fresh L _) (fun _ hs => hs.elim) hf
  rw [← hz] at hcoh hkn
  rw [← hz]
  obtain ⟨h1, h2, r, h3, h4⟩ := start_coh L OL hcoh
  obtain ⟨k1, k2, k3⟩ := known_start_ok L OL hd hcoh hkn
  rcases hs : z.start K (O.withTable BiMap.findId BiMap.findTuple) with ⟨a, z1⟩
  rw [hs] at h1 h2 h3 h4 k1 k2 k3
  simp only at h1 h2 h3 h4 k1 k2 k3
  subst h3
  obtain ⟨R, hR'⟩ : ∃ R : List T, ∀ t, M.Reach t → t ∈ R := by
    refine ⟨hR.toFinset.toList, fun t ht => ?_⟩
    rw [Finset.mem_toList, Set.Finite.mem_toFinset]
    exact ht
  obtain ⟨z', N, e, d1, d2, d3, d4, d5, d6, d7⟩ := statesFrom_spec L OL hd R hR' (R.length + 1) 0 z1 h1 k1
    (fun q hq => by omega) (Nat.zero_le _) (by omega)
  refine ⟨N, z', ⟨R.length + 1, fun n hn => ?_⟩, ?_, ?_⟩
  · have hmore : ∀ n, R.length + 1 ≤ n → statesFrom K (O.withTable BiMap.findId BiMap.findTuple) n 0 z1 =
        some (.ok (List.range N), z') := by
      intro n hn
      induction n, hn using Nat.le_induction with
      | base => rw [e, Nat.sub_zero, List.range_eq_range']
      | succ n _ ih => exact statesFrom_more _ _ _ _ ih
    simp only [Lz.statesIter, hs]
    exact hmore n hn
  · intro s hs'
    obtain ⟨t, ht⟩ := Option.isSome_iff_exists.1 (d6.named s (d3 ▸ hs'))
    exact ⟨t, (BiMap.findTuple_eq _ _ _).2 ht, d1.op.2 s t ht⟩
  · intro t ht
    have : ∃ s, s < N ∧ z'.op.tup s = some t := by
      induction ht with
      | @start t e' =>
        rw [e'] at h4
        cases h4 with
        | @some s _ h => exact ⟨s, Nat.lt_of_lt_of_le (k3 s rfl) d5, d2 _ _ h⟩
      | @step t a _ ha ih =>
        obtain ⟨s, hs, hn⟩ := ih
        obtain ⟨p, hp, hpn⟩ := d7 s hs t hn a ha
        exact ⟨p, d3 ▸ hp, hpn⟩
    obtain ⟨s, hs, hn⟩ := this
    exact ⟨s, hs, (BiMap.findTuple_eq _ _ _).2 hn⟩

/-! ### A concrete case -/

/-- The reachable tuples of `exDownM` are finitely many. -/
theorem exDownM_finite : {t | exDownM.Reach t}.Finite := by
  have : ∀ t, exDownM.Reach t → t ∈ (({(0, 0), (0, 1), (1, 0), (1, 1)} : Finset (Nat × Nat)) : Set (Nat × Nat)) := by
    intro t ht
    induction ht with
    | start e => simp only [exDownM, Option.some.injEq] at e; subst e; simp
    | @step t a _ ha ih =>
      simp only [Finset.coe_insert, Finset.coe_singleton, Set.mem_insert_iff, Set.mem_singleton_iff] at ih
      rcases ih with rfl | rfl | rfl | rfl <;> simp [exDownM] at ha <;> (try rcases ha with rfl | rfl) <;> (try subst ha) <;> simp
  exact Set.Finite.subset (Finset.finite_toSet _) this

/-- The hypotheses are met: `compute` after some queries ends with the paths of the machine. -/
example : ∃ F z', EndsWith (fun n => Lz.compute vecCache (exDown.withTable BiMap.findId BiMap.findTuple) n
    ((⟨vecCache.empty, BiMap.new⟩ : Lz _ _).run vecCache (exDown.withTable BiMap.findId BiMap.findTuple) []).2) (.ok F, z') ∧ F.WF ∧ ∀ n, F.accPaths n = exDownM.accPaths n := by
  obtain ⟨inv, h1, h2⟩ := C36_table_op exDown exDownM rfl (fun _ _ => rfl) (fun _ _ => rfl)
  exact C38_paths vecCache_law h1 h2 [] trivial exDownM_finite

/-- The hypotheses of `C38_present` are met. -/
example : ∃ F z', EndsWith (fun n => Lz.compute vecCache (exDown.withTable BiMap.findId BiMap.findTuple) n ⟨vecCache.empty, BiMap.new⟩) (.ok F, z') ∧
    F.WF ∧ F.AllCounters ∧ F.props = (if exDownM.start = none then Props.nullMask else exDown.props) ∧ ∃ nm, exDownM.Presents nm F ∧ exDownM.InSearchOrder nm :=
  C38_present vecCache_law BiMap.law BiMap.findTuple_eq exDown exDownM rfl (fun _ _ => rfl) (fun _ _ => rfl) BiMap.ok_new
    (fun s => by simp [BiMap.tup, BiMap.new]) exDownM_finite

/-- And it is the expected FST: four states, numbered in the order of the search. -/
example : ((Lz.compute vecCache (exDown.withTable BiMap.findId BiMap.findTuple) 5 ⟨vecCache.empty, BiMap.new⟩).map (fun p => p.1)) =
    some (.ok ⟨[⟨none, [⟨1, 0, 2, 1⟩, ⟨2, 2, 3, 2⟩], 0, 1⟩, ⟨none, [⟨2, 2, 3, 3⟩], 0, 0⟩, ⟨none, [⟨1, 0, 2, 3⟩], 0, 1⟩, ⟨some 1, [], 0, 0⟩],
      some 0, Props.nullMask⟩) := by rfl

end Verif
