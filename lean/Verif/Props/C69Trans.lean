import Verif.Props.C69
import Mathlib.Algebra.BigOperators.Intervals

/-!
# C69: `optimize` on deterministic transducers
-/

namespace Verif
open Fst
universe u

section
variable {W : Type u} [Semiring W]

theorem sumOf_zero' (x y : List Label) : sumOf (0 : Multiset (PathT W)) x y = 0 := by simp [sumOf]

theorem sumOf_sum' {ι : Type*} (s : Finset ι) (A : ι → Multiset (PathT W)) (x y : List Label) : sumOf (∑ i ∈ s, A i) x y = ∑ i ∈ s, sumOf (A i) x y := by
  classical
  induction s using Finset.induction_on with
  | empty => simp [sumOf]
  | insert a s ha ih =>
    rw [Finset.sum_insert ha, Finset.sum_insert ha, ← ih]
    simp [sumOf, Multiset.filter_add]

theorem sumOf_none {A : Multiset (PathT W)} {x y : List Label} (h : ∀ p ∈ A, ¬ (p.1 = x ∧ p.2.1 = y)) : sumOf A x y = 0 := by
  unfold sumOf
  rw [Multiset.filter_eq_nil.2 h]
  rfl

/-- The same paths with more transitions have the same totals. -/
theorem SameTotals.of_paths {f g h : Fst W} (a : f.SameTotals g) (hn : g.NoEpsTr) (b : SamePathsDelayed g h) : f.SameTotals h := by
  intro x y
  obtain ⟨v, h1, N, hN⟩ := a x y
  obtain ⟨part, p1, p2⟩ := b
  choose D d1 d2 using p2
  have far : ∀ n, x.length + y.length < n → ∀ p ∈ g.accPaths n, ¬ (p.1 = x ∧ p.2.1 = y) := by
    rintro n hl p hp ⟨e1, e2⟩
    unfold accPaths at hp
    cases hs : g.start with
    | none => rw [hs] at hp; simp at hp
    | some i =>
      rw [hs] at hp
      have := pathsFrom_length hn n i p hp
      rw [e1, e2] at this
      omega
  have z1 : ∀ n k, x.length + y.length < n → sumOf (part n k) x y = 0 := by
    intro n k hl
    by_cases hk : D n ≤ k
    · rw [d1 n k hk, sumOf_zero']
    · refine sumOf_none fun p hp => far n hl p ?_
      rw [← d2 n]
      exact Multiset.mem_of_le (Finset.single_le_sum (f := fun k => part n k) (fun _ _ => Multiset.zero_le _) (Finset.mem_range.2 (by omega))) hp
  let E := (Finset.range (x.length + y.length + 1)).sup D
  have hE : ∀ n, n ≤ x.length + y.length → D n ≤ E := fun n hl => Finset.le_sup (f := D) (Finset.mem_range.2 (by omega))
  refine ⟨v, h1, N + (x.length + y.length + 1) + E, fun M hM => ?_⟩
  rw [← hN M (by omega)]
  have e1 : ∀ m, h.weightOf m x y = ∑ n ∈ Finset.range (m + 1), sumOf (part n (m - n)) x y := by
    intro m
    rw [← sumOf_sum', ← p1]
    rfl
  simp only [e1]
  rw [Finset.sum_range_diag_flip M fun n k => sumOf (part n k) x y]
  refine Finset.sum_congr rfl fun n hn' => ?_
  by_cases hl : x.length + y.length < n
  · rw [Finset.sum_eq_zero fun k _ => z1 n k hl]
    exact (sumOf_none (far n hl)).symm
  · have hD := hE n (by omega)
    have : ∑ k ∈ Finset.range (M - n), sumOf (part n k) x y = ∑ k ∈ Finset.range (D n), sumOf (part n k) x y := by
      symm
      refine Finset.sum_subset (Finset.range_mono (by omega)) fun k _ hk => ?_
      rw [d1 n k (by simpa using hk), sumOf_zero']
    rw [this, ← sumOf_sum', d2]
    rfl

end

section
variable {K : Type} [Field K] [LinearOrder K] [IsStrictOrderedRing K] [FloorRing K]
variable {delta delta' : K} {ord : DTup (TW K) → Label → List (DElt (TW K)) → List (DElt (TW K))}
  {ordT : DTup (RG (TW K)) → Label → List (DElt (RG (TW K))) → List (DElt (RG (TW K)))}
  {merge : List (List (Tr (TW K))) → List (Tr (TW K))} {mergeT : List (List (Tr (StrR × TW K))) → List (Tr (StrR × TW K))} {f : Fst (TW K)}

/-- **C69**, deterministic transducers. A transducer flagged `NO_EPSILONS`, `I_DETERMINISTIC` and `ACYCLIC` and not flagged `ACCEPTOR`, the weights of which are finite
and not changed by rounding; a final state has no transition that reads ε. `optimize` succeeds. The result gives every pair of strings the same weight, has at most one
transition for each state and input label other than ε, and its flags are right. -/
theorem C69_deterministic_transducer_partial (hd' : delta' ≠ 0) (hmg : HeapMerge merge) (hmg' : HeapMerge mergeT) (hw : f.WF) (tf : f.Truthful) (hs : f.start ≠ none)
    (ha : f.props .acceptor = false) (hne : f.props .noEpsilons = true) (hdet : f.props .iDeterministic = true) (hac : f.props .acyclic = true)
    (he : ∀ s, f.IsFinal s → ∀ t ∈ f.trsOf s, t.ilabel ≠ EPS) (hf : f.WeightsIn (OnBothGrids delta delta')) :
    ∃ h, EndsWith ((tropEnv delta delta' ord ordT merge mergeT).optimize f) (.ok h) ∧ f.SameTotals h ∧ h.WF ∧ h.Truthful ∧ h.InputDeterministicUpToEps := by
  obtain ⟨g, g1, G⟩ := prepare_spec (e := tropEnv delta delta' ord ordT merge mergeT) (f := f) rfl (fun a b => decide_eq_true_iff) rfl (fun _ => trop_idem) hw tf hs
    (.inl hne)
  have eg : g = f.trSum := by
    obtain ⟨N, hN⟩ := g1
    have := hN N (Nat.le_refl _)
    simp only [OptEnv.prepare, hne, if_true, andThen, Option.some.injEq, Except.ok.injEq] at this
    exact this.symm
  have gD := G.det hne hdet
  have gC := G.acyclic hac (.inl hne)
  have gW := G.weights _ exact_one exact_closed hf
  obtain ⟨s1, s2, s3, -, s5, -⟩ := C13_tr_sum f
  have ends : ∀ h, EndsWith ((tropEnv delta delta' ord ordT merge mergeT).minimize g) (.ok h) →
      EndsWith ((tropEnv delta delta' ord ordT merge mergeT).optimize f) (.ok h) := by
    intro h hh
    have := endsWith_andThen (a := (tropEnv delta delta' ord ordT merge mergeT).prepare f) (b := fun g n =>
      if !(tropEnv delta delta' ord ordT merge mergeT).idempotent then
        if !g.props .iDeterministic then
          if g.props .acyclic then (tropEnv delta delta' ord ordT merge mergeT).encodeDeterMiniDecode .encodeLabels g n else some (.ok g)
        else (tropEnv delta delta' ord ordT merge mergeT).minimize g n
      else if !g.props .iDeterministic then
        if !(g.props .acyclic || g.props .unweighted || g.props .unweightedCycles) then
          andThen ((tropEnv delta delta' ord ordT merge mergeT).encodeDeterMiniDecode .encodeWeightsAndLabels g n) fun h => some (.ok h.trSum)
        else (tropEnv delta delta' ord ordT merge mergeT).encodeDeterMiniDecode .encodeLabels g n
      else (tropEnv delta delta' ord ordT merge mergeT).minimize g n) (x := g) (y := .ok h) g1 (by simpa [gD] using hh)
    obtain ⟨N, hN⟩ := this
    refine ⟨N, fun n hn => ?_⟩
    unfold OptEnv.optimize
    rw [ha]
    exact hN n hn
  by_cases hA : g.Holds .acceptor
  · have ne : ∀ s, ∀ t ∈ g.trsOf s, t.ilabel ≠ EPS := by
      intro s t ht h0
      have h1 := G.noEps s t ht
      have h2 : t.ilabel = t.olabel := hA s t ht
      simp [isEps, ← h2, h0] at h1
    obtain ⟨h, h1, h2⟩ := opt_minimize (ord := ord) (ordT := ordT) (mergeT := mergeT) hd' hmg G.same G.wf G.truthful G.start
      (.inl (noCycles_of_acyclic (G.truthful _ gC) _)) gW (G.truthful _ gD) hA ne
    exact ⟨h, ends h h1, h2.same, h2.wf, h2.truthful, fun s => (h2.det s).filter _⟩
  · obtain ⟨h, h1, h2, h3, -, h5, h6⟩ := C62_tropical (eqv := fun a b => decide (b = a)) hd' (fun a b => decide_eq_true_iff) hmg hmg' delta false G.wf G.truthful
      (by rw [eg, s2]; exact hs) (G.truthful _ gC) (gW.mono fun w ⟨x, hx, e⟩ => ⟨x, hx.2, e⟩) (G.truthful _ gD) hA
      (by
        intro s hfs t ht
        rw [eg] at hfs ht
        obtain ⟨u, hu, e⟩ := List.mem_map.1 ((s5 s _).1 (List.mem_map_of_mem ht))
        simp only [Prod.mk.injEq] at e
        rw [← e.1]
        refine he s ?_ u hu
        unfold IsFinal at hfs ⊢
        rwa [s3] at hfs)
    exact ⟨h, ends h h1, SameTotals.of_paths G.same G.noEps h2, h3, h5, h6⟩

end

/-- `exMinT` with the flags its computed properties have. -/
def exOptT : Fst (TW ℚ) := { exMinT with props := Props.of [.notAcceptor, .iDeterministic, .noEpsilons, .acyclic] }

/-- It meets the hypotheses of `C69_deterministic_transducer_partial`. -/
example : exOptT.WF ∧ exOptT.Truthful ∧ exOptT.start ≠ none ∧ exOptT.props .acceptor = false ∧ exOptT.props .noEpsilons = true ∧
    exOptT.props .iDeterministic = true ∧ exOptT.props .acyclic = true ∧ (∀ s, exOptT.IsFinal s → ∀ t ∈ exOptT.trsOf s, t.ilabel ≠ EPS) ∧
    exOptT.WeightsIn (OnBothGrids 1 1) := by
  have key : ∀ s < 4, (∀ t ∈ exOptT.trsOf s, (∃ x ∈ List.range 10, t.weight = TW.fin (((x : ℤ)) : ℚ)) ∧ s < t.nextstate ∧ t.ilabel ≠ EPS) ∧
      ∀ w ∈ exOptT.finOf s, ∃ x ∈ List.range 10, w = TW.fin (((x : ℤ)) : ℚ) := by decide +kernel
  have key1 := fun s t (ht : t ∈ exOptT.trsOf s) => (key s (lt_of_mem_trsOf ht)).1 t ht
  refine ⟨Fst.wf_of_wfB (by decide), ?_, by decide, by decide, by decide, by decide, by decide, fun s _ t ht => (key1 s t ht).2.2, fun s t ht => ?_, fun s w hw => ?_⟩
  · intro b hb
    cases b <;> first | (exact absurd hb (by decide)) | skip
    · exact fun h => absurd (h 0 ⟨1, 0, .fin 4, 1⟩ (by decide +kernel)) (by decide)
    · exact deterministic_of_b (f := exOptT) (by decide)
    · rintro ⟨s, t, ht, h, -⟩
      exact (key1 s t ht).2.2 h
    · exact Fst.acyclic_of_topSorted (f := exOptT) fun s t h => (key1 s t h).2.1
  · obtain ⟨⟨x, -, hx⟩, -⟩ := key1 s t ht
    rw [hx]; exact onGrids_int _
  · obtain ⟨x, -, hx⟩ := (key s (IsFinal.lt (by unfold IsFinal; rw [hw]; rfl))).2 w hw
    rw [hx]; exact onGrids_int _

/-- What `optimize` makes of it. -/
example : (match exEnv.optimize exOptT 20 with
    | some (.ok g) => decide (g.numStates = 3 ∧ g.start = some 0 ∧ g.trsOf 0 = [⟨1, 6, .fin 5, 1⟩, ⟨2, 7, .fin 5, 1⟩] ∧
        g.trsOf 1 = [⟨3, 0, .fin 0, 2⟩, ⟨4, 0, .fin 3, 2⟩] ∧ g.finOf 2 = some (.fin 0))
    | _ => false) = true := by
  unfold OptEnv.optimize OptEnv.optimizeTransducer OptEnv.prepare OptEnv.encodeDeterMiniDecode OptEnv.determinize exEnv tropEnv minimizeWith minimizeTransducer
    minimizeWeighted minimizeEncoded acceptorMinimize cyclicPartition
  simp only [trSort_eval, trUnique_eval, trSum_eval]
  decide +kernel

/-! ## The test for unweighted FSTs -/

/-- Defect: `tr_sum` clears the flags `UNWEIGHTED` and `UNWEIGHTED_CYCLES` of every FST with a state, so the test for them that follows in `optimize` never succeeds. -/
theorem C69_unweighted_test_defect {W : Type u} [Semiring W] (f : Fst W) (h : f.numStates ≠ 0) :
    f.trSum.props .unweighted = false ∧ f.trSum.props .unweightedCycles = false := by
  have hn : f.trSum.numStates = f.numStates := (C13_tr_sum f).1
  unfold Fst.trSum at hn ⊢
  simp only [setPropsMask_all] at hn ⊢
  rw [if_neg (by rw [← hn] at h; exact h)]
  exact ⟨by simp [setProps, show Props.weightInvariantMask .unweighted = false from rfl],
    by simp [setProps, show Props.weightInvariantMask .unweightedCycles = false from rfl]⟩

/-- The acceptor of the strings of ones of odd length, without weights. -/
def exLoopU : Fst (TW ℚ) :=
  (((((((Fst.new.addStates 3).setStart 0).setFinal 1 (.fin 0)).addTr 0 ⟨1, 1, .fin 0, 1⟩).addTr 0 ⟨1, 1, .fin 0, 2⟩).addTr 1 ⟨1, 1, .fin 0, 0⟩).addTr 2 ⟨1, 1, .fin 0, 0⟩)

/-- Defect: for this reason `optimize` panics even on an acceptor flagged `UNWEIGHTED`, for which `determinize` would succeed (see `C69_acceptor_panic`). -/
theorem C69_unweighted_panic : exLoopU.WF ∧ exLoopU.Truthful ∧ exLoopU.props .acceptor = true ∧ exLoopU.props .noEpsilons = true ∧ exLoopU.props .unweighted = true ∧
    exEnv.optimize exLoopU 30 = some (.error .panic) := by
  refine ⟨Fst.wf_of_wfB (by decide), ?_, by decide, by decide, by decide +kernel, ?_⟩
  · unfold exLoopU
    repeat' first
      | apply truthful_new
      | (refine truthful_addTr ?_ (by decide) _)
      | (refine truthful_setFinal ?_ (by decide) _)
      | apply truthful_setStart
      | apply truthful_addStates
  · have : (match exEnv.optimize exLoopU 30 with | some (.error .panic) => true | _ => false) = true := by
      unfold OptEnv.optimize OptEnv.optimizeAcceptor OptEnv.prepare OptEnv.encodeDeterMiniDecode OptEnv.determinize exEnv tropEnv minimizeWith minimizeTransducer
        minimizeWeighted minimizeEncoded acceptorMinimize cyclicPartition
      simp only [trSort_eval, trUnique_eval, trSum_eval]
      decide +kernel
    split at this
    · next h => exact h
    · cases this

end Verif
