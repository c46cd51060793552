import Verif.Lemmas.RmEpsLazy
import Verif.Lemmas.RandFan

/-!
# C72: delayed removal of epsilon transitions (`RmEpsilonFst`)

The hypotheses are those of C35: the ε-transitions form no cycle, or the weights are idempotent and going around an ε-cycle never adds
anything; and `EpsPositive`.
-/

namespace Verif
universe u
set_option linter.unusedSectionVars false
open Fst Dfs RmEps Lz

section
variable {W : Type u} [Semiring W] [DecidableEq W]

/-- C72: whatever is asked, in whatever order and however often, the answers are those of one fixed FST. It has no ε-transition and
gives every pair of strings the weight it had, and the flags which the delayed FST reports are true of it. Then `compute` returns the
part of it that can be reached. -/
theorem C72_delayed {sf : SemiringFlags} {eqv : W → W → Bool} {f : Fst W} (hexact : ∀ a b, eqv a b = true ↔ b = a) (hsf : sf.right = true)
    (hw : f.WF) {i : StateId} (hi : f.start = some i) (hp : f.EpsPositive)
    (hcase : f.NoCycles isEps ∨ ((∀ a : W, a + a = a) ∧ f.CyclesAbsorbed isEps)) (h : List Query2) (hq : ∀ q ∈ h, q.Below f.numStates) :
    ∃ g F : Fst W,
      (∃ N, ∀ n, N ≤ n → (rmEpsilonFst.run2 mapCache (rmEpsOp eqv sf f n) h).1 = g.answers [] h) ∧
      EndsWith (fun n => ((rmEpsilonFst.run2 mapCache (rmEpsOp eqv sf f n) h).2.compute2 mapCache (rmEpsOp eqv sf f n) n).map (·.1)) (.ok F) ∧
      (g.WF ∧ g.NoEpsTr ∧ g.numStates = f.numStates ∧ g.start = f.start ∧ g.props = f.props.rmepsilon true ∧ (f.Truthful → g.Truthful) ∧
        ∀ x y, ∃ v, f.IsWeight x y v ∧ g.IsWeight x y v) ∧
      (F.WF ∧ F.NoEpsTr ∧ F.AllCounters ∧ F.start = f.start ∧ (f.Truthful → F.Truthful) ∧
        (∀ s, g.Accessible s → s < F.numStates ∧ F.trsOf s = g.trsOf s ∧ F.finOf s = g.finOf s) ∧
        ∀ x y, ∃ v, f.IsWeight x y v ∧ F.IsWeight x y v) := by
  obtain ⟨hc, S, hS⟩ := solver_fifo hw hcase
  have hrest : Rest S ⟨fifoOps, eqv, isEps, true⟩ (RmEps.new []) := Rest.new hS
  obtain ⟨d, hd⟩ := epsDist S hexact hp hi (Below.refl hw) hrest
  have H := rmEpsOp_law S hexact hsf hw hp hi
  obtain ⟨z1, rows1, N1, a1, a2, a3⟩ := run2_spec (mapCache_law (W := W)) H h (coh2_new mapCache_law hrest) asked_new hq
  obtain ⟨vis, out, z2, rows2, N2, b1, b2, b3, b4⟩ := compute2_spec (mapCache_law (W := W)) H a1 hi
  obtain ⟨x, c1, c2⟩ := complete2 H b1
  have hnum := rowsFst_num (n := f.numStates) (st := f.start) (P := f.props.rmepsilon true) x
  have htrs := rowsFst_trs (n := f.numStates) (st := f.start) (P := f.props.rmepsilon true) x
  have hfin := rowsFst_fin (n := f.numStates) (st := f.start) (P := f.props.rmepsilon true) x
  have hstart : (rowsFst f.numStates f.start (f.props.rmepsilon true) x).start = f.start := rfl
  have hprops : (rowsFst f.numStates f.start (f.props.rmepsilon true) x).props = f.props.rmepsilon true := rfl
  generalize rowsFst f.numStates f.start (f.props.rmepsilon true) x = g at *
  have hrow : ∀ s, s < f.numStates → EpsRow f s (g.trsOf s, g.finOf s) := by
    intro s hs
    rw [htrs, hfin, if_pos hs, if_pos hs]
    exact c1 s hs
  obtain ⟨gno, gw, gwt⟩ := rows_weights hw hi hc hd hnum hstart (g := g) fun s hs => (hrow s hs).ok
  have hgF : ∀ s ∈ vis, out.trsOf s = g.trsOf s ∧ out.finOf s = g.finOf s ∧ ∀ t ∈ g.trsOf s, t.nextstate ∈ vis := by
    intro s hs
    obtain ⟨y, e1, e2, e3, e4⟩ := b3.done s hs (by simp)
    obtain ⟨k1, k2⟩ := c2 s y e1
    exact ⟨e2.trans k1.symm, e3.trans k2.symm, by rw [k1]; exact e4⟩
  have hempty : ∀ s, s ∉ vis → out.trsOf s = [] := fun s hs => (b3.todo s (.inl hs)).1
  have horig : ∀ s, ∀ u ∈ g.trsOf s, ∃ q, Relation.ReflTransGen (KEdge f isEps) s q ∧ ∃ t ∈ f.trsOf q, isEps t = false ∧ u.elem = t.elem := by
    intro s u hu
    exact (hrow s (hnum ▸ lt_of_mem_trsOf hu)).orig u hu
  have hmem : ∀ s, ∀ u ∈ out.trsOf s, s ∈ vis ∧ u ∈ g.trsOf s := by
    intro s u hu
    by_cases hs : s ∈ vis
    · exact ⟨hs, (hgF s hs).1 ▸ hu⟩
    · rw [hempty s hs] at hu; cases hu
  refine ⟨g, out.setProps (f.props.rmepsilon true), ⟨N1, fun n hn => ?_⟩, ⟨max N1 (max N2 (f.numStates + 1)), fun n hn => ?_⟩,
    ⟨gw, gno, hnum, hstart, hprops, fun ht => ?_, gwt⟩, ⟨⟨fun j hj => ?_, fun s t ht => ?_⟩, fun s t ht => ?_, ?_, ?_, fun ht => ?_, ?_, fun a b => ?_⟩⟩
  · have := a3 g hstart (fun s y e => c2 s y (b2 s y e)) n hn
    unfold rmEpsilonFst
    rw [this]
  · have := a3 g hstart (fun s y e => c2 s y (b2 s y e)) n (by omega)
    unfold rmEpsilonFst
    simp only [this]
    rw [b4 n (by omega) n (by omega)]
    rfl
  · exact delayed_rmepsilon_flags (fun s => s < f.numStates) hstart horig (fun s hs => (hrow s hs).all)
      (fun s hs u hu => hnum ▸ gw.next_lt s u hu) (fun j hj => hw.start_lt j hj) ht hprops
  · obtain rfl : i = j := Option.some.inj (b3.start.symm.trans hj)
    exact (b3.vis_lt i b3.first).2
  · obtain ⟨hs, hu⟩ := hmem s t ht
    exact (b3.vis_lt _ ((hgF s hs).2.2 t hu)).2
  · exact gno s t (hmem s t ht).2
  · exact b3.counters
  · exact b3.start.trans hi.symm
  · refine delayed_rmepsilon_flags (F := out.setProps (f.props.rmepsilon true)) (fun s => s ∈ vis) (b3.start.trans hi.symm)
      (fun s u hu => horig s u (hmem s u hu).2) (fun s hs q hsq t htq hk => ?_) (fun s hs u hu => (hgF s hs).2.2 u (hmem s u hu).2)
      (fun j hj => ?_) ht rfl
    · obtain ⟨u, hu, e⟩ := (hrow s (b3.vis_lt s hs).1).all q hsq t htq hk
      exact ⟨u, by show u ∈ out.trsOf s; rw [(hgF s hs).1]; exact hu, e⟩
    · obtain rfl : i = j := Option.some.inj (hi.symm.trans hj)
      exact b3.first
  · rintro s ⟨j, hj, hr⟩
    have hsv : s ∈ vis := by
      induction hr with
      | refl =>
        obtain rfl : i = j := Option.some.inj (hi.symm.trans (hstart.symm.trans hj))
        exact b3.first
      | tail _ hbc ih =>
        obtain ⟨t, ht, rfl⟩ := hbc
        exact (hgF _ ih).2.2 t ht
    exact ⟨(b3.vis_lt s hsv).2, (hgF s hsv).1, (hgF s hsv).2.1⟩
  · obtain ⟨v, h1, N, hN⟩ := gwt a b
    refine ⟨v, h1, N, fun n hn => ?_⟩
    rw [← hN n hn]
    refine Finset.sum_congr rfl fun k _ => ?_
    have : (out.setProps (f.props.rmepsilon true)).pathsFrom k i = g.pathsFrom k i :=
      pathsFrom_closed (g := out.setProps (f.props.rmepsilon true)) (fun s => s ∈ vis) (fun s hs => (hgF s hs).1) (fun s hs => (hgF s hs).2.1) (fun s hs => (hgF s hs).2.2) k i b3.first
    unfold weightOf
    rw [accPaths_some (show (out.setProps (f.props.rmepsilon true)).start = some i from b3.start), accPaths_some (hstart.trans hi), this]

/-- C72: an FST without start state gives one without states. -/
theorem C72_startless {sf : SemiringFlags} {eqv : W → W → Bool} {f : Fst W} (hi : f.start = none) (n : Nat) :
    (rmEpsilonFst.compute2 mapCache (rmEpsOp eqv sf f n) n).map (·.1) = some (.ok Fst.new) := by
  have : rmEpsilonFst.start2 mapCache (rmEpsOp eqv sf f n) = (.ok none, ⟨mapCache.insertStart mapCache.empty none, RmEps.new []⟩) := by
    unfold start2 rmEpsilonFst
    simp only [show mapCache.getStart (mapCache.empty : MapCache W) = none from mapCache_law.start_empty, rmEpsOp, hi]
  unfold compute2
  rw [this]
  rfl

end

/-- C72 for tropical weights: the weights of the ε-transitions are finite and not negative. -/
theorem C72_tropical {K : Type u} [LinearOrder K] [AddCommMonoid K] [IsOrderedAddMonoid K] {eqv : TW K → TW K → Bool} {f : Fst (TW K)}
    (hexact : ∀ a b, eqv a b = true ↔ b = a) (hw : f.WF) {i : StateId} (hi : f.start = some i)
    (hpos : ∀ s, ∀ t ∈ f.trsOf s, isEps t = true → ∃ x : K, 0 ≤ x ∧ t.weight = .fin x) (h : List Query2) (hq : ∀ q ∈ h, q.Below f.numStates) :
    ∃ g F : Fst (TW K),
      (∃ N, ∀ n, N ≤ n → (rmEpsilonFst.run2 mapCache (rmEpsOp eqv (TW.ops (K := K)).flags f n) h).1 = g.answers [] h) ∧
      EndsWith (fun n => ((rmEpsilonFst.run2 mapCache (rmEpsOp eqv (TW.ops (K := K)).flags f n) h).2.compute2 mapCache
        (rmEpsOp eqv (TW.ops (K := K)).flags f n) n).map (·.1)) (.ok F) ∧
      g.NoEpsTr ∧ F.NoEpsTr ∧ (f.Truthful → g.Truthful ∧ F.Truthful) ∧
      ∀ x y, ∃ v, f.IsWeight x y v ∧ g.IsWeight x y v ∧ F.IsWeight x y v := by
  have hid : ∀ a : TW K, a + a = a := fun a => by
    change TW.plus a a = a
    cases a <;> simp [TW.plus_fin]
  obtain ⟨g, F, h1, h2, h3, h4⟩ := C72_delayed (sf := (TW.ops (K := K)).flags) hexact rfl hw hi
    ⟨fun w => ∃ x : K, 0 ≤ x ∧ w = .fin x, ⟨0, le_refl _, rfl⟩, by
      rintro ⟨x, -, h⟩
      exact absurd (show (TW.inf : TW K) = TW.fin x from h) (by simp), by
      rintro a b ⟨x, hx, rfl⟩ ⟨y, hy, rfl⟩
      exact ⟨⟨min x y, le_min hx hy, TW.plus_fin ..⟩, ⟨x + y, add_nonneg hx hy, TW.fin_fin ..⟩⟩, hpos⟩
    (.inr ⟨hid, TW.cyclesAbsorbed_keep isEps fun s t ht hk => by
      obtain ⟨x, hx, e⟩ := hpos s t ht hk
      rw [e]
      exact hx⟩) h hq
  refine ⟨g, F, h1, h2, h3.2.1, h4.2.1, fun ht => ⟨h3.2.2.2.2.2.1 ht, h4.2.2.2.2.1 ht⟩, fun x y => ?_⟩
  obtain ⟨v, e1, N1, e2⟩ := h3.2.2.2.2.2.2 x y
  obtain ⟨v', ⟨N3, e3⟩, N2, e4⟩ := h4.2.2.2.2.2.2 x y
  have e1' := e1
  obtain ⟨N0, e0⟩ := e1'
  have : v = v' := by rw [← e0 (max N0 N3) (by omega), e3 (max N0 N3) (by omega)]
  subst this
  exact ⟨v, e1, ⟨N1, e2⟩, ⟨N2, e4⟩⟩

/-! ## A state of an FST without start state -/

/-- Asking for the transitions of a state of an FST without start state panics: the vector of distances is empty. -/
theorem C72_startless_panics : (match (rmEpsilonFst.getTrs2 mapCache
    (rmEpsOp (fun a b => decide (b = a)) (TW.ops (K := Nat)).flags ((Fst.new : Fst (TW Nat)).addStates 1) 30) 0).1 with
    | .error .panic => true | _ => false) = true := by
  decide +kernel

/-! ## Examples -/

/-- The ε-cycle of `exEpsCycle`, asked for state 2, then state 1, then the counters, then all. -/
example : ∃ g F : Fst (TW Nat),
    (∃ N, ∀ n, N ≤ n → (rmEpsilonFst.run2 mapCache (rmEpsOp (fun a b => decide (b = a)) (TW.ops (K := Nat)).flags exEpsCycle n)
      [.trs 2, .numTrs 2, .numTrs 1, .fin 1, .start, .numTrs 1]).1 = g.answers [] [.trs 2, .numTrs 2, .numTrs 1, .fin 1, .start, .numTrs 1]) ∧
    EndsWith (fun n => ((rmEpsilonFst.run2 mapCache (rmEpsOp (fun a b => decide (b = a)) (TW.ops (K := Nat)).flags exEpsCycle n)
      [.trs 2, .numTrs 2, .numTrs 1, .fin 1, .start, .numTrs 1]).2.compute2 mapCache
        (rmEpsOp (fun a b => decide (b = a)) (TW.ops (K := Nat)).flags exEpsCycle n) n).map (·.1)) (.ok F) ∧
    g.NoEpsTr ∧ F.NoEpsTr ∧ (exEpsCycle.Truthful → g.Truthful ∧ F.Truthful) ∧
    ∀ x y, ∃ v, exEpsCycle.IsWeight x y v ∧ g.IsWeight x y v ∧ F.IsWeight x y v := by
  refine C72_tropical (by simp) (Fst.wf_of_wfB (by decide)) rfl ?_ _ ?_
  · intro s
    by_cases hs : s < 4
    · have : ∀ s < 4, ∀ t ∈ exEpsCycle.trsOf s, t.weight ≠ .negInf ∧ t.weight ≠ .inf := by decide +kernel
      intro t ht _
      have h := this s hs t ht
      match ht' : t.weight with
      | .fin x => exact ⟨x, Nat.zero_le x, rfl⟩
      | .negInf => exact absurd ht' h.1
      | .inf => exact absurd ht' h.2
    · rw [trsOf_eq, List.getElem?_eq_none (show exEpsCycle.states.length ≤ s from Nat.le_of_not_lt hs)]
      intro t ht; cases ht
  · intro q hq
    simp only [List.mem_cons, List.not_mem_nil, or_false] at hq
    have hn : exEpsCycle.numStates = 4 := by decide
    rw [hn]
    rcases hq with rfl | rfl | rfl | rfl | rfl | rfl <;> simp [Query2.Below]

/-- Weights that are not idempotent: the ε-transitions of `exEpsNat` form no cycle. -/
example : ∃ g F : Fst Nat,
    (∃ N, ∀ n, N ≤ n → (rmEpsilonFst.run2 mapCache (rmEpsOp (fun a b => decide (b = a)) ⟨true, true, true, false, false⟩ exEpsNat n)
      [.trs 1, .trs 0, .trs 1]).1 = g.answers [] [.trs 1, .trs 0, .trs 1]) ∧
    g.NoEpsTr ∧ F.NoEpsTr ∧ ∀ x y, ∃ v, exEpsNat.IsWeight x y v ∧ F.IsWeight x y v := by
  have hall : ∀ s, ∀ t ∈ exEpsNat.trsOf s, s < t.nextstate ∧ 0 < t.weight := by
    intro s
    by_cases hs : s < 4
    · have : ∀ s < 4, ∀ t ∈ exEpsNat.trsOf s, s < t.nextstate ∧ 0 < t.weight := by decide +kernel
      exact this s hs
    · rw [trsOf_eq, List.getElem?_eq_none (show exEpsNat.states.length ≤ s from Nat.le_of_not_lt hs)]
      intro t ht; cases ht
  obtain ⟨g, F, h1, -, h3, h4⟩ := C72_delayed (f := exEpsNat) (sf := ⟨true, true, true, false, false⟩) (eqv := fun a b => decide (b = a)) (by simp) rfl
    (Fst.wf_of_wfB (by decide)) rfl
    ⟨fun w => 0 < w, by decide, by decide, fun a b ha hb => ⟨by omega, Nat.mul_pos ha hb⟩, fun s t ht _ => (hall s t ht).2⟩
    (.inl (noCycles_of_ord id fun s t ht => (hall s t ht).1)) [.trs 1, .trs 0, .trs 1] (by
      intro q hq
      simp only [List.mem_cons, List.not_mem_nil, or_false] at hq
      have hn : exEpsNat.numStates = 4 := by decide
      rw [hn]
      rcases hq with rfl | rfl | rfl <;> simp [Query2.Below])
  exact ⟨g, F, h1, h3.2.1, h4.2.1, h4.2.2.2.2.2.2⟩

/-- State 0 of `exEpsNat`, asked after state 1: the two ε-paths are summed, 3 + 2 · 5. -/
example : (match ((rmEpsilonFst (W := Nat)).run2 mapCache (rmEpsOp (fun a b => decide (b = a)) ⟨true, true, true, false, false⟩ exEpsNat 30)
    [.trs 1, .trs 0]).1 with
    | [.trs (.ok a), .trs (.ok b)] => decide (a = [⟨7, 7, 5, 3⟩] ∧ b = [⟨7, 7, 13, 3⟩]) | _ => false) = true := by decide +kernel

end Verif
