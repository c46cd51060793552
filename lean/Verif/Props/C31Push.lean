import Verif.Props.C31
import Mathlib.Data.Matrix.Mul
import Mathlib.LinearAlgebra.Matrix.Notation
import Mathlib.Algebra.Order.Group.Int

/-! # C31: weight pushing -/

namespace Verif
universe u v
set_option linter.unusedSectionVars false
open Fst

section initial
variable {W : Type u} [AddCommMonoid W] [Monoid W] [LeftDistribClass W] {divL divR : W → W → R W} {P : W → Prop} {f : Fst W}

theorem finalDistance_in (hz : ∀ a : W, a * 0 = 0) (h : Closed P) (hf : f.WeightsIn P) {s : StateId} {d : W}
    (hd : f.IsFinalDistance (fun _ => true) s d) : P d := by
  obtain ⟨N, hN⟩ := hd
  rw [← hN N (Nat.le_refl _)]
  exact h.rangeSum _ fun k => finalSum_in hz h hf _ k s

/-- The distances to the final states are potentials. -/
theorem potInitial_of_distance (hz : ∀ a : W, a * 0 = 0) (hdiv : WeakLeft divL P) (hf : f.WeightsIn P) (hw : f.WF)
    {d : StateId → W} (hd : ∀ q, q < f.numStates → f.IsFinalDistance (fun _ => true) q (d q)) : f.PotInitial divL d := by
  have hc := hdiv.closed
  have hP : ∀ s, s < f.numStates → P (d s) := fun s hs => finalDistance_in hz hc hf (hd s hs)
  have heq := fun s hs => finalDistance_eq hz hw hd (s := s) hs
  have hterm : ∀ s, ∀ x ∈ (f.trsOf s).map (fun t => t.weight * d t.nextstate), P x := by
    intro s x hx
    obtain ⟨t, ht, rfl⟩ := List.mem_map.1 hx
    exact hc.mul _ _ (hf.1 s t ht) (hP _ (hw.next_lt s t ht))
  have hfin : ∀ s, P ((f.finOf s).getD 0) := by
    intro s
    cases h : f.finOf s with
    | none => exact hc.zero
    | some w => exact hf.2 s w h
  refine ⟨?_, ?_, ?_⟩
  · intro s t ht hs hn
    have hl := lt_of_mem_trsOf ht
    obtain ⟨r, hr, hsum⟩ := hc.split (hterm s) (List.mem_map.2 ⟨t, ht, rfl⟩)
    have h1 : d s = t.weight * d t.nextstate + ((f.finOf s).getD 0 + r) := by rw [heq s hl, hsum, add_left_comm]
    obtain ⟨v, hv, e⟩ := hdiv.div _ _ (hterm s _ (List.mem_map.2 ⟨t, ht, rfl⟩)) (hc.add _ _ (hfin s) hr) (h1 ▸ hs)
    rw [← h1] at hv e
    exact ⟨v, hv, e⟩
  · intro s w hsw hs
    have hl : s < f.numStates := by
      by_contra hge
      rw [finOf_of_ge (by omega)] at hsw; cases hsw
    have h1 := heq s hl
    rw [hsw, Option.getD_some] at h1
    obtain ⟨v, hv, e⟩ := hdiv.div _ _ (hf.2 s w hsw) (hc.listSum (hterm s)) (h1 ▸ hs)
    rw [← h1] at hv e
    exact ⟨v, hv, e⟩
  · intro s hs
    by_cases hl : s < f.numStates
    · have h1 := heq s hl
      rw [hs] at h1
      refine ⟨fun w hsw => ?_, fun t ht => ?_⟩
      · rw [hsw, Option.getD_some] at h1
        exact hdiv.zeroSumFree _ _ (hf.2 s w hsw) (hc.listSum (hterm s)) h1.symm
      · obtain ⟨r, hr, hsum⟩ := hc.split (hterm s) (List.mem_map.2 ⟨t, ht, rfl⟩)
        rw [hsum, add_left_comm] at h1
        exact hdiv.noZeroDiv _ _ (hf.1 s t ht) (hP _ (hw.next_lt s t ht))
          (hdiv.zeroSumFree _ _ (hterm s _ (List.mem_map.2 ⟨t, ht, rfl⟩)) (hc.add _ _ (hfin s) hr) h1.symm)
    · refine ⟨fun w hsw => ?_, fun t ht => ?_⟩
      · rw [finOf_of_ge (by omega)] at hsw; cases hsw
      · exact absurd (lt_of_mem_trsOf ht) hl

variable [DecidableEq W]

/-- `remove_weight` at a start state to which nothing leads. -/
theorem removeWeight_initial {g : Fst W} {j : StateId} {c : W} (hc1 : c ≠ 1) (hc0 : c ≠ 0) (hj : g.start = some j) (hcyc : ¬ g.OnCycle j)
    (htr : ∀ t ∈ g.trsOf j, ∃ v, divL t.weight c = .ok v ∧ c * v = t.weight)
    (hfin : ∀ w, g.finOf j = some w → ∃ v, divL w c = .ok v ∧ c * v = w) :
    ∃ g', g.removeWeight divL divR .toInitial c = .ok g' ∧ (g.Truthful → g'.Truthful) ∧ SameShape g g' ∧
      (∀ n, (g'.accPaths n).map (PathT.scale c) = g.accPaths n) ∧
      ∀ K : W → Prop, g.WeightsIn K → (∀ a v, K a → divL a c = .ok v → K v) → g'.WeightsIn K := by
  unfold removeWeight
  rw [if_neg (not_or.2 ⟨hc1, hc0⟩), hj]
  simp only
  obtain ⟨g1, e1, w1⟩ := weighTrs_spec (f := g) (s := j) (h := fun t => (divL t.weight c).map some)
    (fun t => match divL t.weight c with | .ok v => v | .error _ => t.weight) (fun t ht => by
      obtain ⟨v, hv, -⟩ := htr t ht
      exact ⟨some v, by rw [hv]; rfl, by rw [hv]; rfl⟩)
  obtain ⟨g2, e2, w2⟩ := weighFin_spec (f := g1) (s := j) (h := fun w => (divL w c).map some)
    (fun w => match divL w c with | .ok v => v | .error _ => w) (fun w hw => by
      rw [w1.fin, Option.map_id'] at hw
      obtain ⟨v, hv, -⟩ := hfin w hw
      exact ⟨some v, by rw [hv]; rfl, by rw [hv]; rfl⟩)
  rw [e1]
  simp only
  rw [e2]
  have w3 := w1.trans w2
  refine ⟨g2, rfl, w3.truthful, w3.shape, fun n => ?_, fun K hK hd => ⟨fun s t' ht' => ?_, fun s w' hw' => ?_⟩⟩
  · rw [accPaths_some (w3.start.trans hj), accPaths_some hj]
    refine unscale_at w3 hcyc c (fun s t ht => ?_) (fun s w hw => ?_) n
    · by_cases hs : s = j
      · subst hs
        obtain ⟨v, hv, h⟩ := htr t ht
        simp only [if_true, hv, h]
      · simp only [if_neg hs]
    · by_cases hs : s = j
      · subst hs
        obtain ⟨v, hv, h⟩ := hfin w hw
        simp only [if_true, hv, h]
      · simp only [if_neg hs]
  · rw [w3.trs] at ht'
    obtain ⟨t, ht, rfl⟩ := List.mem_map.1 ht'
    by_cases hs : s = j
    · subst hs
      obtain ⟨v, hv, -⟩ := htr t ht
      simp only [if_true, hv]
      exact hd _ v (hK.1 s t ht) hv
    · simp only [if_neg hs]
      exact hK.1 s t ht
  · rw [w3.fin] at hw'
    obtain ⟨w, hw, rfl⟩ := Option.map_eq_some_iff.1 hw'
    by_cases hs : s = j
    · subst hs
      obtain ⟨v, hv, -⟩ := hfin w hw
      simp only [if_true, hv]
      exact hd _ v (hK.2 s w hw) hv
    · simp only [if_neg hs]
      exact hK.2 s w hw

/-- Both variants of pushing towards the initial state, once the distances are known. -/
theorem pushWith_initial (hz : ∀ a : W, a * 0 = 0) (hz' : ∀ a : W, 0 * a = 0) (hdiv : WeakLeft divL P) (hf : f.WeightsIn P) (hw : f.WF)
    (ht : f.Truthful) (l : List W) (hd : ∀ q, q < f.numStates → f.IsFinalDistance (fun _ => true) q (l[q]?.getD 0))
    (hcan : ∀ c x, c ≠ 0 → ∃ v, divL (c * x) c = .ok v ∧ c * v = c * x) {i : StateId} (hi : f.start = some i) :
    ∃ g k, f.pushWith divL divR .toInitial true l = .ok g ∧ g.WF ∧ g.Truthful ∧ k ≤ 1 ∧
      ∀ n, live ((g.accPaths n).map (PathT.scale (l[i]?.getD 0))) = delay k (fun n => live (f.accPaths n)) n := by
  have hp := potInitial_of_distance hz hdiv hf hw hd
  have hil := hw.start_lt i hi
  have hn : f.numStates ≠ 0 := by omega
  have htot : f.totalWeight .toInitial l = pot l i := by simp [totalWeight, hi]
  obtain ⟨g0, k0, hg0, gw0, gt0, hk0, hpaths0⟩ := C31_reweight_initial (divR := divR) hz hz' hw ht hp
  unfold pushWith
  rw [if_pos rfl, hg0, htot]
  simp only
  change ∃ g k, g0.removeWeight divL divR .toInitial (pot l i) = .ok g ∧ g.WF ∧ g.Truthful ∧ k ≤ 1 ∧
    ∀ n, live ((g.accPaths n).map (PathT.scale (pot l i))) = delay k (fun n => live (f.accPaths n)) n
  by_cases h0 : pot l i = 0
  · refine ⟨g0, k0, by unfold removeWeight; rw [if_pos (.inr h0)], gw0, gt0, hk0, fun n => ?_⟩
    rw [← hpaths0 n, hpaths0 n, live_eq_zero (fun p hp' => by
      obtain ⟨q, -, rfl⟩ := Multiset.mem_map.1 hp'
      show pot l i * q.2.2 = 0
      rw [h0, hz'])]
    have hdf : ∀ n, live (f.accPaths n) = 0 := fun n => by
      rw [accPaths_some hi]
      exact live_eq_zero (dead_paths (f := f) hz hz' hp.dead n i h0)
    simp only [hdf, delay]
    split <;> rfl
  by_cases h1 : pot l i = 1
  · refine ⟨g0, k0, by unfold removeWeight; rw [if_pos (.inl h1)], gw0, gt0, hk0, fun n => ?_⟩
    have hone : (PathT.scale 1 : PathT W → PathT W) = id := by funext p; simp [PathT.scale]
    rw [h1, hone, Multiset.map_id]
    exact hpaths0 n
  obtain ⟨f1, g, w1, hg, gw, gt, -, hno, hst⟩ := reweight_spec (divR := divR) (ty := .toInitial) hw ht hn
      (fun s t htm hs => reweightTr_initial hp htm hs) (fun s w h => (newFin_initial hp h).1) (fun i hi h1 h0 => ⟨_, rfl⟩)
  rw [hg0] at hg; cases hg
  obtain ⟨c, k, hin, -, h2⟩ := hst i hi
  have hc : c = pot l i := by have := (h2 h1 h0).1; cases this; rfl
  subst hc
  have hw1 := w1.shape.wf hw
  obtain ⟨j, hj, hcyc, htr, hfin⟩ : ∃ j, g0.start = some j ∧ ¬ g0.OnCycle j ∧
      (∀ t ∈ g0.trsOf j, ∃ v, divL t.weight (pot l i) = .ok v ∧ pot l i * v = t.weight) ∧
      (∀ w, g0.finOf j = some w → ∃ v, divL w (pot l i) = .ok v ∧ pot l i * v = w) := by
    cases hin with
    | same hc => exact absurd hc h1
    | «at» hcyc w2 =>
      refine ⟨i, w2.start.trans (w1.start.trans hi), ?_, fun t htm => ?_, fun w hwm => ?_⟩
      · rw [OnCycle, w2.shape.edge]; exact hcyc
      · rw [w2.trs] at htm
        obtain ⟨t', -, rfl⟩ := List.mem_map.1 htm
        simp only [if_true]
        exact hcan _ _ h0
      · rw [w2.fin] at hwm
        obtain ⟨w', -, rfl⟩ := Option.map_eq_some_iff.1 hwm
        simp only [if_true]
        exact hcan _ _ h0
    | new t1 t2 t3 t4 =>
      refine ⟨_, t4, ?_, fun t htm => ?_, fun w hwm => ?_⟩
      · intro hcy
        obtain ⟨s, -, t, htm, hne⟩ := (Relation.TransGen.tail'_iff.1 hcy)
        rw [t1] at htm
        split at htm
        · obtain rfl := List.mem_singleton.1 htm
          simp only at hne
          rw [w1.num] at hne
          omega
        · have := hw1.next_lt s t htm
          omega
      · rw [t1, if_pos rfl] at htm
        obtain rfl := List.mem_singleton.1 htm
        simpa using hcan (pot l i) 1 h0
      · rw [t2, finOf_of_ge (Nat.le_refl _)] at hwm; cases hwm
  obtain ⟨g', e1, e2, e3, e4, -⟩ := removeWeight_initial (divR := divR) h1 h0 hj hcyc htr hfin
  exact ⟨g', k0, e1, e3.wf gw0, e2 gt0, hk0, fun n => by rw [e4]; exact hpaths0 n⟩

/-- C31: pushing towards the initial state. The parameters of the shortest distance are those of C32. -/
theorem C31_push_initial {V : Type v} [AddCommMonoid V] [Monoid V] [RightDistribClass V] [DecidableEq V] {rev : W → V} {back : V → W}
    {sf : SemiringFlags} {eqv : V → V → Bool} (hback : ∀ a, back (rev a) = a) (hrev : ∀ v, rev (back v) = v) (h0 : rev 0 = 0)
    (h1 : rev 1 = 1) (hadd : ∀ a b, rev (a + b) = rev a + rev b) (hmul : ∀ a b, rev (a * b) = rev b * rev a) (hz : ∀ a : W, a * 0 = 0)
    (hz' : ∀ a : W, 0 * a = 0) (hexact : ∀ a b, eqv a b = true ↔ b = a) (hsf : sf.right = true)
    (hidf : sf.idempotent = true → ∀ a : W, a + a = a) (hw : f.WF) (ht : f.Truthful)
    (hcase : f.NoCycles (fun _ => true) ∨ ((∀ a : W, a + a = a) ∧ f.CyclesAbsorbedLeft (fun _ => true)))
    (hdiv : WeakLeft divL P) (hf : f.WeightsIn P) :
    (∃ g k, EndsWith (f.pushInitial divL divR rev back sf eqv false) (.ok g) ∧ g.WF ∧ g.Truthful ∧ k ≤ 1 ∧
      ∀ n, live (g.accPaths n) = delay k (fun n => live (f.accPaths n)) n) ∧
    ((∀ c x, c ≠ 0 → ∃ v, divL (c * x) c = .ok v ∧ c * v = c * x) → ∀ i, f.start = some i →
      ∃ g k total, EndsWith (f.pushInitial divL divR rev back sf eqv true) (.ok g) ∧ g.WF ∧ g.Truthful ∧ k ≤ 1 ∧
      f.IsFinalDistance (fun _ => true) i total ∧
      ∀ n, live ((g.accPaths n).map (PathT.scale total)) = delay k (fun n => live (f.accPaths n)) n) := by
  obtain ⟨l, ⟨N, hN⟩, hl⟩ := C32_reverse hback hrev h0 h1 hadd hmul hz hexact hsf hidf hw ht hcase
  constructor
  · obtain ⟨g, k, e1, e2⟩ := C31_reweight_initial (divR := divR) hz hz' hw ht (potInitial_of_distance hz hdiv hf hw hl)
    refine ⟨g, k, ⟨N, fun n hn => ?_⟩, e2⟩
    unfold pushInitial
    rw [hN n hn]
    simp [pushWith, e1]
  · intro hcan i hi
    obtain ⟨g, k, e1, e2, e3, e4, e5⟩ := pushWith_initial (divR := divR) hz hz' hdiv hf hw ht l hl hcan hi
    refine ⟨g, k, _, ⟨N, fun n hn => ?_⟩, e2, e3, e4, hl i (hw.start_lt i hi), e5⟩
    unfold pushInitial
    rw [hN n hn]
    simp [e1]

/-- C31: what the documentation says about the pushed FST: at a state other than the start state, the final weight and the weights of
the transitions sum up to one. This needs that there is a path of nonzero weight from every state, and cancellation. -/
theorem C31_push_normalised {V : Type v} [AddCommMonoid V] [Monoid V] [RightDistribClass V] [DecidableEq V] {rev : W → V} {back : V → W}
    {sf : SemiringFlags} {eqv : V → V → Bool} (hback : ∀ a, back (rev a) = a) (hrev : ∀ v, rev (back v) = v) (h0 : rev 0 = 0)
    (h1 : rev 1 = 1) (hadd : ∀ a b, rev (a + b) = rev a + rev b) (hmul : ∀ a b, rev (a * b) = rev b * rev a) (hz : ∀ a : W, a * 0 = 0)
    (hexact : ∀ a b, eqv a b = true ↔ b = a) (hsf : sf.right = true)
    (hidf : sf.idempotent = true → ∀ a : W, a + a = a) (hw : f.WF) (ht : f.Truthful)
    (hcase : f.NoCycles (fun _ => true) ∨ ((∀ a : W, a + a = a) ∧ f.CyclesAbsorbedLeft (fun _ => true)))
    (hdiv : WeakLeft divL P) (hf : f.WeightsIn P) (hlive : ∀ s, s < f.numStates → ¬ f.IsFinalDistance (fun _ => true) s 0)
    (hcancel : ∀ a x : W, P a → a ≠ 0 → a * x = a → x = 1) :
    ∃ g, EndsWith (f.pushInitial divL divR rev back sf eqv false) (.ok g) ∧
      ∀ s, s < f.numStates → f.start ≠ some s → (g.finOf s).getD 0 + ((g.trsOf s).map fun t => t.weight).sum = 1 := by
  obtain ⟨l, ⟨N, hN⟩, hl⟩ := C32_reverse hback hrev h0 h1 hadd hmul hz hexact hsf hidf hw ht hcase
  have hp := potInitial_of_distance hz hdiv hf hw hl
  have hnz : ∀ s, s < f.numStates → pot l s ≠ 0 := by
    intro s hs h
    have := hl s hs
    rw [show l[s]?.getD 0 = 0 from h] at this
    exact hlive s hs this
  by_cases hn : f.numStates = 0
  · refine ⟨f, ⟨N, fun n hn' => ?_⟩, fun s hs => by omega⟩
    unfold pushInitial
    rw [hN n hn']
    simp [pushWith, reweight, hn]
  obtain ⟨f1, g, w1, hg, gw, gt, -, hno, hst⟩ := reweight_spec (divR := divR) (ty := .toInitial) hw ht hn
      (fun s t htm hs => reweightTr_initial hp htm hs) (fun s w h => (newFin_initial hp h).1) (fun i hi h1 h0 => ⟨_, rfl⟩)
  refine ⟨g, ⟨N, fun n hn' => ?_⟩, fun s hs hne => ?_⟩
  · unfold pushInitial
    rw [hN n hn']
    simp [pushWith, hg]
  · have hsame : g.finOf s = f1.finOf s ∧ g.trsOf s = f1.trsOf s := by
      cases hi : f.start with
      | none =>
        have := (hno hi).2
        exact ⟨by rw [finOf_eq, finOf_eq, this], by rw [trsOf_eq, trsOf_eq, this]⟩
      | some i =>
        obtain ⟨c, k, hin, -, -⟩ := hst i hi
        have hsi : s ≠ i := fun h => hne (h ▸ hi)
        cases hin with
        | same _ a b _ _ => exact ⟨b s, a s⟩
        | «at» _ w2 =>
          refine ⟨?_, ?_⟩
          · rw [w2.fin]; simp [hsi]
          · rw [w2.trs]; simp only [if_neg hsi]; exact map_keep _
        | new a b _ _ =>
          refine ⟨b s, ?_⟩
          rw [a, if_neg (by rw [w1.num]; omega)]
    rw [hsame.1, hsame.2, w1.fin, w1.trs, List.map_map]
    have hPs : P (pot l s) := finalDistance_in hz hdiv.closed hf (hl s hs)
    refine hcancel (pot l s) _ hPs (hnz s hs) ?_
    rw [left_distrib]
    have e1 : pot l s * ((f.finOf s).map (newFin divL .toInitial l s)).getD 0 = (f.finOf s).getD 0 := by
      cases h : f.finOf s with
      | none => exact hz _
      | some w => exact (newFin_initial hp h).2.1 (hnz s hs)
    have hmulsum : ∀ (a : W) (m : List W), a * m.sum = (m.map fun x => a * x).sum := by
      intro a m
      induction m with
      | nil => exact hz a
      | cons x m ih => rw [List.sum_cons, left_distrib, ih, List.map_cons, List.sum_cons]
    rw [e1, hmulsum, List.map_map]
    conv_rhs => rw [show pot l s = _ from finalDistance_eq hz hw hl hs]
    congr 2
    refine List.map_congr_left fun t htm => ?_
    exact (newTr_initial hp htm).1 (hnz s hs) (hnz _ (hw.next_lt s t htm))

end initial

section final
variable {W : Type u} [AddCommMonoid W] [Monoid W] [RightDistribClass W] {divL divR : W → W → R W} {P : W → Prop} {f : Fst W}

theorem distance_in (hz : ∀ a : W, 0 * a = 0) (h : Closed P) (hf : f.WeightsIn P) (hw : f.WF) {i : StateId} (hi : i < f.numStates)
    {q : StateId} {d : W} (hd : f.IsDistance (fun _ => true) i q d) : P d := by
  obtain ⟨N, hN⟩ := hd
  rw [← hN N (Nat.le_refl _)]
  exact h.rangeSum _ fun k => walkSum_in hz h hf hw _ hi k q

/-- What arrives over one transition is a part of the distance. -/
theorem distance_split (hz : ∀ a : W, 0 * a = 0) (hc : Closed P) (hf : f.WeightsIn P) (hw : f.WF) {i : StateId} (hi : i < f.numStates)
    {d : StateId → W} (hd : ∀ q, f.IsDistance (fun _ => true) i q (d q)) {s : StateId} {t : Tr W} (ht : t ∈ f.trsOf s) :
    ∃ r, P r ∧ d t.nextstate = d s * t.weight + r := by
  have hP : ∀ s, P (d s) := fun s => distance_in hz hc hf hw hi (hd s)
  have h1 := distance_eq hz hw hi hd t.nextstate
  obtain ⟨r, hr, e⟩ := hc.rangeSplit (g := fun s => cont (fun _ => true) (f.trsOf s) t.nextstate (d s))
    (fun k => cont_in hc (hf.1 k) _ _ (hP k)) (lt_of_mem_trsOf ht)
  obtain ⟨r', hr', e'⟩ := hc.split (l := ((f.trsOf s).filter (fun t' => (fun _ => true) t' && decide (t'.nextstate = t.nextstate))).map
    (fun t' => d s * t'.weight)) (x := d s * t.weight) (fun x hx => by
      obtain ⟨t', ht', rfl⟩ := List.mem_map.1 hx
      exact hc.mul _ _ (hP s) (hf.1 s t' (List.mem_of_mem_filter ht'))) (List.mem_map.2 ⟨t, List.mem_filter.2 ⟨ht, by simp⟩, rfl⟩)
  have e' : cont (fun _ => true) (f.trsOf s) t.nextstate (d s) = d s * t.weight + r' := e'
  rw [e, e'] at h1
  refine ⟨(if i = t.nextstate then 1 else 0) + (r' + r), hc.add _ _ ?_ (hc.add _ _ hr' hr), ?_⟩
  · split
    · exact hc.one
    · exact hc.zero
  · rw [h1, add_assoc, add_left_comm]

/-- The distances from the start state are potentials. -/
theorem potFinal_of_distance (hz : ∀ a : W, 0 * a = 0) (h01 : (1 : W) ≠ 0) (hdiv : WeakRight divR P) (hf : f.WeightsIn P) (hw : f.WF)
    {i : StateId} (hi : f.start = some i) {d : StateId → W} (hd : ∀ q, f.IsDistance (fun _ => true) i q (d q))
    (hcomm : ∀ s w, f.finOf s = some w → ∀ a, w * a = a * w) : f.PotFinal divR d := by
  have hil := hw.start_lt i hi
  have hc := hdiv.closed
  have hP : ∀ s, P (d s) := fun s => distance_in hz hc hf hw hil (hd s)
  refine ⟨fun s t ht hs hn => ?_, fun s w h _ => hcomm s w h _, fun s t ht hs hn => ?_, fun j hj => ?_⟩
  · obtain ⟨r, hr, e⟩ := distance_split hz hc hf hw hil hd ht
    obtain ⟨v, hv, e'⟩ := hdiv.div _ _ (hc.mul _ _ (hP s) (hf.1 s t ht)) hr (e ▸ hn)
    rw [← e] at hv e'
    exact ⟨v, hv, e'⟩
  · obtain ⟨r, hr, e⟩ := distance_split hz hc hf hw hil hd ht
    rw [hn] at e
    have := hdiv.zeroSumFree _ _ (hc.mul _ _ (hP s) (hf.1 s t ht)) hr e.symm
    exact (hdiv.noZeroDiv _ _ (hP s) (hf.1 s t ht) this).resolve_left hs
  · rw [hi] at hj; cases hj
    have h1 := distance_eq hz hw hil hd i
    rw [if_pos rfl] at h1
    have hr : P (∑ s ∈ Finset.range f.numStates, cont (fun _ => true) (f.trsOf s) i (d s)) :=
      hc.rangeSum _ fun k => cont_in hc (hf.1 k) _ _ (hP k)
    have hne : d i ≠ 0 := fun h => h01 (hdiv.zeroSumFree _ _ hc.one hr (h1 ▸ h))
    refine ⟨hne, fun _ => ?_⟩
    obtain ⟨v, hv, e'⟩ := hdiv.div _ _ hc.one hr (h1 ▸ hne)
    rw [← h1] at hv e'
    exact ⟨v, hv, e'⟩

theorem transGen_of_walk {keep : Tr W → Bool} : ∀ n p x w, (x, w) ∈ f.walks keep (n + 1) p → Relation.TransGen f.Edge p x := by
  intro n
  induction n with
  | zero =>
    intro p x w h
    obtain ⟨t, ht, -, v, hv, -⟩ := (f.mem_walks_succ _).1 h
    obtain ⟨rfl, -⟩ := (f.mem_walks_zero _).1 hv
    exact .single ⟨t, ht, rfl⟩
  | succ n ih =>
    intro p x w h
    obtain ⟨t, ht, -, v, hv, -⟩ := (f.mem_walks_succ _).1 h
    exact .head ⟨t, ht, rfl⟩ (ih _ _ _ hv)

/-- The distance of a start state without cycles is one. -/
theorem distance_start {i : StateId} (hcyc : ¬ f.OnCycle i) {d : W} (hd : f.IsDistance (fun _ => true) i i d) : d = 1 := by
  obtain ⟨N, hN⟩ := hd
  rw [← hN (N + 1) (by omega), Finset.sum_range_succ' (fun k => f.walkSum (fun _ => true) k i i), walkSum_zero, if_pos rfl]
  have : ∀ k, f.walkSum (fun _ => true) (k + 1) i i = 0 := by
    intro k
    unfold walkSum
    rw [Multiset.filter_eq_nil.2]
    · rfl
    · rintro ⟨x, w⟩ hx (rfl : x = i)
      exact hcyc (transGen_of_walk _ _ _ _ hx)
  simp [this]

variable [DecidableEq W]

theorem sum_range_vanish {g : Nat → W} {a b : Nat} (hab : a ≤ b) (h : ∀ k, a ≤ k → g k = 0) :
    ∑ k ∈ Finset.range b, g k = ∑ k ∈ Finset.range a, g k := by
  induction b with
  | zero => obtain rfl : a = 0 := by omega
            rfl
  | succ b ih =>
    by_cases hb : a = b + 1
    · rw [hb]
    · rw [Finset.sum_range_succ, h b (by omega), add_zero, ih (by omega)]

theorem totalWeight_final (hz : ∀ a : W, 0 * a = 0) (hz' : ∀ a : W, a * 0 = 0) (l : List W) : f.totalWeight .toFinal l =
    ∑ s ∈ Finset.range f.numStates, pot l s * (f.finOf s).getD 0 := by
  have key : ∀ n, (List.range n).foldl (fun a s => a + pot l s * (f.finOf s).getD 0) 0 =
      ∑ s ∈ Finset.range n, pot l s * (f.finOf s).getD 0 := by
    intro n
    induction n with
    | zero => rfl
    | succ n ih => rw [List.range_succ, List.foldl_append, ih, Finset.sum_range_succ]; rfl
  show (List.range l.length).foldl (fun a s => a + pot l s * (f.finOf s).getD 0) 0 = _
  rw [key]
  rcases Nat.le_total l.length f.numStates with h | h
  · exact (sum_range_vanish h fun k hk => by rw [pot_ge hk, hz]).symm
  · exact sum_range_vanish h fun k hk => by rw [finOf_of_ge hk]; exact hz' _

theorem sum_zero_mem {M : Multiset W} (hc : Closed P) (hzs : ∀ a b, P a → P b → a + b = 0 → a = 0) (hM : ∀ x ∈ M, P x) (h : M.sum = 0) :
    ∀ x ∈ M, x = 0 := by
  intro x hx
  obtain ⟨N, rfl⟩ := Multiset.exists_cons_of_mem hx
  rw [Multiset.sum_cons] at h
  refine hzs x N.sum (hM x (by simp)) ?_ h
  clear h hx
  induction N using Multiset.induction_on with
  | empty => exact hc.zero
  | cons y N ih =>
    rw [Multiset.sum_cons]
    exact hc.add _ _ (hM y (by simp)) (ih fun z hz => hM z (by
      rcases Multiset.mem_cons.1 hz with rfl | hz <;> simp [*]))

theorem paths_in (hc : Closed P) (hf : f.WeightsIn P) : ∀ n s, ∀ p ∈ f.pathsFrom n s, P p.2.2 := by
  intro n
  induction n with
  | zero =>
    intro s p hp
    rw [pathsFrom_zero] at hp
    cases h : f.finOf s with
    | none => rw [h] at hp; simp at hp
    | some w =>
      rw [h] at hp
      obtain rfl := Multiset.mem_singleton.1 hp
      exact hf.2 s w h
  | succ n ih =>
    intro s p hp
    rw [pathsFrom_succ, Multiset.mem_bind] at hp
    obtain ⟨t, ht, hp⟩ := hp
    obtain ⟨q, hq, rfl⟩ := Multiset.mem_map.1 hp
    exact hc.mul _ _ (hf.1 s t (by simpa using ht)) (ih _ q hq)

/-- When the total weight is zero every path has weight zero. -/
theorem total_zero [LeftDistribClass W] (hz : ∀ a : W, a * 0 = 0) (hc : Closed P) (hzs : ∀ a b, P a → P b → a + b = 0 → a = 0)
    (hf : f.WeightsIn P) {i : StateId} (hd : f.IsFinalDistance (fun _ => true) i 0) (n : Nat) : ∀ p ∈ f.pathsFrom n i, p.2.2 = 0 := by
  obtain ⟨N, hN⟩ := hd
  have hk := fun k => finalSum_in hz hc hf (fun _ => true) k i
  have h1 : f.finalSum (fun _ => true) n i = 0 := by
    obtain ⟨r, hr, e⟩ := hc.rangeSplit (n := max N (n + 1)) hk (m := n) (by omega)
    rw [hN _ (by omega)] at e
    exact hzs _ _ (hk n) hr e.symm
  rw [← sum_pathsFrom hz] at h1
  intro p hp
  exact sum_zero_mem hc hzs (fun x hx => by
    obtain ⟨q, hq, rfl⟩ := Multiset.mem_map.1 hx
    exact paths_in hc hf n i q hq) h1 _ (Multiset.mem_map.2 ⟨p, hp, rfl⟩)

/-- `remove_weight` at the final states. -/
theorem removeWeight_final {g : Fst W} {c : W} (hc1 : c ≠ 1) (hc0 : c ≠ 0)
    (hfin : ∀ s w, g.finOf s = some w → ∃ v, divR w c = .ok v ∧ v * c = w) :
    ∃ g', g.removeWeight divL divR .toFinal c = .ok g' ∧ (g.Truthful → g'.Truthful) ∧ SameShape g g' ∧
      (∀ n, (g'.accPaths n).map (PathT.scaleR c) = g.accPaths n) ∧
      (∀ s, g'.trsOf s = g.trsOf s) ∧ ∀ s v, g'.finOf s = some v → ∃ w, g.finOf s = some w ∧ divR w c = .ok v := by
  unfold removeWeight
  rw [if_neg (not_or.2 ⟨hc1, hc0⟩)]
  simp only
  obtain ⟨g', e1, w1⟩ := weighStates_spec (f := g) (body := fun f s => f.weighFin (fun w => (divR w c).map some) s) (fun _ t => t.weight)
    (fun _ w => match divR w c with | .ok v => v | .error _ => w) (by
      intro g1 s hs ht hf
      obtain ⟨g2, e2, w2⟩ := weighFin_spec (f := g1) (s := s) (h := fun w => (divR w c).map some)
        (fun w => match divR w c with | .ok v => v | .error _ => w) (fun w hw => by
          rw [hf] at hw
          obtain ⟨v, hv, -⟩ := hfin s w hw
          exact ⟨some v, by rw [hv]; rfl, by rw [hv]; rfl⟩)
      exact ⟨g2, e2, w2.congr (fun q t _ => by simp) (fun q w _ => rfl)⟩)
  rw [e1]
  refine ⟨g', rfl, w1.truthful, w1.shape, fun n => ?_, fun s => by rw [w1.trs]; exact map_keep _, fun s v hv => ?_⟩
  · have h1 := scaleR_paths w1 (c := c) (fun _ _ _ => rfl) (fun s w hw => by
      obtain ⟨v, hv, h⟩ := hfin s w hw
      rw [hv]; exact h)
    unfold accPaths
    rw [w1.start]
    cases g.start with
    | none => rfl
    | some i => exact h1 n i
  · rw [w1.fin] at hv
    obtain ⟨w, hw, rfl⟩ := Option.map_eq_some_iff.1 hv
    obtain ⟨v, e, -⟩ := hfin s w hw
    exact ⟨w, hw, by rw [e]⟩

/-- Both variants of pushing towards the final states, once the distances are known. -/
theorem pushWith_final [LeftDistribClass W] (hz : ∀ a : W, a * 0 = 0) (hz' : ∀ a : W, 0 * a = 0) (h01 : (1 : W) ≠ 0) (hdiv : WeakRight divR P)
    (hf : f.WeightsIn P) (hw : f.WF) (ht : f.Truthful) {i : StateId} (hi : f.start = some i) (l : List W)
    (hd : ∀ q, f.IsDistance (fun _ => true) i q (l[q]?.getD 0)) (hcomm : ∀ s w, f.finOf s = some w → ∀ a, w * a = a * w) :
    ∃ g k total, f.pushWith divL divR .toFinal true l = .ok g ∧ g.WF ∧ g.Truthful ∧ k ≤ 1 ∧ f.IsFinalDistance (fun _ => true) i total ∧
      ∀ n, live ((g.accPaths n).map (PathT.scaleR total)) = delay k (fun n => live (f.accPaths n)) n := by
  have hp := potFinal_of_distance hz' h01 hdiv hf hw hi hd hcomm
  have hil := hw.start_lt i hi
  have hn : f.numStates ≠ 0 := by omega
  have hc := hdiv.closed
  have hP : ∀ s, P (pot l s) := fun s => distance_in hz' hc hf hw hil (hd s)
  have htot := totalWeight_final (f := f) hz' hz l
  have hfd : f.IsFinalDistance (fun _ => true) i (f.totalWeight .toFinal l) := by
    rw [htot]; exact finalDistance_of_distance hz' hw hil hd
  obtain ⟨g0, k0, hg0, gw0, gt0, hk0, hpaths0⟩ := C31_reweight_final (divL := divL) hz hz' hw ht hp
  unfold pushWith
  rw [if_pos rfl, hg0]
  simp only
  generalize htt : f.totalWeight .toFinal l = total at *
  by_cases h0 : total = 0
  · refine ⟨g0, k0, total, by unfold removeWeight; rw [if_pos (.inr h0)], gw0, gt0, hk0, hfd, fun n => ?_⟩
    rw [live_eq_zero (fun p hp' => by
      obtain ⟨q, -, rfl⟩ := Multiset.mem_map.1 hp'
      show q.2.2 * total = 0
      rw [h0, hz])]
    have hdf : ∀ n, live (f.accPaths n) = 0 := fun n => by
      rw [accPaths_some hi]
      exact live_eq_zero (total_zero hz hc hdiv.zeroSumFree hf (h0 ▸ hfd) n)
    simp only [hdf, delay]
    split <;> rfl
  by_cases h1 : total = 1
  · refine ⟨g0, k0, total, by unfold removeWeight; rw [if_pos (.inl h1)], gw0, gt0, hk0, hfd, fun n => ?_⟩
    have hone : (PathT.scaleR 1 : PathT W → PathT W) = id := by funext p; simp [PathT.scaleR]
    rw [h1, hone, Multiset.map_id]
    exact hpaths0 n
  obtain ⟨f1, g, w1, hg, gw, gt, -, hno, hst⟩ := reweight_spec (divL := divL) (divR := divR) (ty := .toFinal) hw ht hn
      (fun s t htm hs => reweightTr_final hp htm hs) (fun s w h => ⟨_, rfl⟩)
      (fun i hi h1 h0 => by obtain ⟨v, hv, -⟩ := (hp.start i hi).2 h1; exact ⟨v, hv⟩)
  rw [hg0] at hg; cases hg
  obtain ⟨c, k, hin, ha, hb⟩ := hst i hi
  have hgf : ∀ s, g0.finOf s = f1.finOf s := by
    intro s
    cases hin with
    | same _ _ h _ _ => exact h s
    | «at» hcyc w2 =>
      have hcyc' : ¬ f.OnCycle i := by rw [OnCycle, ← w1.shape.edge]; exact hcyc
      have hone := distance_start hcyc' (hd i)
      have hc1 := (ha (.inl hone)).1
      rw [w2.fin, hc1]
      simp
    | new _ h _ _ => exact h s
  have hsum : ∀ s, P (pot l s * (f.finOf s).getD 0) := by
    intro s
    refine hc.mul _ _ (hP s) ?_
    cases h : f.finOf s with
    | none => exact hc.zero
    | some w => exact hf.2 s w h
  obtain ⟨g', e1, e2, e3, e4, -⟩ := removeWeight_final (divL := divL) (divR := divR) (g := g0) h1 h0 (by
    intro s w hsw
    rw [hgf, w1.fin] at hsw
    obtain ⟨w0, hw0, rfl⟩ := Option.map_eq_some_iff.1 hsw
    have hsl : s < f.numStates := by
      by_contra hge
      rw [finOf_of_ge (by omega)] at hw0; cases hw0
    obtain ⟨r, hr, e⟩ := hc.rangeSplit hsum hsl
    rw [← htot, hw0, Option.getD_some] at e
    have hnew : newFin divL .toFinal l s w0 = pot l s * w0 := by
      by_cases hs0 : pot l s = 0
      · unfold newFin reweightFin
        simp only [hs0, hz, hz']
      · exact newFin_final hp hw0 hs0
    rw [hnew]
    have hPs : P (pot l s * w0) := by have := hsum s; rwa [hw0] at this
    obtain ⟨v, hv, e'⟩ := hdiv.div _ _ hPs hr (e ▸ h0)
    rw [← e] at hv e'
    exact ⟨v, hv, e'⟩)
  exact ⟨g', k0, total, e1, e3.wf gw0, e2 gt0, hk0, hfd, fun n => by rw [e4]; exact hpaths0 n⟩

/-- C31: pushing towards the final states. Final weights commute with all weights. -/
theorem C31_push_final [LeftDistribClass W] {sf : SemiringFlags} {eqv : W → W → Bool} (hz : ∀ a : W, a * 0 = 0) (hz' : ∀ a : W, 0 * a = 0)
    (h01 : (1 : W) ≠ 0) (hexact : ∀ a b, eqv a b = true ↔ b = a) (hsf : sf.right = true)
    (hidf : sf.idempotent = true → ∀ a : W, a + a = a) (hw : f.WF) (ht : f.Truthful) {i : StateId} (hi : f.start = some i)
    (hcase : f.NoCycles (fun _ => true) ∨ ((∀ a : W, a + a = a) ∧ f.CyclesAbsorbed (fun _ => true)))
    (hdiv : WeakRight divR P) (hf : f.WeightsIn P) (hcomm : ∀ s w, f.finOf s = some w → ∀ a, w * a = a * w) :
    (∃ g k, EndsWith (f.pushFinal divL divR sf eqv false) (.ok g) ∧ g.WF ∧ g.Truthful ∧ k ≤ 1 ∧
      ∀ n, live (g.accPaths n) = delay k (fun n => live (f.accPaths n)) n) ∧
    (∃ g k total, EndsWith (f.pushFinal divL divR sf eqv true) (.ok g) ∧ g.WF ∧ g.Truthful ∧ k ≤ 1 ∧
      f.IsFinalDistance (fun _ => true) i total ∧
      ∀ n, live ((g.accPaths n).map (PathT.scaleR total)) = delay k (fun n => live (f.accPaths n)) n) := by
  obtain ⟨l, ⟨N, hN⟩, hl⟩ := C32_shortest_distance hz' hexact hsf hidf hw ht hi hcase
  constructor
  · obtain ⟨g, k, e1, e2⟩ := C31_reweight_final (divL := divL) hz hz' hw ht (potFinal_of_distance hz' h01 hdiv hf hw hi hl hcomm)
    refine ⟨g, k, ⟨N, fun n hn => ?_⟩, e2⟩
    unfold pushFinal
    rw [hN n hn]
    simp [pushWith, e1]
  · obtain ⟨g, k, total, e1, e2⟩ := pushWith_final (divL := divL) hz hz' h01 hdiv hf hw ht hi l hl hcomm
    refine ⟨g, k, total, ⟨N, fun n hn => ?_⟩, e2⟩
    unfold pushFinal
    rw [hN n hn]
    simp [e1]

end final

section consequences
variable {W : Type u} [DecidableEq W]

/-- C31 in terms of what is computed: the same pairs of strings are accepted with the same nonzero weights … -/
theorem C31_accepts [Zero W] [Mul W] {f g : Fst W} {k : Nat} (h : ∀ n, live (g.accPaths n) = delay k (fun n => live (f.accPaths n)) n) (x y : List Label)
    (w : W) (hw : w ≠ 0) : g.Accepts x y w ↔ f.Accepts x y w := by
  have mem : ∀ (M : Multiset (PathT W)), (x, y, w) ∈ live M ↔ (x, y, w) ∈ M := fun M => by
    unfold live; rw [Multiset.mem_filter]; exact ⟨fun h => h.1, fun h => ⟨h, hw⟩⟩
  constructor
  · rintro ⟨n, hn⟩
    rw [← mem, h n] at hn
    unfold delay at hn
    split at hn
    · cases hn
    · exact ⟨_, (mem _).1 hn⟩
  · rintro ⟨n, hn⟩
    refine ⟨n + k, ?_⟩
    rw [← mem, h (n + k)]
    unfold delay
    rw [if_neg (by omega), Nat.add_sub_cancel]
    exact (mem _).2 hn

/-- … and the sums of the weights of all paths for a pair of strings are the same. -/
theorem C31_weightOf [AddCommMonoid W] [Mul W] {f g : Fst W} {k : Nat} (h : ∀ n, live (g.accPaths n) = delay k (fun n => live (f.accPaths n)) n)
    (n : Nat) (x y : List Label) : g.weightOf n x y = if n < k then 0 else f.weightOf (n - k) x y := by
  have key : ∀ M : Multiset (PathT W), ((M.filter (fun p => p.1 = x ∧ p.2.1 = y)).map (fun p => p.2.2)).sum =
      (((live M).filter (fun p => p.1 = x ∧ p.2.1 = y)).map (fun p => p.2.2)).sum := by
    intro M
    unfold live
    induction M using Multiset.induction_on with
    | empty => rfl
    | cons p M ih =>
      by_cases hp : p.2.2 = 0
      · rw [Multiset.filter_cons_of_neg (p := fun p => p.2.2 ≠ 0) M (by simp [hp]), ← ih]
        by_cases hq : p.1 = x ∧ p.2.1 = y
        · rw [Multiset.filter_cons_of_pos (p := fun p : PathT W => p.1 = x ∧ p.2.1 = y) M hq, Multiset.map_cons, Multiset.sum_cons, hp, zero_add]
        · rw [Multiset.filter_cons_of_neg (p := fun p : PathT W => p.1 = x ∧ p.2.1 = y) M hq]
      · rw [Multiset.filter_cons_of_pos (p := fun p => p.2.2 ≠ 0) M (by simpa using hp)]
        by_cases hq : p.1 = x ∧ p.2.1 = y
        · rw [Multiset.filter_cons_of_pos (p := fun p : PathT W => p.1 = x ∧ p.2.1 = y) M hq, Multiset.filter_cons_of_pos (p := fun p : PathT W => p.1 = x ∧ p.2.1 = y) _ hq, Multiset.map_cons,
            Multiset.map_cons, Multiset.sum_cons,
            Multiset.sum_cons, ih]
        · rw [Multiset.filter_cons_of_neg (p := fun p : PathT W => p.1 = x ∧ p.2.1 = y) M hq, Multiset.filter_cons_of_neg (p := fun p : PathT W => p.1 = x ∧ p.2.1 = y) _ hq, ih]
  unfold weightOf
  rw [key, h n]
  unfold delay
  split
  · rfl
  · rw [← key]

end consequences

/-! ## Tropical weights -/

/-- `divide` of tropical weights, NaN as an error. -/
def TW.divE {K : Type u} [Sub K] (a b : TW K) : R (TW K) :=
  match TW.divide a b with
  | some c => .ok c
  | none => .error .err

section trop
variable {K : Type u} [LinearOrder K] [AddCommGroup K] [IsOrderedAddMonoid K]

theorem TW.closed : Closed (fun a : TW K => a ≠ .negInf) := by
  refine ⟨fun h => (nomatch h), fun h => (nomatch h), fun a b ha hb h => ?_, fun a b ha hb h => ?_⟩
  · change TW.plus a b = _ at h
    unfold TW.plus at h
    split at h <;> contradiction
  · change TW.times a b = _ at h
    cases a <;> cases b <;> contradiction

theorem TW.weakLeft : WeakLeft TW.divE (fun a : TW K => a ≠ .negInf) := by
  refine ⟨TW.closed, ?_, ?_, ?_⟩
  · intro a b ha hb h
    change TW.times a b = .inf at h
    change a = .inf ∨ b = .inf
    cases a <;> cases b <;> simp_all [TW.times]
  · intro a b ha hb h
    change TW.plus a b = .inf at h
    change a = .inf
    unfold TW.plus at h
    split at h
    · rename_i hlt
      subst h
      cases a <;> simp [TW.lt] at hlt
    · exact h
  · intro a b ha hb h
    cases hm : a + b with
    | negInf => exact absurd hm (TW.closed.add a b ha hb)
    | inf => exact absurd hm h
    | fin m =>
      cases a with
      | negInf => contradiction
      | inf => exact ⟨.inf, rfl, rfl⟩
      | fin x =>
        refine ⟨.fin (x - m), rfl, ?_⟩
        change TW.times (.fin m) (.fin (x - m)) = _
        simp [TW.times]

theorem TW.weakRight : WeakRight TW.divE (fun a : TW K => a ≠ .negInf) := by
  obtain ⟨a, b, c, d⟩ := TW.weakLeft (K := K)
  refine ⟨a, b, c, fun x y hx hy h => ?_⟩
  obtain ⟨v, h1, h2⟩ := d x y hx hy h
  exact ⟨v, h1, by rw [mul_comm]; exact h2⟩

/-- C31 for tropical weights: pushing in either direction keeps the accepted pairs of strings and their weights, when no transition
weight is negative and no final weight is `-∞`. -/
theorem C31_tropical {eqv : TW K → TW K → Bool} {f : Fst (TW K)} (hexact : ∀ a b, eqv a b = true ↔ b = a) (hw : f.WF) (ht : f.Truthful)
    {i : StateId} (hi : f.start = some i) (hpos : ∀ s, ∀ t ∈ f.trsOf s, t.weight.Nonneg) (hfin : ∀ s, f.finOf s ≠ some .negInf) :
    (∃ g k, EndsWith (f.pushInitial TW.divE TW.divE id id (TW.ops (K := K)).flags eqv false) (.ok g) ∧ g.WF ∧ g.Truthful ∧ k ≤ 1 ∧
      ∀ n, live (g.accPaths n) = delay k (fun n => live (f.accPaths n)) n) ∧
    (∃ g k, EndsWith (f.pushFinal TW.divE TW.divE (TW.ops (K := K)).flags eqv false) (.ok g) ∧ g.WF ∧ g.Truthful ∧ k ≤ 1 ∧
      ∀ n, live (g.accPaths n) = delay k (fun n => live (f.accPaths n)) n) := by
  have hid : ∀ a : TW K, a + a = a := fun a => by
    change TW.plus a a = a
    cases a <;> simp [TW.plus_fin]
  have hcyc := TW.cyclesAbsorbed hpos
  have hin : f.WeightsIn (fun a : TW K => a ≠ .negInf) :=
    ⟨fun s t htm h => by have := hpos s t htm; rw [h] at this; exact this, fun s w hw h => hfin s (h ▸ hw)⟩
  constructor
  · exact (C31_push_initial (divR := TW.divE) (rev := id) (back := id) (fun _ => rfl) (fun _ => rfl) rfl rfl (fun _ _ => rfl)
      (fun a b => mul_comm a b) (fun a => mul_zero a) (fun a => zero_mul a) hexact rfl (fun _ => hid) hw ht
      (.inr ⟨hid, fun n s c hc a => by rw [mul_comm c a]; exact hcyc n s c hc a⟩) TW.weakLeft hin).1
  · exact (C31_push_final (divL := TW.divE) (fun a => mul_zero a) (fun a => zero_mul a) (fun h => by cases h) hexact rfl (fun _ => hid) hw ht hi
      (.inr ⟨hid, hcyc⟩) TW.weakRight hin (fun _ _ _ a => mul_comm _ _)).1

end trop

/-! ## The hypotheses are met -/

/-- A tropical FST whose start state lies on a cycle. -/
def exPush : Fst (TW ℤ) :=
  (((((((Fst.new.addStates 3).setStart 0).addTr 0 ⟨1, 1, .fin 4, 1⟩).addTr 1 ⟨2, 2, .fin 1, 0⟩).addTr 1 ⟨3, 3, .fin 1, 2⟩).addTr
    0 ⟨4, 4, .fin 7, 2⟩).setFinal 2 (.fin 3)).setFinal 1 (.fin 9)

example : ∃ g k, EndsWith (exPush.pushInitial TW.divE TW.divE id id (TW.ops (K := ℤ)).flags (fun a b => decide (b = a)) false) (.ok g) ∧
    g.WF ∧ g.Truthful ∧ k ≤ 1 ∧ ∀ n, live (g.accPaths n) = delay k (fun n => live (exPush.accPaths n)) n := by
  have hfin : ∀ s, exPush.finOf s ≠ some .negInf := by
    intro s
    by_cases hs : s < 3
    · have : ∀ s < 3, exPush.finOf s ≠ some .negInf := by decide +kernel
      exact this s hs
    · rw [finOf_of_ge (show exPush.numStates ≤ s from Nat.le_of_not_lt hs)]; simp
  refine (C31_tropical (by simp) (Fst.wf_of_wfB (by decide)) ?_ rfl ?_ hfin).1
  · unfold exPush
    refine truthful_setFinal (truthful_setFinal (truthful_addTr (truthful_addTr (truthful_addTr (truthful_addTr (truthful_setStart
      (truthful_addStates truthful_new 3) 0) ?_ _) ?_ _) ?_ _) ?_ _) ?_ _) ?_ _ <;> decide
  · have h : ∀ s, ∀ t ∈ exPush.trsOf s, ∃ x : Nat, t.weight = TW.fin (x : ℤ) := by
      intro s
      by_cases hs : s < 3
      · have : ∀ s < 3, ∀ t ∈ exPush.trsOf s, ∃ x ∈ List.range 10, t.weight = TW.fin (x : ℤ) := by decide +kernel
        intro t ht
        obtain ⟨x, -, hx⟩ := this s hs t ht
        exact ⟨x, hx⟩
      · rw [trsOf_of_ge (show exPush.numStates ≤ s from Nat.le_of_not_lt hs)]
        intro t ht; cases ht
    intro s t ht
    obtain ⟨x, hx⟩ := h s t ht
    rw [hx]
    exact Int.natCast_nonneg x

/-- What is computed: a new start state with the total weight 8, and the other states normalised. -/
example : (match exPush.pushInitial TW.divE TW.divE id id (TW.ops (K := ℤ)).flags (fun a b => decide (b = a)) false 20 with
    | some (.ok g) => decide (g.start = some 3 ∧ g.trsOf 3 = [⟨EPS, EPS, .fin 8, 0⟩] ∧ g.finOf 1 = some (.fin 5) ∧ g.finOf 2 = some (.fin 0) ∧
        (g.trsOf 1).map (·.weight) = [.fin 5, .fin 0] ∧ (g.trsOf 0).map (·.weight) = [.fin 0, .fin 2])
    | _ => false) = true := by decide +kernel

/-! ## What fails -/

/-- Defect: towards the final states the new final weight is `final ⊗ potential` (reweight.rs 87-89) where it must be
`potential ⊗ final`. Over 2×2 matrices, an invertible potential changes the only path. -/
def exMat : Fst (Matrix (Fin 2) (Fin 2) ℤ) := ((Fst.new.addStates 1).setStart 0).setFinal 0 !![1, 0; 1, 1]

def matDiv (a b : Matrix (Fin 2) (Fin 2) ℤ) : R (Matrix (Fin 2) (Fin 2) ℤ) := .ok (a * !![b 1 1, - b 0 1; - b 1 0, b 0 0])

theorem C31_noncommutative_defect : exMat.WF ∧ matDiv 1 !![1, 1; 0, 1] = .ok !![1, -1; 0, 1] ∧ (!![1, -1; 0, 1] * !![1, 1; 0, 1] : Matrix (Fin 2) (Fin 2) ℤ) = 1 ∧
    exMat.accPaths 0 = {([], [], !![1, 0; 1, 1])} ∧
    ∃ g, exMat.reweight matDiv matDiv .toFinal [!![1, 1; 0, 1]] = .ok g ∧ g.accPaths 0 = {([], [], !![0, -1; 1, 2])} := by
  refine ⟨Fst.wf_of_wfB (by decide +kernel), by decide +kernel, by decide +kernel, by decide +kernel, ?_⟩
  have h : (match exMat.reweight matDiv matDiv .toFinal [!![1, 1; 0, 1]] with
    | .ok g => decide (g.accPaths 0 = {([], [], !![0, -1; 1, 2])})
    | _ => false) = true := by decide +kernel
  cases hr : exMat.reweight matDiv matDiv .toFinal [!![1, 1; 0, 1]] with
  | error e => rw [hr] at h; cases h
  | ok g => rw [hr] at h; exact ⟨g, rfl, of_decide_eq_true h⟩

/-- What the documentation of `push_weights` promises fails when a transition leads to a state from which no final state is reached:
its weight is kept, and the sum at the state is not one. -/
def exDead : Fst ℚ :=
  (((((Fst.new.addStates 4).setStart 0).addTr 0 ⟨1, 1, 1, 1⟩).addTr 1 ⟨2, 2, 1 / 2, 2⟩).addTr 1 ⟨3, 3, 5, 3⟩).setFinal 2 1

theorem C31_not_normalised : exDead.WF ∧
    ∃ g, exDead.pushInitial probDivide probDivide id id ⟨true, true, true, false, false⟩ (fun a b => decide (b = a)) false 20 = some (.ok g) ∧
      (g.finOf 1).getD 0 + ((g.trsOf 1).map fun t => t.weight).sum = 6 := by
  refine ⟨Fst.wf_of_wfB (by decide +kernel), ?_⟩
  have h : (match exDead.pushInitial probDivide probDivide id id ⟨true, true, true, false, false⟩ (fun a b => decide (b = a)) false 20 with
    | some (.ok g) => decide ((g.finOf 1).getD 0 + ((g.trsOf 1).map fun t => t.weight).sum = 6)
    | _ => false) = true := by decide +kernel
  cases hr : exDead.pushInitial probDivide probDivide id id ⟨true, true, true, false, false⟩ (fun a b => decide (b = a)) false 20 with
  | none => rw [hr] at h; cases h
  | some r =>
    rw [hr] at h
    cases r with
    | error e => cases h
    | ok g => exact ⟨g, rfl, of_decide_eq_true h⟩

end Verif
