import Verif.Lemmas.ReweightStart
import Verif.Lemmas.PushSums
import Verif.Props.C32

/-!
# C31: reweighting and weight pushing preserve what is computed

For every vector of potentials that divides as it should (`PotInitial`, `PotFinal`) `reweight` keeps the accepting paths and their
weights; when the potential of the start state is not one and the start state lies on a cycle, every path gets one leading
ε-transition (`delay`). The shortest distances that pushing uses always are such potentials, when division is weak division
(`(a + b) ⊗ ((a + b) \ a) = a`) on a closed set `P` of weights without zero divisors. With `remove_total_weight` every weight is divided
by the sum of the weights of all accepting paths.
-/

namespace Verif
universe u v
set_option linter.unusedSectionVars false
open Fst

section
variable {W : Type u} [Zero W] [Monoid W] [Add W] [DecidableEq W]

theorem reweightTr_initial {divL divR : W → W → R W} {f : Fst W} {d : List W} (hp : f.PotInitial divL (pot d)) {s : StateId} {t : Tr W}
    (ht : t ∈ f.trsOf s) (hs : pot d s ≠ 0) : ∃ o, reweightTr divL divR .toInitial d s t = .ok o := by
  unfold reweightTr
  by_cases hn : pot d t.nextstate = 0
  · exact ⟨none, if_pos hn⟩
  · obtain ⟨v, hv, -⟩ := hp.tr s t ht hs hn
    exact ⟨some v, by rw [if_neg hn]; simp only [hv]; rfl⟩

theorem reweightTr_final {divL divR : W → W → R W} {f : Fst W} {d : List W} (hp : f.PotFinal divR (pot d)) {s : StateId} {t : Tr W}
    (ht : t ∈ f.trsOf s) (hs : pot d s ≠ 0) : ∃ o, reweightTr divL divR .toFinal d s t = .ok o := by
  unfold reweightTr
  by_cases hn : pot d t.nextstate = 0
  · exact ⟨none, if_pos hn⟩
  · obtain ⟨v, hv, -⟩ := hp.tr s t ht hs hn
    exact ⟨some v, by rw [if_neg hn]; simp only [hv]; rfl⟩

theorem newTr_initial {divL divR : W → W → R W} {f : Fst W} {d : List W} (hp : f.PotInitial divL (pot d)) {s : StateId} {t : Tr W}
    (ht : t ∈ f.trsOf s) : (pot d s ≠ 0 → pot d t.nextstate ≠ 0 →
      pot d s * newTr divL divR .toInitial d s t = t.weight * pot d t.nextstate) ∧
    (pot d s = 0 ∨ pot d t.nextstate = 0 → newTr divL divR .toInitial d s t = t.weight) := by
  constructor
  · intro hs hn
    obtain ⟨v, hv, h⟩ := hp.tr s t ht hs hn
    unfold newTr reweightTr
    rw [if_neg hs, if_neg hn]
    simp only [hv]
    exact h
  · rintro (h | h)
    · exact if_pos h
    · unfold newTr reweightTr
      rw [if_pos h]
      split <;> rfl

theorem newFin_initial {divL : W → W → R W} {f : Fst W} {d : List W} (hp : f.PotInitial divL (pot d)) {s : StateId} {w : W}
    (hw : f.finOf s = some w) : (∃ o, reweightFin divL .toInitial d s w = .ok o) ∧ (pot d s ≠ 0 → pot d s * newFin divL .toInitial d s w = w) ∧
    (pot d s = 0 → newFin divL .toInitial d s w = w) := by
  by_cases hs : pot d s = 0
  · refine ⟨⟨none, if_pos hs⟩, fun h => absurd hs h, fun _ => ?_⟩
    unfold newFin reweightFin
    simp [hs]
  · obtain ⟨v, hv, h⟩ := hp.fin s w hw hs
    refine ⟨⟨some v, ?_⟩, fun _ => ?_, fun h => absurd h hs⟩
    · unfold reweightFin; simp only [if_neg hs, hv]; rfl
    · have : newFin divL .toInitial d s w = v := by
        unfold newFin reweightFin
        rw [if_neg (fun h => by cases h.2)]
        simp only [if_neg hs, hv]; rfl
      rw [this, h]

theorem newTr_final (hz : ∀ a : W, a * 0 = 0) {divL divR : W → W → R W} {f : Fst W} {d : List W} (hp : f.PotFinal divR (pot d)) {s : StateId} {t : Tr W}
    (ht : t ∈ f.trsOf s) (hs : pot d s ≠ 0) : (pot d t.nextstate ≠ 0 →
      newTr divL divR .toFinal d s t * pot d t.nextstate = pot d s * t.weight) ∧
    (pot d t.nextstate = 0 → t.weight = 0 ∧ newTr divL divR .toFinal d s t = 0) := by
  constructor
  · intro hn
    obtain ⟨v, hv, h⟩ := hp.tr s t ht hs hn
    unfold newTr reweightTr
    rw [if_neg hs, if_neg hn]
    simp only [hv]
    exact h
  · intro h
    have h0 := hp.dead s t ht hs h
    refine ⟨h0, ?_⟩
    unfold newTr reweightTr
    rw [if_pos h, if_neg hs]
    exact h0

theorem newFin_final {divL divR : W → W → R W} {f : Fst W} {d : List W} (hp : f.PotFinal divR (pot d)) {s : StateId} {w : W}
    (hw : f.finOf s = some w) (hs : pot d s ≠ 0) : newFin divL .toFinal d s w = pot d s * w := by
  unfold newFin reweightFin
  have : ¬ d.length ≤ s := fun h => hs (pot_ge h)
  rw [if_neg (fun h => this h.1)]
  exact hp.comm s w hw hs

theorem empty_paths {f : Fst W} (h : f.numStates = 0) (n : Nat) : f.accPaths n = 0 := by
  unfold accPaths
  cases f.start with
  | none => rfl
  | some i => exact pathsFrom_ge (by omega) n

/-- C31: `reweight` towards the initial state. -/
theorem C31_reweight_initial (hz : ∀ a : W, a * 0 = 0) (hz' : ∀ a : W, 0 * a = 0) {divL divR : W → W → R W} {d : List W} {f : Fst W}
    (hw : f.WF) (ht : f.Truthful) (hp : f.PotInitial divL (fun s => d[s]?.getD 0)) :
    ∃ g k, f.reweight divL divR .toInitial d = .ok g ∧ g.WF ∧ g.Truthful ∧ k ≤ 1 ∧
      ∀ n, live (g.accPaths n) = delay k (fun n => live (f.accPaths n)) n := by
  by_cases hn : f.numStates = 0
  · refine ⟨f, 0, by unfold reweight; rw [if_pos hn], hw, ht, by omega, fun n => ?_⟩
    rw [delay_zero]
  · obtain ⟨f1, g, w1, hg, gw, gt, -, hno, hst⟩ := reweight_spec (divR := divR) (ty := .toInitial) hw ht hn
      (fun s t htm hs => reweightTr_initial hp htm hs) (fun s w h => (newFin_initial hp h).1) (fun i hi h1 h0 => ⟨_, rfl⟩)
    have hpaths := initial_paths hz hz' w1 (fun s t htm => (newTr_initial hp htm).1) (fun s t htm => (newTr_initial hp htm).2)
      (fun s w h => (newFin_initial hp h).2.1) (fun s w h => (newFin_initial hp h).2.2) hp.dead
    cases hs : f.start with
    | none =>
      refine ⟨g, 0, hg, gw, gt, by omega, fun n => ?_⟩
      rw [accPaths_none (hno hs).1, delay_zero]
      simp [accPaths_none hs]
    | some i =>
      obtain ⟨c, k, hin, h1, h2⟩ := hst i hs
      refine ⟨g, k, hg, gw, gt, ?_, fun n => ?_⟩
      · cases hin <;> omega
      · rw [hin.accPaths (w1.shape.wf hw) (w1.start.trans hs), live_delay]
        congr 1
        funext n
        rw [accPaths_some hs, ← hpaths n i]
        by_cases hd : pot d i = 0
        · have hdf := dead_paths (f := f) hz hz' hp.dead n i hd
          obtain ⟨rfl, -⟩ := h1 (.inr hd)
          rw [hpaths n i, live_eq_zero hdf]
          have hone : (PathT.scale 1 : PathT W → PathT W) = id := by funext p; simp [PathT.scale]
          rw [hone, Multiset.map_id]
          refine live_eq_zero (dead_paths (d := pot d) hz hz' (fun s hs0 => ⟨fun w hw' => ?_, fun t htm => ?_⟩) n i hd)
          · rw [w1.fin] at hw'
            obtain ⟨w', ha, rfl⟩ := Option.map_eq_some_iff.1 hw'
            rw [(newFin_initial hp ha).2.2 hs0, (hp.dead s hs0).1 w' ha]
          · rw [w1.trs] at htm
            obtain ⟨t', ha, rfl⟩ := List.mem_map.1 htm
            simp only
            rw [(newTr_initial hp ha).2 (.inl hs0)]
            exact (hp.dead s hs0).2 t' ha
        · by_cases hd1 : pot d i = 1
          · rw [(h1 (.inl hd1)).1, hd1]
          · have := (h2 hd1 hd).1
            cases this
            rfl

/-- C31: `reweight` towards the final states. -/
theorem C31_reweight_final (hz : ∀ a : W, a * 0 = 0) (hz' : ∀ a : W, 0 * a = 0) {divL divR : W → W → R W} {d : List W} {f : Fst W}
    (hw : f.WF) (ht : f.Truthful) (hp : f.PotFinal divR (fun s => d[s]?.getD 0)) :
    ∃ g k, f.reweight divL divR .toFinal d = .ok g ∧ g.WF ∧ g.Truthful ∧ k ≤ 1 ∧
      ∀ n, live (g.accPaths n) = delay k (fun n => live (f.accPaths n)) n := by
  by_cases hn : f.numStates = 0
  · refine ⟨f, 0, by unfold reweight; rw [if_pos hn], hw, ht, by omega, fun n => ?_⟩
    rw [delay_zero]
  · obtain ⟨f1, g, w1, hg, gw, gt, -, hno, hst⟩ := reweight_spec (divL := divL) (divR := divR) (ty := .toFinal) hw ht hn
      (fun s t htm hs => reweightTr_final hp htm hs) (fun s w h => ⟨_, rfl⟩)
      (fun i hi h1 h0 => by obtain ⟨v, hv, -⟩ := (hp.start i hi).2 h1; exact ⟨v, hv⟩)
    have hpaths := final_paths (d := pot d) hz hz' w1 (fun s t htm hs => (newTr_final hz hp htm hs).1) (fun s t htm hs => (newTr_final hz hp htm hs).2)
      (fun s w h hs => newFin_final hp h hs)
    cases hs : f.start with
    | none =>
      refine ⟨g, 0, hg, gw, gt, by omega, fun n => ?_⟩
      rw [accPaths_none (hno hs).1, delay_zero]
      simp [accPaths_none hs]
    | some i =>
      obtain ⟨c, k, hin, h1, h2⟩ := hst i hs
      obtain ⟨hd, hv⟩ := hp.start i hs
      refine ⟨g, k, hg, gw, gt, ?_, fun n => ?_⟩
      · cases hin <;> omega
      · rw [hin.accPaths (w1.shape.wf hw) (w1.start.trans hs), live_delay]
        congr 1
        funext n
        rw [accPaths_some hs]
        rw [live_map_congr (PathT.scale c) (fun p hp => by show c * p.2.2 = 0; rw [hp, hz]) (hpaths n i hd), Multiset.map_map]
        have hc : c * pot d i = 1 := by
          by_cases hd1 : pot d i = 1
          · rw [(h1 (.inl hd1)).1, hd1, one_mul]
          · obtain ⟨v, e1, e2⟩ := hv hd1
            have := (h2 hd1 hd).1
            rw [startFactor, show pot d i = d[i]?.getD 0 from rfl, e1] at this
            cases this
            exact e2
        have : PathT.scale c ∘ PathT.scale (pot d i) = (id : PathT W → PathT W) := by
          funext p
          simp only [Function.comp, PathT.scale, id]
          rw [← mul_assoc, hc, one_mul]
        rw [this, Multiset.map_id]

/-- C31 when no state of the FST has potential zero: the paths of weight zero are kept too. -/
theorem C31_reweight_exact {divL divR : W → W → R W} {d : List W} {f : Fst W} (hw : f.WF) (ht : f.Truthful)
    (hnz : ∀ s, s < f.numStates → d[s]?.getD 0 ≠ 0) :
    (f.PotInitial divL (fun s => d[s]?.getD 0) → ∃ g k, f.reweight divL divR .toInitial d = .ok g ∧ g.WF ∧ g.Truthful ∧ k ≤ 1 ∧
      ∀ n, g.accPaths n = delay k f.accPaths n) ∧
    (f.PotFinal divR (fun s => d[s]?.getD 0) → ∃ g k, f.reweight divL divR .toFinal d = .ok g ∧ g.WF ∧ g.Truthful ∧ k ≤ 1 ∧
      ∀ n, g.accPaths n = delay k f.accPaths n) := by
  by_cases hn : f.numStates = 0
  · exact ⟨fun _ => ⟨f, 0, by unfold reweight; rw [if_pos hn], hw, ht, by omega, fun n => by rw [delay_zero]⟩,
      fun _ => ⟨f, 0, by unfold reweight; rw [if_pos hn], hw, ht, by omega, fun n => by rw [delay_zero]⟩⟩
  have hnz' : ∀ s, s < f.numStates → pot d s ≠ 0 := hnz
  have hfl : ∀ s w, f.finOf s = some w → s < f.numStates := by
    intro s w h
    by_contra hge
    rw [finOf_of_ge (by omega)] at h; cases h
  constructor
  · intro hp
    obtain ⟨f1, g, w1, hg, gw, gt, -, hno, hst⟩ := reweight_spec (divR := divR) (ty := .toInitial) hw ht hn
      (fun s t htm hs => reweightTr_initial hp htm hs) (fun s w h => (newFin_initial hp h).1) (fun i hi h1 h0 => ⟨_, rfl⟩)
    have hpaths := initial_paths_exact (d := pot d) w1
      (fun s t htm => (newTr_initial hp htm).1 (hnz' s (lt_of_mem_trsOf htm)) (hnz' _ (hw.next_lt s t htm)))
      (fun s w h => (newFin_initial hp h).2.1 (hnz' s (hfl s w h)))
    cases hs : f.start with
    | none =>
      refine ⟨g, 0, hg, gw, gt, by omega, fun n => ?_⟩
      rw [accPaths_none (hno hs).1, delay_zero, accPaths_none hs]
    | some i =>
      obtain ⟨c, k, hin, h1, h2⟩ := hst i hs
      refine ⟨g, k, hg, gw, gt, ?_, fun n => ?_⟩
      · cases hin <;> omega
      · rw [hin.accPaths (w1.shape.wf hw) (w1.start.trans hs)]
        congr 1
        funext n
        rw [accPaths_some hs, ← hpaths n i]
        by_cases hd1 : pot d i = 1
        · rw [(h1 (.inl hd1)).1, hd1]
        · have := (h2 hd1 (hnz' i (hw.start_lt i hs))).1
          cases this
          rfl
  · intro hp
    obtain ⟨f1, g, w1, hg, gw, gt, -, hno, hst⟩ := reweight_spec (divL := divL) (divR := divR) (ty := .toFinal) hw ht hn
      (fun s t htm hs => reweightTr_final hp htm hs) (fun s w h => ⟨_, rfl⟩)
      (fun i hi h1 h0 => by obtain ⟨v, hv, -⟩ := (hp.start i hi).2 h1; exact ⟨v, hv⟩)
    have hpaths := final_paths_exact (d := pot d) w1
      (fun s t htm => by
        have hs := hnz' s (lt_of_mem_trsOf htm)
        have hn' := hnz' _ (hw.next_lt s t htm)
        obtain ⟨v, hv, h⟩ := hp.tr s t htm hs hn'
        unfold newTr reweightTr
        rw [if_neg hs, if_neg hn']
        simp only [show divR (pot d s * t.weight) (pot d t.nextstate) = .ok v from hv]
        exact h)
      (fun s w h => newFin_final hp h (hnz' s (hfl s w h)))
    cases hs : f.start with
    | none =>
      refine ⟨g, 0, hg, gw, gt, by omega, fun n => ?_⟩
      rw [accPaths_none (hno hs).1, delay_zero, accPaths_none hs]
    | some i =>
      obtain ⟨c, k, hin, h1, h2⟩ := hst i hs
      obtain ⟨hd, hv⟩ := hp.start i hs
      refine ⟨g, k, hg, gw, gt, ?_, fun n => ?_⟩
      · cases hin <;> omega
      · rw [hin.accPaths (w1.shape.wf hw) (w1.start.trans hs)]
        congr 1
        funext n
        rw [accPaths_some hs, hpaths n i, Multiset.map_map]
        have hc : c * pot d i = 1 := by
          by_cases hd1 : pot d i = 1
          · rw [(h1 (.inl hd1)).1, hd1, one_mul]
          · obtain ⟨v, e1, e2⟩ := hv hd1
            have := (h2 hd1 hd).1
            rw [startFactor, show pot d i = d[i]?.getD 0 from rfl, e1] at this
            cases this
            exact e2
        have : PathT.scale c ∘ PathT.scale (pot d i) = (id : PathT W → PathT W) := by
          funext p
          simp only [Function.comp, PathT.scale, id]
          rw [← mul_assoc, hc, one_mul]
        rw [this, Multiset.map_id]

end
end Verif
