import Verif.Props.C31Push
import Verif.Props.C50Mappers
import Verif.Lemmas.MergedLang

/-! # What pushing and rounding do to the shape of an FST -/

namespace Verif
universe u v
set_option linter.unusedSectionVars false
open Fst

namespace Fst
section
variable {W : Type u}

/-- `g` has the labels and the final states of `f`; other states have one ε-transition and are not final. -/
def Skeleton (f g : Fst W) : Prop := ∀ s,
  ((g.trsOf s).map (fun t => (t.ilabel, t.olabel)) = (f.trsOf s).map (fun t => (t.ilabel, t.olabel)) ∧ (g.finOf s).isSome = (f.finOf s).isSome) ∨
  ((∃ c i, g.trsOf s = [⟨EPS, EPS, c, i⟩]) ∧ g.finOf s = none)

theorem Skeleton.deterministic {f g : Fst W} (h : Skeleton f g) (hd : f.Deterministic) : g.Deterministic := by
  intro s
  rcases h s with ⟨h1, -⟩ | ⟨⟨c, i, h1⟩, -⟩
  · have := congrArg (List.map Prod.fst) h1
    rw [List.map_map, List.map_map] at this
    have hs := hd s
    have e : (g.trsOf s).map (·.ilabel) = (f.trsOf s).map (·.ilabel) := this
    rw [e]; exact hs
  · rw [h1]; simp

theorem Skeleton.acceptor {f g : Fst W} (h : Skeleton f g) (ha : ∀ s, ∀ t ∈ f.trsOf s, t.ilabel = t.olabel) :
    ∀ s, ∀ t ∈ g.trsOf s, t.ilabel = t.olabel := by
  intro s t ht
  rcases h s with ⟨h1, -⟩ | ⟨⟨c, i, h1⟩, -⟩
  · have : (t.ilabel, t.olabel) ∈ (g.trsOf s).map (fun t => (t.ilabel, t.olabel)) := List.mem_map.2 ⟨t, ht, rfl⟩
    rw [h1] at this
    obtain ⟨u, hu, e⟩ := List.mem_map.1 this
    have := ha s u hu
    simp only [Prod.mk.injEq] at e
    rw [← e.1, ← e.2]; exact this
  · rw [h1] at ht
    obtain rfl := List.mem_singleton.1 ht
    rfl

theorem Skeleton.unique {f g : Fst W} (h : Skeleton f g) (hd : f.Deterministic)
    (he : ∀ s, f.IsFinal s → ∀ t ∈ f.trsOf s, t.ilabel ≠ EPS) : g.UniqueTrs := by
  have hg := h.deterministic hd
  refine fun s => ⟨?_, fun w hw t ht => ?_⟩
  · have : ((g.trsOf s).map (fun t => (t.ilabel, t.olabel, t.weight))).map Prod.fst = (g.trsOf s).map (·.ilabel) := by
      rw [List.map_map]; rfl
    exact List.Nodup.of_map Prod.fst (this ▸ hg s)
  · rcases h s with ⟨h1, h2⟩ | ⟨-, h2⟩
    · rintro e
      have hf : f.IsFinal s := by unfold IsFinal; rw [← h2, hw]; rfl
      have : (t.ilabel, t.olabel) ∈ (g.trsOf s).map (fun t => (t.ilabel, t.olabel)) := List.mem_map.2 ⟨t, ht, rfl⟩
      rw [h1] at this
      obtain ⟨u, hu, e'⟩ := List.mem_map.1 this
      have h3 := he s hf u hu
      simp only [Prod.mk.injEq] at e' e
      exact h3 (e'.1.trans e.1)
    · rw [hw] at h2; cases h2

end
end Fst

section
variable {W : Type u} [AddCommMonoid W] [Monoid W] [LeftDistribClass W] {divL divR : W → W → R W} {P : W → Prop} {f : Fst W} [DecidableEq W]

/-- C31 with more about the result: only the weights change, except for a new start state with one ε-transition. -/
theorem push_initial_shape {V : Type v} [AddCommMonoid V] [Monoid V] [RightDistribClass V] [DecidableEq V] {rev : W → V} {back : V → W}
    {sf : SemiringFlags} {eqv : V → V → Bool} (hback : ∀ a, back (rev a) = a) (hrev : ∀ v, rev (back v) = v) (h0 : rev 0 = 0)
    (h1 : rev 1 = 1) (hadd : ∀ a b, rev (a + b) = rev a + rev b) (hmul : ∀ a b, rev (a * b) = rev b * rev a) (hz : ∀ a : W, a * 0 = 0)
    (hz' : ∀ a : W, 0 * a = 0) (hexact : ∀ a b, eqv a b = true ↔ b = a) (hsf : sf.right = true)
    (hidf : sf.idempotent = true → ∀ a : W, a + a = a) (hw : f.WF) (ht : f.Truthful)
    (hcase : f.NoCycles (fun _ => true) ∨ ((∀ a : W, a + a = a) ∧ f.CyclesAbsorbedLeft (fun _ => true)))
    (hdiv : WeakLeft divL P) (hf : f.WeightsIn P) (hs : f.start ≠ none) :
    ∃ g k, EndsWith (f.pushInitial divL divR rev back sf eqv false) (.ok g) ∧ g.WF ∧ g.Truthful ∧ k ≤ 1 ∧
      (∀ n, live (g.accPaths n) = delay k (fun n => live (f.accPaths n)) n) ∧ g.start ≠ none ∧ Skeleton f g ∧ g.numStates ≤ f.numStates + 1 ∧
      ((∀ a b v, P a → P b → b ≠ 0 → divL a b = .ok v → P v) → g.WeightsIn P) ∧
      ((∀ a b v, P a → P b → b ≠ 0 → divL a b = .ok v → P v) → f.WeightsIn (· ≠ 0) → g.WeightsIn (· ≠ 0)) := by
  obtain ⟨l, ⟨N, hN⟩, hl⟩ := C32_reverse hback hrev h0 h1 hadd hmul hz hexact hsf hidf hw ht hcase
  have hp := potInitial_of_distance hz hdiv hf hw hl
  obtain ⟨g, k, e1, gw, gt, hk, gp⟩ := C31_reweight_initial (divR := divR) hz hz' hw ht hp
  obtain ⟨i, hi⟩ := Option.ne_none_iff_exists'.1 hs
  have hil := hw.start_lt i hi
  obtain ⟨f1, g', w1, hg', -, -, -, -, hst⟩ := reweight_spec (divR := divR) (ty := .toInitial) hw ht (by omega)
      (fun s t htm hs => reweightTr_initial hp htm hs) (fun s w h => (newFin_initial hp h).1) (fun i hi h1 h0 => ⟨_, rfl⟩)
  rw [e1] at hg'; cases hg'
  obtain ⟨c, k', hin, hc1, hc2⟩ := hst i hi
  have hPd : ∀ s, s < f.numStates → P (pot l s) := fun s h => finalDistance_in hz hdiv.closed hf (hl s h)
  have hP1 : (∀ a b v, P a → P b → b ≠ 0 → divL a b = .ok v → P v) → f1.WeightsIn P := by
    intro hdP
    refine ⟨fun s t htm => ?_, fun s w hsw => ?_⟩
    · rw [w1.trs] at htm
      obtain ⟨t', ht', rfl⟩ := List.mem_map.1 htm
      simp only
      unfold newTr reweightTr
      by_cases hs0 : pot l s = 0
      · rw [if_pos hs0]; exact hf.1 s t' ht'
      rw [if_neg hs0]
      by_cases hn0 : pot l t'.nextstate = 0
      · rw [if_pos hn0]; exact hf.1 s t' ht'
      · rw [if_neg hn0]
        obtain ⟨v, hv, -⟩ := hp.tr s t' ht' hs0 hn0
        simp only [show divL (t'.weight * pot l t'.nextstate) (pot l s) = .ok v from hv]
        exact hdP _ _ _ (hdiv.closed.mul _ _ (hf.1 s t' ht') (hPd _ (hw.next_lt s t' ht'))) (hPd s (lt_of_mem_trsOf ht')) hs0 hv
    · rw [w1.fin] at hsw
      obtain ⟨w', hw', rfl⟩ := Option.map_eq_some_iff.1 hsw
      have hlt : s < f.numStates := IsFinal.lt (by unfold IsFinal; rw [hw']; rfl)
      unfold newFin reweightFin
      rw [if_neg (fun h => by cases h.2)]
      by_cases hs0 : pot l s = 0
      · simp only [if_pos hs0]; exact hf.2 s w' hw'
      · obtain ⟨v, hv, -⟩ := hp.fin s w' hw' hs0
        simp only [if_neg hs0, show divL w' (pot l s) = .ok v from hv]
        exact hdP _ _ _ (hf.2 s w' hw') (hPd s hlt) hs0 hv
  have hnz1 : f.WeightsIn (· ≠ 0) → f1.WeightsIn (· ≠ 0) := by
    intro hnz
    refine ⟨fun s t htm => ?_, fun s w hsw => ?_⟩
    · rw [w1.trs] at htm
      obtain ⟨t', ht', rfl⟩ := List.mem_map.1 htm
      simp only
      unfold newTr reweightTr
      by_cases hs0 : pot l s = 0
      · rw [if_pos hs0]; exact hnz.1 s t' ht'
      rw [if_neg hs0]
      by_cases hn0 : pot l t'.nextstate = 0
      · rw [if_pos hn0]; exact hnz.1 s t' ht'
      · rw [if_neg hn0]
        obtain ⟨v, hv, hv'⟩ := hp.tr s t' ht' hs0 hn0
        simp only [show divL (t'.weight * pot l t'.nextstate) (pot l s) = .ok v from hv]
        intro h0
        rw [show v = 0 from h0, hz] at hv'
        rcases hdiv.noZeroDiv _ _ (hf.1 s t' ht') (hPd _ (hw.next_lt s t' ht')) hv'.symm with h | h
        · exact hnz.1 s t' ht' h
        · exact hn0 h
    · rw [w1.fin] at hsw
      obtain ⟨w', hw', rfl⟩ := Option.map_eq_some_iff.1 hsw
      unfold newFin reweightFin
      rw [if_neg (fun h => by cases h.2)]
      by_cases hs0 : pot l s = 0
      · simp only [if_pos hs0]; exact hnz.2 s w' hw'
      · obtain ⟨v, hv, hv'⟩ := hp.fin s w' hw' hs0
        simp only [if_neg hs0, show divL w' (pot l s) = .ok v from hv]
        intro h0
        rw [show v = 0 from h0, hz] at hv'
        exact hnz.2 s w' hw' hv'.symm
  have hcnz : ∀ a : W, P a → a ≠ 0 → c * a ≠ 0 := by
    intro a ha h0
    by_cases h : pot l i = 1 ∨ pot l i = 0
    · rw [(hc1 h).1, one_mul]; exact h0
    · obtain ⟨hb, hb'⟩ := not_or.1 h
      have := (hc2 hb hb').1
      cases this
      intro he
      rcases hdiv.noZeroDiv _ _ (hPd i hil) ha he with h | h
      · exact hb' h
      · exact h0 h
  have hPc : P c := by
    by_cases h : pot l i = 1 ∨ pot l i = 0
    · rw [(hc1 h).1]; exact hdiv.closed.one
    · obtain ⟨ha, hb⟩ := not_or.1 h
      have := (hc2 ha hb).1
      cases this
      exact hPd i hil
  have sk1 : ∀ s, (f1.trsOf s).map (fun t => (t.ilabel, t.olabel)) = (f.trsOf s).map (fun t => (t.ilabel, t.olabel)) ∧ (f1.finOf s).isSome = (f.finOf s).isSome := by
    intro s
    rw [w1.trs, w1.fin, List.map_map, Option.isSome_map]
    exact ⟨rfl, rfl⟩
  refine ⟨g, k, ⟨N, fun n hn => ?_⟩, gw, gt, hk, gp, ?_⟩
  · unfold pushInitial
    rw [hN n hn]
    simp [pushWith, e1]
  cases hin with
  | same _ a b c' d =>
    refine ⟨by rw [d, w1.start]; exact hs, fun s => .inl (by rw [a, b]; exact sk1 s), by rw [c', w1.num]; omega, fun h => ?_,
      fun _ hnz => ⟨fun s t htm => (hnz1 hnz).1 s t (a s ▸ htm), fun s w hsw => (hnz1 hnz).2 s w (b s ▸ hsw)⟩⟩
    exact ⟨fun s t htm => (hP1 h).1 s t (a s ▸ htm), fun s w hsw => (hP1 h).2 s w (b s ▸ hsw)⟩
  | «at» _ w2 =>
    refine ⟨by rw [w2.start, w1.start]; exact hs, fun s => .inl ?_, by rw [w2.num, w1.num]; omega, fun h => ⟨fun s t htm => ?_, fun s w hsw => ?_⟩,
      fun h hnz => ⟨fun s t htm => ?_, fun s w hsw => ?_⟩⟩
    · rw [w2.trs, w2.fin, List.map_map, Option.isSome_map]
      exact sk1 s
    · rw [w2.trs] at htm
      obtain ⟨t', ht', rfl⟩ := List.mem_map.1 htm
      have := (hP1 h).1 s t' ht'
      simp only
      split
      · exact hdiv.closed.mul _ _ hPc this
      · exact this
    · rw [w2.fin] at hsw
      obtain ⟨w', hw', rfl⟩ := Option.map_eq_some_iff.1 hsw
      have := (hP1 h).2 s w' hw'
      split
      · exact hdiv.closed.mul _ _ hPc this
      · exact this
    · rw [w2.trs] at htm
      obtain ⟨t', ht', rfl⟩ := List.mem_map.1 htm
      have := (hnz1 hnz).1 s t' ht'
      simp only
      split
      · exact hcnz _ ((hP1 h).1 s t' ht') this
      · exact this
    · rw [w2.fin] at hsw
      obtain ⟨w', hw', rfl⟩ := Option.map_eq_some_iff.1 hsw
      have := (hnz1 hnz).2 s w' hw'
      split
      · exact hcnz _ ((hP1 h).2 s w' hw') this
      · exact this
  | new a b c' d =>
    refine ⟨by rw [d]; simp, fun s => ?_, by rw [c', w1.num], fun h => ⟨fun s t htm => ?_, fun s w hsw => (hP1 h).2 s w (b s ▸ hsw)⟩,
      fun h hnz => ⟨fun s t htm => ?_, fun s w hsw => (hnz1 hnz).2 s w (b s ▸ hsw)⟩⟩
    · by_cases hsn : s = f1.numStates
      · subst hsn
        exact .inr ⟨⟨c, i, by rw [a, if_pos rfl]⟩, by rw [b, finOf_of_ge (Nat.le_refl _)]⟩
      · rw [a, if_neg hsn, b]; exact .inl (sk1 s)
    · rw [a] at htm
      split at htm
      · obtain rfl := List.mem_singleton.1 htm
        exact hPc
      · exact (hP1 h).1 s t htm
    · rw [a] at htm
      split at htm
      · obtain rfl := List.mem_singleton.1 htm
        intro h0
        by_cases hpi : pot l i = 1 ∨ pot l i = 0
        · exact absurd (hc1 hpi).2 (by omega)
        · obtain ⟨hb, hb'⟩ := not_or.1 hpi
          have hcp := (hc2 hb hb').1
          cases hcp
          exact hb' h0
      · exact (hnz1 hnz).1 s t htm

/-- Rounding replaces the weights. -/
theorem quantized_spec (q : W → R W) (qf : W → W) (hq : ∀ w, q w = .ok (qf w)) (f : Fst W) (hs : f.start ≠ none) (hw : f.WF) (ht : f.Truthful) :
    ∃ g, f.trMap (quantizeMapper q) () = .ok ((), g) ∧ g.WF ∧ g.Truthful ∧ g.start = f.start ∧ g.numStates = f.numStates ∧
      (∀ s, g.trsOf s = (f.trsOf s).map fun t => { t with weight := qf t.weight }) ∧ (∀ s, g.finOf s = (f.finOf s).map qf) := by
  obtain rfl : q = fun w => .ok (qf w) := funext hq
  obtain ⟨h1, h2⟩ := C50_simple (tr := (fun t => .ok { t with weight := qf t.weight } : Tr W → R (Tr W)))
    (fin := fun w => .ok (qf w)) (p := fun p => p.and Props.weightInvariantMask) f hs
  obtain ⟨g, hg⟩ := h1.2 ⟨fun _ t _ => ⟨_, rfl⟩, fun _ w _ => ⟨_, rfl⟩⟩
  obtain ⟨hm, hp⟩ := h2 g hg
  have ht' : ∀ s, g.trsOf s = (f.trsOf s).map fun t => { t with weight := qf t.weight } := fun s =>
    forall₂_ok (k := fun t => { t with weight := qf t.weight }) (hm.trs s)
  refine ⟨g, hg, ⟨fun i hi => by rw [hm.num]; exact hw.start_lt i (hm.start ▸ hi), fun s t htm => ?_⟩, C50_flags_weights (fun w => .ok (qf w)) f g ht hg, hm.start, hm.num, ht',
    fun s => rel_ok (k := qf) (hm.fin s)⟩
  rw [ht'] at htm
  obtain ⟨t', htm', rfl⟩ := List.mem_map.1 htm
  rw [hm.num]; exact hw.next_lt s t' htm'

theorem Fst.Skeleton.weights {f g h : Fst W} {qf : W → W} (sk : Skeleton f g) (ht : ∀ s, h.trsOf s = (g.trsOf s).map fun t => { t with weight := qf t.weight })
    (hf : ∀ s, h.finOf s = (g.finOf s).map qf) : Skeleton f h := by
  intro s
  rcases sk s with ⟨h1, h2⟩ | ⟨⟨c, i, h1⟩, h2⟩
  · refine .inl ⟨?_, by rw [hf, Option.isSome_map, h2]⟩
    rw [ht, List.map_map]; exact h1
  · exact .inr ⟨⟨qf c, i, by rw [ht, h1]; rfl⟩, by rw [hf, h2]; rfl⟩
end
end Verif
