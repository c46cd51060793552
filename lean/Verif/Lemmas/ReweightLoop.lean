import Verif.Model.Reweight
import Verif.Lemmas.TrMap
import Verif.Lemmas.Reweigh
import Verif.Lemmas.Truthful
import Verif.Lemmas.Counters

/-! # The loops of `reweight` and `push` -/

namespace Verif
set_option linter.unusedSectionVars false
universe u
variable {W : Type u} [Zero W] [One W] [DecidableEq W]

/-- Induction over a fallible `for i in 0..n` whose body succeeds. -/
theorem foldlM_range_induct {β : Type*} (P : Nat → β → Prop) (step : β → Nat → R β) (n : Nat) (b : β) (h0 : P 0 b)
    (hs : ∀ i b, i < n → P i b → ∃ b', step b i = .ok b' ∧ P (i + 1) b') : ∃ b', (List.range n).foldlM step b = .ok b' ∧ P n b' := by
  induction n with
  | zero => exact ⟨b, rfl, h0⟩
  | succ n ih =>
    obtain ⟨b1, h1, h2⟩ := ih (fun i b hi => hs i b (by omega))
    obtain ⟨b2, h3, h4⟩ := hs n b1 (by omega) h2
    refine ⟨b2, ?_, h4⟩
    rw [List.range_succ, List.foldlM_append, h1]
    simp only [List.foldlM_cons, List.foldlM_nil, h3, bind, Except.bind, pure, Except.pure]

namespace Fst

/-- `g` is `f` with the transition weights rewritten by `kt` and the final weights by `kf`. -/
structure Weighed (f g : Fst W) (kt : StateId → Tr W → W) (kf : StateId → W → W) : Prop where
  trs : ∀ s, g.trsOf s = (f.trsOf s).map fun t => { t with weight := kt s t }
  fin : ∀ s, g.finOf s = (f.finOf s).map (kf s)
  num : g.numStates = f.numStates
  start : g.start = f.start
  truthful : f.Truthful → g.Truthful
  counters : f.AllCounters → g.AllCounters

theorem map_keep (l : List (Tr W)) : (l.map fun t => { t with weight := t.weight }) = l := by
  conv_rhs => rw [← List.map_id l]
  rfl

theorem Weighed.rfl {f : Fst W} : Weighed f f (fun _ t => t.weight) (fun _ w => w) :=
  ⟨fun s => (map_keep _).symm, fun s => by simp, Eq.refl _, Eq.refl _, id, id⟩

theorem Weighed.trans {f g h : Fst W} {kt kf kt' kf'} (a : Weighed f g kt kf) (b : Weighed g h kt' kf') :
    Weighed f h (fun s t => kt' s { t with weight := kt s t }) (fun s w => kf' s (kf s w)) :=
  ⟨fun s => by rw [b.trs, a.trs, List.map_map]; rfl, fun s => by rw [b.fin, a.fin, Option.map_map]; rfl, b.num.trans a.num,
    b.start.trans a.start, fun h => b.truthful (a.truthful h), fun h => b.counters (a.counters h)⟩

theorem Weighed.congr {f g : Fst W} {kt kf kt' kf'} (a : Weighed f g kt kf) (ht : ∀ s, ∀ t ∈ f.trsOf s, kt s t = kt' s t)
    (hf : ∀ s w, f.finOf s = some w → kf s w = kf' s w) : Weighed f g kt' kf' :=
  ⟨fun s => by
    rw [a.trs]
    exact List.map_congr_left fun t h => by rw [ht s t h], fun s => by
    rw [a.fin]
    cases h : f.finOf s with
    | none => rfl
    | some w => simp [hf s w h], a.num, a.start, a.truthful, a.counters⟩

theorem Weighed.shape {f g : Fst W} {kt kf} (a : Weighed f g kt kf) : SameShape f g :=
  ⟨fun s => by rw [a.trs, List.map_map]; rfl, fun s => by rw [a.fin]; simp, a.num, a.start⟩

theorem setWeightR_spec {f : Fst W} {s i : Nat} {t : Tr W} (h : (f.trsOf s)[i]? = some t) (w : W) :
    TrsSet f (f.setWeightR s i w).1 s ((f.trsOf s).set i { t with weight := w }) ∧ (f.Truthful → (f.setWeightR s i w).1.Truthful) := by
  have hl : s < f.states.length := Fst.lt_of_mem_trsOf (List.mem_of_getElem? h)
  unfold Fst.setWeightR
  rw [if_pos hl, h]
  simp only
  refine ⟨⟨?_, ?_, ?_, ?_, ?_⟩, ?_⟩
  · intro q; rw [Fst.replaceTr_trsOf]
  · intro q; simp
  · simp
  · simp
  · intro hc
    exact Fst.allCounters_replaceTr hc h (Or.inr ⟨rfl, rfl⟩) (Or.inr ⟨rfl, rfl⟩)
  · intro ht
    exact truthful_replaceTr ht h fun b hb => updOk_newWeights ht (List.mem_of_getElem? h) w b hb

/-- The loop over the transitions of one state. -/
theorem weighTrs_spec {h : Tr W → R (Option W)} {f : Fst W} {s : StateId} (k : Tr W → W)
    (hk : ∀ t ∈ f.trsOf s, ∃ o, h t = .ok o ∧ k t = o.getD t.weight) :
    ∃ g, f.weighTrs h s = .ok g ∧ Weighed f g (fun q t => if q = s then k t else t.weight) (fun _ w => w) := by
  have := foldlM_range_induct (fun n (g : Fst W) =>
      (∀ j, (g.trsOf s)[j]? = if j < n then ((f.trsOf s)[j]?.map fun t => { t with weight := k t }) else (f.trsOf s)[j]?) ∧
      (∀ q, q ≠ s → g.trsOf q = f.trsOf q) ∧ (∀ q, g.finOf q = f.finOf q) ∧ g.numStates = f.numStates ∧ g.start = f.start ∧
      (f.Truthful → g.Truthful) ∧ (f.AllCounters → g.AllCounters)) (weighTr h s) (f.trsOf s).length f
      ⟨by simp, fun _ _ => rfl, fun _ => rfl, rfl, rfl, id, id⟩ (by
        rintro i g hi ⟨h1, h2, h3, h4, h5, h6, h7⟩
        obtain ⟨t, ht⟩ : ∃ t, (f.trsOf s)[i]? = some t := ⟨_, List.getElem?_eq_getElem hi⟩
        have hg : (g.trsOf s)[i]? = some t := by rw [h1, if_neg (by omega), ht]
        obtain ⟨o, ho, hko⟩ := hk t (List.mem_of_getElem? ht)
        unfold weighTr
        rw [hg]
        simp only [ho]
        cases o with
        | none =>
          refine ⟨g, rfl, ?_, h2, h3, h4, h5, h6, h7⟩
          intro j
          rw [h1]
          by_cases hj : j = i
          · subst hj
            rw [if_neg (by omega), if_pos (by omega), ht]
            simp [hko]
          · by_cases hj' : j < i
            · rw [if_pos hj', if_pos (by omega)]
            · rw [if_neg hj', if_neg (by omega)]
        | some w =>
          obtain ⟨hs, htr⟩ := setWeightR_spec hg w
          refine ⟨_, rfl, ?_, ?_, ?_, ?_, ?_, ?_, ?_⟩
          · intro j
            rw [hs.trs, if_pos rfl, List.getElem?_set]
            by_cases hj : i = j
            · subst hj
              have hlen : i < (g.trsOf s).length := (List.getElem?_eq_some_iff.1 hg).1
              rw [if_pos rfl, if_pos hlen, if_pos (by omega), ht]
              simp [hko]
            · rw [if_neg hj, h1]
              by_cases hj' : j < i
              · rw [if_pos hj', if_pos (by omega)]
              · rw [if_neg hj', if_neg (by omega)]
          · intro q hq; rw [hs.trs, if_neg hq, h2 q hq]
          · intro q; rw [hs.fin, h3]
          · rw [hs.num, h4]
          · rw [hs.start, h5]
          · exact fun h => htr (h6 h)
          · exact fun h => hs.counters (h7 h))
  obtain ⟨g, hg, h1, h2, h3, h4, h5, h6, h7⟩ := this
  refine ⟨g, hg, ?_, ?_, h4, h5, h6, h7⟩
  · intro q
    by_cases hq : q = s
    · subst hq
      apply List.ext_getElem?
      intro j
      rw [h1, List.getElem?_map]
      simp only [if_true]
      split
      · rfl
      · rename_i hj
        rw [List.getElem?_eq_none (by omega)]; rfl
    · rw [h2 q hq]
      simp only [if_neg hq]
      exact (map_keep _).symm
  · intro q; rw [h3]; simp

/-- Replacing one final weight. -/
theorem weighFin_spec {h : W → R (Option W)} {f : Fst W} {s : StateId} (k : W → W)
    (hk : ∀ w, f.finOf s = some w → ∃ o, h w = .ok o ∧ k w = o.getD w) :
    ∃ g, f.weighFin h s = .ok g ∧ Weighed f g (fun _ t => t.weight) (fun q w => if q = s then k w else w) := by
  unfold weighFin
  cases hf : f.finOf s with
  | none =>
    refine ⟨f, rfl, Weighed.rfl.congr (fun _ _ _ => rfl) fun q w hw => ?_⟩
    by_cases hq : q = s
    · subst hq; rw [hf] at hw; cases hw
    · rw [if_neg hq]
  | some w =>
    obtain ⟨o, ho, hko⟩ := hk w hf
    simp only [ho]
    cases o with
    | none =>
      refine ⟨f, rfl, Weighed.rfl.congr (fun _ _ _ => rfl) fun q w' hw => ?_⟩
      by_cases hq : q = s
      · subst hq; rw [hf] at hw; cases hw
        rw [if_pos rfl, hko]; rfl
      · rw [if_neg hq]
    | some w' =>
      have hl : s < f.numStates := by
        by_contra hge
        rw [finOf_of_ge (by omega)] at hf; cases hf
      refine ⟨_, rfl, ⟨?_, ?_, ?_, ?_, fun ht => truthful_setFinal ht hl w', fun hc => allCounters_setFinal hc s w'⟩⟩
      · intro q; rw [setFinal_trsOf]; exact (map_keep _).symm
      · intro q
        rw [setFinal_finOf]
        by_cases hq : q = s
        · subst hq; rw [if_pos ⟨rfl, hl⟩, hf]; simp [hko]
        · rw [if_neg (fun h => hq h.1)]; simp [hq]
      · simp
      · rfl

/-- A loop over the states whose body rewrites the weights of one state. -/
theorem weighStates_spec {body : Fst W → StateId → R (Fst W)} {f : Fst W} (kt : StateId → Tr W → W) (kf : StateId → W → W)
    (hb : ∀ g s, s < f.numStates → g.trsOf s = f.trsOf s → g.finOf s = f.finOf s →
      ∃ g', body g s = .ok g' ∧ Weighed g g' (fun q t => if q = s then kt q t else t.weight) (fun q w => if q = s then kf q w else w)) :
    ∃ g, (List.range f.numStates).foldlM body f = .ok g ∧ Weighed f g kt kf := by
  obtain ⟨g, hg, hw⟩ := foldlM_range_induct (fun n (g : Fst W) =>
      Weighed f g (fun q t => if q < n then kt q t else t.weight) (fun q w => if q < n then kf q w else w)) body f.numStates f
      (Weighed.rfl.congr (fun _ _ _ => by simp) (fun _ _ _ => by simp)) (by
        intro i g hi hg
        obtain ⟨g', h1, h2⟩ := hb g i hi
          (by rw [hg.trs]; simp only [Nat.lt_irrefl, if_false]; exact map_keep _)
          (by rw [hg.fin]; simp)
        refine ⟨g', h1, (hg.trans h2).congr (fun s t ht => ?_) (fun s w hw => ?_)⟩
        · by_cases hs : s = i
          · subst hs; simp
          · by_cases hs' : s < i
            · simp only [if_neg hs, if_pos hs', if_pos (show s < i + 1 by omega)]
            · simp only [if_neg hs, if_neg hs', if_neg (show ¬ s < i + 1 by omega)]
        · by_cases hs : s = i
          · subst hs; simp
          · by_cases hs' : s < i
            · simp only [if_neg hs, if_pos hs', if_pos (show s < i + 1 by omega)]
            · simp only [if_neg hs, if_neg hs', if_neg (show ¬ s < i + 1 by omega)])
  refine ⟨g, hg, hw.congr (fun s t ht => if_pos (lt_of_mem_trsOf ht)) (fun s w hw => if_pos ?_)⟩
  by_contra hge
  rw [finOf_of_ge (by omega)] at hw; cases hw

end Fst
end Verif
