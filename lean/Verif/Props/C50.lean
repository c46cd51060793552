import Verif.Lemmas.TrMap
import Verif.Props.C10

/-! # C50: `tr_map` applies a mapper to every transition and final weight -/

namespace Verif
set_option linter.unusedSectionVars false
universe u v
variable {W : Type u} {σ : Type v} [Zero W] [One W] [DecidableEq W]

/-- The calls of the mapper: once for each transition and final weight, state by state; the final weight one of the superfinal
state added by `MapRequireSuperfinal` is passed to the mapper too. -/
def mapCalls (act : FinalAction) (f : Fst W) : List (List (Tr W) × Option W) :=
  f.rows ++ if act = .requireSuperfinal then [([], some 1)] else []

/-- The result `g` of mapping `f`, with mapper results `out`; `place` says where the mapped final weight of a state goes. -/
structure Mapped (m : Mapper σ W) (f g : Fst W) (out : List (List (Tr W) × Option (FinalTr W)))
    (place : StateId → List (Tr W) → Option (FinalTr W) → List (Tr W) × Option W) : Prop where
  start : g.start = f.start
  num : g.numStates = f.numStates + if usesSuper m.action out then 1 else 0
  state : ∀ s, s < f.numStates → ∃ ts t, out[s]? = some (ts, t) ∧ (g.trsOf s, g.finOf s) = place s ts t
  super : usesSuper m.action out = true → g.trsOf f.numStates = [] ∧ g.finOf f.numStates = some 1
  props : g.props = m.props f.props
  counters : f.AllCounters → g.AllCounters

theorem MapInv.mapped {m : Mapper σ W} {f g : Fst W} {out sf} (inv : MapInv m.action f.numStates f f.numStates out g sf)
    (out2) (h2 : usesSuper m.action (out ++ out2) = usesSuper m.action out) :
    Mapped m f (g.setPropsMask (m.props f.props) Props.allMask) (out ++ out2)
      (fun s => placedCode m.action f.numStates (f.finOf s)) where
  start := inv.start
  num := by rw [h2]; exact inv.num
  state s hs := by
    have hl : s < out.length := by rw [inv.len]; exact hs
    refine ⟨out[s].1, out[s].2, ?_, ?_⟩
    · rw [List.getElem?_append_left hl, List.getElem?_eq_getElem hl]
    · exact inv.low s _ _ hs (List.getElem?_eq_getElem hl)
  super := by rw [h2]; exact inv.sup
  props := Fst.setPropsMask_all _ _
  counters h := Fst.allCounters_setPropsMask (inv.counters h) _ _

theorem trMap_spec (f : Fst W) (m : Mapper σ W) (k : σ) (hs : f.start ≠ none) :
    match m.runAll k (mapCalls m.action f) with
    | .error _ => ∃ e, f.trMap m k = .error e
    | .ok (k', out) =>
      (goodOut m.action out → ∃ g, f.trMap m k = .ok (k', g) ∧
        Mapped m f g out (fun s => placedCode m.action f.numStates (f.finOf s))) ∧
      (¬ goodOut m.action out → ∃ e, f.trMap m k = .error e) := by
  unfold Fst.trMap mapCalls Fst.rows
  rw [if_neg hs]
  simp only
  by_cases ha : m.action = .requireSuperfinal
  · have h0 : MapInv m.action f.numStates f 0 [] (f.addState.setFinal f.numStates 1) (some f.numStates) := by
      rw [ha]
      refine ⟨rfl, rfl, rfl, by simp [usesSuper], fun s ts t h => by omega, ?_, ?_, ?_⟩
      · intro s _ h
        rw [Fst.setFinal_trsOf, Fst.setFinal_finOf, if_neg (by omega)]
        simp
      · intro _
        rw [Fst.setFinal_trsOf, Fst.setFinal_finOf, if_pos ⟨rfl, by simp⟩, Fst.addState_trsOf, Fst.trsOf_of_ge (le_refl _)]
        exact ⟨rfl, rfl⟩
      · intro hc; exact Fst.allCounters_setFinal (Fst.allCounters_addStates hc 1) _ _
    have hu : ∀ o : List (List (Tr W) × Option (FinalTr W)), usesSuper m.action o = true := by intro o; rw [ha]; rfl
    have hgood : ∀ o : List (List (Tr W) × Option (FinalTr W)), goodOut m.action o := by
      intro o r _ h; rw [ha] at h; cases h
    have loop := mapLoop_spec m k f _ _ _ h0 f.numStates (le_refl _)
    have hini : initSuper m.action f = (f.addState.setFinal f.numStates 1, some f.numStates) := by rw [ha]; rfl
    rw [hini]
    simp only [Fst.setFinal_numStates, Fst.addState_numStates]
    rw [List.range_succ, List.foldlM_append, runAll_append, if_pos ha]
    cases hr : m.runAll k ((List.range f.numStates).map fun s => (f.trsOf s, f.finOf s)) with
    | error e =>
      rw [hr] at loop
      obtain ⟨e', he⟩ := loop
      rw [he]
      exact ⟨e', rfl⟩
    | ok r =>
      obtain ⟨k1, out⟩ := r
      rw [hr] at loop
      obtain ⟨g, sf, he, inv⟩ := loop.1 (hgood _)
      have hsf : sf = some f.numStates := by rw [inv.sfE, hu]; rfl
      subst hsf
      rw [he]
      simp only [Mapper.runAll, Mapper.runState, Mapper.runTrs, Mapper.runFin, List.foldlM_cons, List.foldlM_nil]
      have hstep : mapState m ⟨k1, g, some f.numStates⟩ f.numStates = match m.fin k1 ⟨EPS, EPS, 1⟩ with
          | .error e => .error e
          | .ok (k2, _) => .ok ⟨k2, g, some f.numStates⟩ := by
        obtain ⟨h1, h2⟩ := inv.sup (hu _)
        unfold mapState mapTrs
        simp only [h1, List.length_nil, List.range_zero, List.foldlM_nil]
        show mapFin m _ _ _ _ = _
        unfold mapFin
        rw [h2]
        simp only
        cases m.fin k1 ⟨EPS, EPS, 1⟩ with
        | error e => rfl
        | ok r =>
          simp only [ha, placeFin]
          rw [if_neg (by tauto)]
      cases hf : m.fin k1 ⟨EPS, EPS, 1⟩ with
      | error e =>
        rw [hf] at hstep
        refine ⟨e, ?_⟩
        simp only [bind, Except.bind]
        rw [hstep]
      | ok r =>
        rw [hf] at hstep
        refine ⟨fun _ => ⟨_, ?_, inv.mapped [([], some r.2)] (by rw [hu, hu])⟩, fun h => absurd (hgood _) h⟩
        simp only [bind, Except.bind]
        rw [hstep]
        rfl
  · have hini : initSuper m.action f = (f, none) := by
      unfold initSuper
      split
      · exact absurd (by assumption) ha
      · rfl
    have hu0 : usesSuper m.action ([] : List (List (Tr W) × Option (FinalTr W))) = false := by
      cases h : m.action
      · rfl
      · rfl
      · exact absurd h ha
    have h0 : MapInv m.action f.numStates f 0 [] f none := by
      refine ⟨rfl, rfl, by rw [hu0]; rfl, by rw [hu0]; rfl, fun s ts t h => by omega, fun _ _ _ => ⟨rfl, rfl⟩, ?_, id⟩
      rw [hu0]; intro h; cases h
    have loop := mapLoop_spec m k f _ _ _ h0 f.numStates (le_refl _)
    rw [hini, if_neg ha, List.append_nil]
    simp only
    cases hr : m.runAll k ((List.range f.numStates).map fun s => (f.trsOf s, f.finOf s)) with
    | error e =>
      rw [hr] at loop
      obtain ⟨e', he⟩ := loop
      rw [he]
      exact ⟨e', rfl⟩
    | ok r =>
      obtain ⟨k1, out⟩ := r
      rw [hr] at loop
      constructor
      · intro hg
        obtain ⟨g, sf, he, inv⟩ := loop.1 hg
        rw [he]
        have := inv.mapped [] (by rw [List.append_nil])
        rw [List.append_nil] at this
        exact ⟨_, rfl, this⟩
      · intro hb
        obtain ⟨e, he⟩ := loop.2 hb
        exact ⟨e, by rw [he]⟩

/-- C50 (all FSTs with a start state, all mappers, all three final actions): `tr_map` calls the mapper exactly once on each
transition and final weight, in order. If one of these calls fails, or the mapper forbids a superfinal state and labels a final
weight, `tr_map` fails. Otherwise each state has exactly the mapped transitions, its mapped final weight is placed as the final
action says, and the superfinal state exists exactly when it is needed.

Missing from the full claim: `MapRequireSuperfinal` mappers that turn a final weight into an unlabelled zero
(`C50_require_zero_defect`) and FSTs without a start state (`C50_no_start`). -/
theorem C50_tr_map_partial (f : Fst W) (m : Mapper σ W) (k : σ) (hs : f.start ≠ none) :
    match m.runAll k (mapCalls m.action f) with
    | .error _ => ∃ e, f.trMap m k = .error e
    | .ok (k', out) =>
      (m.action = .noSuperfinal → (∃ r ∈ out, ∃ t, r.2 = some t ∧ (t.ilabel ≠ EPS ∨ t.olabel ≠ EPS)) →
        ∃ e, f.trMap m k = .error e) ∧
      ((m.action = .noSuperfinal → ∀ r ∈ out, ∀ t, r.2 = some t → t.ilabel = EPS ∧ t.olabel = EPS) →
       (m.action = .requireSuperfinal → ∀ r ∈ out, ∀ t, r.2 = some t → t.ilabel ≠ EPS ∨ t.olabel ≠ EPS ∨ t.weight ≠ 0) →
        ∃ g, f.trMap m k = .ok (k', g) ∧ Mapped m f g out (fun _ => placed m.action f.numStates)) := by
  have h := trMap_spec f m k hs
  have hlab : ∀ t : FinalTr W, t.labelled = false ↔ t.ilabel = EPS ∧ t.olabel = EPS := by
    intro t; simp [FinalTr.labelled]
  cases hr : m.runAll k (mapCalls m.action f) with
  | error e => rw [hr] at h; exact h
  | ok r =>
    obtain ⟨k', out⟩ := r
    rw [hr] at h
    simp only at h ⊢
    constructor
    · rintro ha ⟨r, hr, t, ht, hl⟩
      apply h.2
      intro hg
      have := (hlab t).1 (hg r hr ha t ht)
      tauto
    · intro hg hz
      obtain ⟨g, h1, h2⟩ := h.1 (fun r hr ha t ht => (hlab t).2 (hg ha r hr t ht))
      refine ⟨g, h1, h2.start, h2.num, ?_, h2.super, h2.props, h2.counters⟩
      intro s hs
      obtain ⟨ts, t, ho, hp⟩ := h2.state s hs
      refine ⟨ts, t, ho, ?_⟩
      rw [hp]
      cases t with
      | none => rfl
      | some t =>
        show (if _ then _ else _) = _
        rw [if_neg]
        rintro ⟨ha, hl, hw⟩
        have := hz ha _ (List.mem_of_getElem? ho) t rfl
        have := (hlab t).1 hl
        tauto

end Verif
