import Verif.Lemmas.ReweightPath
import Verif.Props.C07

/-! # `reweight` as a whole -/

namespace Verif
set_option linter.unusedSectionVars false
universe u
variable {W : Type u} [Zero W] [Monoid W] [Add W] [DecidableEq W]

namespace Fst

/-- `g` is `f` with `c` put in front of the start state `i`: on everything that leaves `i`, or with a new start state. -/
inductive InFront (f g : Fst W) (i : StateId) (c : W) : Nat → Prop
  | same : (c = 1) → (∀ s, g.trsOf s = f.trsOf s) → (∀ s, g.finOf s = f.finOf s) → g.numStates = f.numStates → g.start = f.start →
      InFront f g i c 0
  | at : ¬ f.OnCycle i → Weighed f g (fun s t => if s = i then c * t.weight else t.weight) (fun s w => if s = i then c * w else w) →
      InFront f g i c 0
  | new : (∀ s, g.trsOf s = if s = f.numStates then [⟨EPS, EPS, c, i⟩] else f.trsOf s) → (∀ s, g.finOf s = f.finOf s) →
      g.numStates = f.numStates + 1 → g.start = some f.numStates → InFront f g i c 1

theorem InFront.wf {f g : Fst W} {i c k} (h : InFront f g i c k) (hw : f.WF) (hi : f.start = some i) : g.WF := by
  cases h with
  | same _ h1 h2 h3 h4 =>
    exact ⟨fun j hj => by rw [h3]; exact hw.start_lt j (h4 ▸ hj), fun s t ht => by rw [h3]; rw [h1] at ht; exact hw.next_lt s t ht⟩
  | «at» _ h => exact h.shape.wf hw
  | new h1 h2 h3 h4 =>
    refine ⟨fun j hj => ?_, fun s t ht => ?_⟩
    · rw [h4] at hj; cases hj; omega
    · rw [h1] at ht
      split at ht
      · obtain rfl := List.mem_singleton.1 ht
        have := hw.start_lt i hi
        simp only; omega
      · have := hw.next_lt s t ht
        omega

theorem InFront.accPaths {f g : Fst W} {i c k} (h : InFront f g i c k) (hw : f.WF) (hi : f.start = some i) (n : Nat) :
    g.accPaths n = delay k (fun n => (f.pathsFrom n i).map (PathT.scale c)) n := by
  cases h with
  | same hc h1 h2 h3 h4 =>
    subst hc
    rw [accPaths_some (h4.trans hi), pathsFrom_congr h1 h2, delay_zero]
    have : (PathT.scale 1 : PathT W → PathT W) = id := by funext p; simp [PathT.scale]
    rw [this, Multiset.map_id]
  | «at» hcyc h =>
    rw [accPaths_some (h.start.trans hi), delay_zero]
    exact scale_at h hcyc c (fun s t _ => rfl) (fun s w _ => rfl) n
  | new h1 h2 h3 h4 =>
    rw [accPaths_some h4]
    cases n with
    | zero =>
      rw [delay_one_zero, pathsFrom_zero, h2, finOf_of_ge (Nat.le_refl _)]
    | succ n =>
      rw [delay_one_succ, pathsFrom_succ, h1, if_pos rfl]
      have hin : g.pathsFrom n i = f.pathsFrom n i := by
        refine pathsFrom_sub id (fun s => s < f.numStates) (fun s hs => ?_) (fun s _ t ht => hw.next_lt s t ht) (fun s _ => h2 s) n i
          (hw.start_lt i hi)
        show g.trsOf s = _
        rw [h1, if_neg (by omega)]
        exact (List.map_id _).symm
      simp only [Multiset.coe_singleton, Multiset.singleton_bind, hin]
      refine Multiset.map_congr rfl fun p _ => ?_
      simp [PathT.scale, PathT.cat, Tr.asPath]

theorem ic_needsScan : (Props.of [.initialAcyclic]).needsScan = false := by decide

theorem reweightStart_spec {divR : W → W → R W} {ty : ReweightType} {ds : W} {i : StateId} {f : Fst W} (hw : f.WF) (ht : f.Truthful)
    (hi : f.start = some i) (hc : ds ≠ 1 → ds ≠ 0 → ∃ c, startFactor divR ty ds = .ok c) :
    ∃ g c k, f.reweightStart divR ty ds i = .ok g ∧ InFront f g i c k ∧ g.Truthful ∧ (f.AllCounters → g.AllCounters) ∧
      (ds = 1 ∨ ds = 0 → c = 1 ∧ g = f) ∧ (ds ≠ 1 → ds ≠ 0 → startFactor divR ty ds = .ok c ∧ (k = 0 ↔ ¬ f.OnCycle i)) := by
  unfold reweightStart
  by_cases h : ds = 1 ∨ ds = 0
  · rw [if_pos h]
    refine ⟨f, 1, 0, rfl, .same rfl (fun _ => rfl) (fun _ => rfl) rfl rfl, ht, id, fun _ => ⟨rfl, rfl⟩, fun h1 h2 => ?_⟩
    rcases h with h | h <;> contradiction
  · rw [if_neg h]
    obtain ⟨h1, h0⟩ := not_or.1 h
    obtain ⟨c, hc⟩ := hc h1 h0
    obtain ⟨f', p, hf', -, hst, hs, ht', hp⟩ := C07_update f hw ht (.inl (by rw [hi]; simp)) (Props.of [.initialAcyclic])
      (fun h => by rw [ic_needsScan] at h; cases h)
    have hic := hp .initialAcyclic (by decide)
    have htrs : ∀ s, f'.trsOf s = f.trsOf s := fun s => by rw [trsOf_eq, trsOf_eq, hst]
    have hfin : ∀ s, f'.finOf s = f.finOf s := fun s => by rw [finOf_eq, finOf_eq, hst]
    have hnum : f'.numStates = f.numStates := by rw [numStates, numStates, hst]
    rw [hf']
    simp only
    by_cases hb : f'.props .initialAcyclic = true
    · rw [if_pos hb]
      have hcyc : ¬ f.OnCycle i := fun hc => (hic.1 hb) ⟨i, hi, hc⟩
      obtain ⟨g1, e1, w1⟩ := weighTrs_spec (f := f') (s := i) (h := fun t => (startFactor divR ty ds).map fun c => some (c * t.weight))
        (fun t => c * t.weight) (fun t _ => ⟨some (c * t.weight), by rw [hc]; rfl, rfl⟩)
      obtain ⟨g2, e2, w2⟩ := weighFin_spec (f := g1) (s := i) (h := fun w => (startFactor divR ty ds).map fun c => some (c * w))
        (fun w => c * w) (fun w _ => ⟨some (c * w), by rw [hc]; rfl, rfl⟩)
      rw [e1]
      simp only
      rw [e2]
      have w3 := w1.trans w2
      have w4 : Weighed f g2 (fun s t => if s = i then c * t.weight else t.weight) (fun s w => if s = i then c * w else w) :=
        ⟨fun s => by rw [w3.trs, htrs], fun s => by rw [w3.fin, hfin], w3.num.trans hnum, w3.start.trans hs, fun _ => w3.truthful ht',
          fun hc => w3.counters (allCounters_states hc hst)⟩
      exact ⟨g2, c, 0, rfl, .at hcyc w4, w4.truthful ht, w4.counters, fun h' => absurd h' h, fun _ _ => ⟨hc, by simp [hcyc]⟩⟩
    · rw [if_neg hb, hc]
      simp only
      have hcyc : f.OnCycle i := by
        by_contra hcyc
        apply hb
        rw [hic]
        rintro ⟨j, hj, hjc⟩
        rw [hi] at hj; cases hj
        exact hcyc hjc
      refine ⟨_, c, 1, rfl, .new ?_ ?_ ?_ ?_, ?_, ?_, fun h' => absurd h' h, fun _ _ => ⟨rfl, by simp [hcyc]⟩⟩
      · intro s
        rw [setStart_trsOf, addTr_trsOf]
        simp only [addState_trsOf, addState_numStates, htrs, hnum]
        by_cases hs' : s = f.numStates
        · subst hs'
          rw [if_pos ⟨rfl, by omega⟩, if_pos rfl, trsOf_of_ge (Nat.le_refl _)]
          rfl
        · rw [if_neg (fun h => hs' h.1), if_neg hs']
      · intro s; simp [hfin]
      · simp [hnum]
      · show some f'.numStates = _
        rw [hnum]
      · refine truthful_setStart (truthful_addTr ?_ (by simp) _) _
        rw [addState_eq]
        exact truthful_addStates ht' 1
      · intro hac
        refine allCounters_setStart (allCounters_addTr ?_ _ _) _
        have h5 := allCounters_states hac hst
        rw [addState_eq]
        exact allCounters_addStates h5 1

/-- Clearing flags keeps them truthful. -/
theorem reweight_flags {f : Fst W} (ht : f.Truthful) : (f.setPropsMask (Props.reweight f.props) Props.allMask).Truthful := by
  intro b hb
  rw [setPropsMask_all] at hb
  have h1 : f.props b = true := by
    simp only [Props.reweight, Props.clear, Props.and] at hb
    cases b <;> simp_all
  have := ht b h1
  cases b <;> exact this

/-- The weights after the two loops. -/
def newTr (divL divR : W → W → R W) (ty : ReweightType) (d : List W) (s : StateId) (t : Tr W) : W :=
  if pot d s = 0 then t.weight else
    match reweightTr divL divR ty d s t with
    | .ok (some w) => w
    | _ => t.weight
def newFin (divL : W → W → R W) (ty : ReweightType) (d : List W) (s : StateId) (w : W) : W :=
  match reweightFin divL ty d s (if d.length ≤ s ∧ ty = .toFinal then 0 * w else w) with
  | .ok (some w) => w
  | _ => w

theorem pot_ge {d : List W} {s : Nat} (h : d.length ≤ s) : pot d s = 0 := by
  unfold pot; rw [List.getElem?_eq_none h]; rfl

/-- `reweight` does its two loops and then the start state. -/
theorem reweight_spec {divL divR : W → W → R W} {ty : ReweightType} {d : List W} {f : Fst W} (hw : f.WF) (ht : f.Truthful)
    (hn : f.numStates ≠ 0)
    (htr : ∀ s, ∀ t ∈ f.trsOf s, pot d s ≠ 0 → ∃ o, reweightTr divL divR ty d s t = .ok o)
    (hfin : ∀ s w, f.finOf s = some w → ∃ o, reweightFin divL ty d s w = .ok o)
    (hst : ∀ i, f.start = some i → pot d i ≠ 1 → pot d i ≠ 0 → ∃ c, startFactor divR ty (pot d i) = .ok c) :
    ∃ f1 g, Weighed f f1 (newTr divL divR ty d) (newFin divL ty d) ∧ f.reweight divL divR ty d = .ok g ∧ g.WF ∧ g.Truthful ∧
      (f.AllCounters → g.AllCounters) ∧
      (f.start = none → g.start = none ∧ g.states = f1.states) ∧
      ∀ i, f.start = some i → ∃ c k, InFront f1 g i c k ∧ (pot d i = 1 ∨ pot d i = 0 → c = 1 ∧ k = 0) ∧
        (pot d i ≠ 1 → pot d i ≠ 0 → startFactor divR ty (pot d i) = .ok c ∧ (k = 0 ↔ ¬ f.OnCycle i)) := by
  obtain ⟨fa, ea, wa⟩ := weighStates_spec (f := f) (body := reweightState divL divR ty d) (newTr divL divR ty d)
    (fun s w => if d.length ≤ s ∧ ty = .toFinal then 0 * w else w) (by
      intro g s hs hgt hgf
      unfold reweightState
      by_cases hl : d.length ≤ s
      · rw [if_pos hl]
        cases ty with
        | toInitial =>
          refine ⟨g, rfl, Weighed.rfl.congr (fun q t _ => ?_) (fun q w _ => ?_)⟩
          · by_cases hq : q = s
            · subst hq; rw [if_pos rfl, newTr, if_pos (pot_ge hl)]
            · rw [if_neg hq]
          · simp
        | toFinal =>
          obtain ⟨g', h1, h2⟩ := weighFin_spec (f := g) (s := s) (h := fun w => .ok (some (0 * w))) (fun w => 0 * w)
            (fun w _ => ⟨_, rfl, rfl⟩)
          refine ⟨g', h1, h2.congr (fun q t _ => ?_) (fun q w _ => ?_)⟩
          · by_cases hq : q = s
            · subst hq; rw [if_pos rfl, newTr, if_pos (pot_ge hl)]
            · rw [if_neg hq]
          · by_cases hq : q = s
            · subst hq; simp [hl]
            · rw [if_neg hq, if_neg hq]
      · rw [if_neg hl]
        by_cases h0 : pot d s = 0
        · rw [if_pos h0]
          refine ⟨g, rfl, Weighed.rfl.congr (fun q t _ => ?_) (fun q w _ => ?_)⟩
          · by_cases hq : q = s
            · subst hq; rw [if_pos rfl, newTr, if_pos h0]
            · rw [if_neg hq]
          · by_cases hq : q = s
            · subst hq; rw [if_pos rfl, if_neg (fun h => hl h.1)]
            · rw [if_neg hq]
        · rw [if_neg h0]
          obtain ⟨g', h1, h2⟩ := weighTrs_spec (f := g) (s := s) (h := reweightTr divL divR ty d s) (newTr divL divR ty d s)
            (fun t htm => by
              rw [hgt] at htm
              obtain ⟨o, ho⟩ := htr s t htm h0
              refine ⟨o, ho, ?_⟩
              rw [newTr, if_neg h0, ho]
              cases o <;> rfl)
          refine ⟨g', h1, h2.congr (fun q t _ => ?_) (fun q w _ => ?_)⟩
          · by_cases hq : q = s
            · subst hq; rw [if_pos rfl]
            · rw [if_neg hq, if_neg hq]
          · by_cases hq : q = s
            · subst hq; rw [if_pos rfl, if_neg (fun h => hl h.1)]
            · rw [if_neg hq])
  obtain ⟨f1, eb, wb⟩ := weighStates_spec (f := fa) (body := fun f s => f.weighFin (reweightFin divL ty d s) s) (fun _ t => t.weight)
    (fun s w => match reweightFin divL ty d s w with | .ok (some w) => w | _ => w) (by
      intro g s hs hgt hgf
      have hr : ∀ w, g.finOf s = some w → ∃ o, reweightFin divL ty d s w = .ok o := by
        intro w hw'
        rw [hgf, wa.fin] at hw'
        obtain ⟨w0, h1, h2⟩ := Option.map_eq_some_iff.1 hw'
        by_cases hl : d.length ≤ s ∧ ty = .toFinal
        · rw [hl.2]; exact ⟨_, rfl⟩
        · rw [if_neg hl] at h2
          subst h2
          exact hfin s w0 h1
      obtain ⟨g', h1, h2⟩ := weighFin_spec (f := g) (s := s) (h := reweightFin divL ty d s)
        (fun w => match reweightFin divL ty d s w with | .ok (some w) => w | _ => w) (fun w hw' => by
          obtain ⟨o, ho⟩ := hr w hw'
          refine ⟨o, ho, ?_⟩
          rw [ho]
          cases o <;> rfl)
      refine ⟨g', h1, h2.congr (fun q t _ => ?_) (fun q w _ => ?_)⟩
      · simp
      · by_cases hq : q = s
        · subst hq; rw [if_pos rfl]
        · rw [if_neg hq, if_neg hq])
  have w1 : Weighed f f1 (newTr divL divR ty d) (newFin divL ty d) := by
    refine (wa.trans wb).congr (fun _ _ _ => rfl) (fun s w hsw => ?_)
    by_cases hl : d.length ≤ s ∧ ty = .toFinal
    · simp only [if_pos hl, newFin]
      rw [hl.2]; rfl
    · simp only [if_neg hl, newFin]
  have hw1 := w1.shape.wf hw
  have ht1 := w1.truthful ht
  unfold reweight
  rw [if_neg hn, ea]
  simp only
  rw [eb]
  simp only
  unfold reweightAtStart
  cases hs : f1.start with
  | none =>
    refine ⟨f1, _, w1, rfl, ⟨hw1.start_lt, hw1.next_lt⟩, reweight_flags ht1, fun h => allCounters_setPropsMask (w1.counters h) _ _, fun _ => ⟨hs, rfl⟩, fun i hi => ?_⟩
    rw [w1.start, hi] at hs; cases hs
  | some i =>
    have hi : f.start = some i := by rw [← w1.start, hs]
    obtain ⟨g, c, k, h1, h2, h3, h4, h5, h6⟩ := reweightStart_spec (divR := divR) (ty := ty) hw1 ht1 hs (hst i hi)
    simp only
    rw [h1]
    refine ⟨f1, _, w1, rfl, ?_, reweight_flags h3, fun h => allCounters_setPropsMask (h4 (w1.counters h)) _ _, fun h => (by rw [hi] at h; cases h), fun j hj => ?_⟩
    · have := h2.wf hw1 hs
      exact ⟨this.start_lt, this.next_lt⟩
    · rw [hi] at hj; cases hj
      have hin : InFront f1 (g.setPropsMask (Props.reweight g.props) Props.allMask) i c k := by
        cases h2 with
        | same a b c' d' e => exact .same a b c' d' e
        | «at» a b => exact .at a ⟨b.trs, b.fin, b.num, b.start, fun h => reweight_flags (b.truthful h), fun h => allCounters_setPropsMask (b.counters h) _ _⟩
        | new a b c' d' => exact .new a b c' d'
      refine ⟨c, k, hin, fun h => ?_, fun ha hb => ?_⟩
      · obtain ⟨hc, rfl⟩ := h5 h
        refine ⟨hc, ?_⟩
        cases h2 with
        | same => rfl
        | «at» => rfl
        | new _ _ hn' _ => omega
      · have h7 := h6 ha hb
        rw [OnCycle, w1.shape.edge] at h7
        exact h7

end Fst
end Verif
