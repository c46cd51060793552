import Verif.Props.C50
import Verif.Lemmas.Reweigh

/-! # C50 for the shipped mappers, and their flags (C51) -/

namespace Verif
set_option linter.unusedSectionVars false
universe u v
variable {W : Type u} {σ : Type v} [Zero W] [One W] [DecidableEq W]

theorem runAll_get (m : Mapper σ W) : ∀ (rows : List (List (Tr W) × Option W)) (k k' : σ) (out),
    m.runAll k rows = .ok (k', out) → ∀ (s : Nat) r, rows[s]? = some r → ∃ k1 k2 r', out[s]? = some r' ∧ m.runState k1 r = .ok (k2, r')
  | [], _, _, _, _, s, r, hr => by simp at hr
  | x :: rows, k, k', out, h, s, r, hr => by
    simp only [Mapper.runAll] at h
    cases hx : m.runState k x with
    | error e => rw [hx] at h; cases h
    | ok p =>
      obtain ⟨k1, x'⟩ := p
      rw [hx] at h
      simp only at h
      cases hy : m.runAll k1 rows with
      | error e => rw [hy] at h; cases h
      | ok q =>
        obtain ⟨k2, out'⟩ := q
        rw [hy] at h
        simp only [Except.ok.injEq, Prod.mk.injEq] at h
        obtain ⟨rfl, rfl⟩ := h
        cases s with
        | zero =>
          simp only [List.getElem?_cons_zero, Option.some.injEq] at hr
          subst hr
          exact ⟨k, k1, x', rfl, hx⟩
        | succ s =>
          simp only [List.getElem?_cons_succ] at hr ⊢
          exact runAll_get m rows k1 _ _ hy s r hr

theorem rows_get (f : Fst W) {s} (hs : s < f.numStates) : f.rows[s]? = some (f.trsOf s, f.finOf s) := by
  unfold Fst.rows
  rw [List.getElem?_map, List.getElem?_range hs]
  rfl

theorem runAll_length (m : Mapper σ W) : ∀ (rows : List (List (Tr W) × Option W)) (k k' : σ) (out),
    m.runAll k rows = .ok (k', out) → out.length = rows.length
  | [], _, _, _, h => by simp only [Mapper.runAll, Except.ok.injEq, Prod.mk.injEq] at h; rw [← h.2]; rfl
  | x :: rows, k, k', out, h => by
    simp only [Mapper.runAll] at h
    cases hx : m.runState k x with
    | error e => rw [hx] at h; cases h
    | ok p =>
      obtain ⟨k1, x'⟩ := p
      rw [hx] at h
      simp only at h
      cases hy : m.runAll k1 rows with
      | error e => rw [hy] at h; cases h
      | ok q =>
        obtain ⟨k2, out'⟩ := q
        rw [hy] at h
        simp only [Except.ok.injEq, Prod.mk.injEq] at h
        obtain ⟨rfl, rfl⟩ := h
        simp [runAll_length m rows k1 _ _ hy]

theorem rel_some {α β : Type*} {r : α → β → Prop} {a : α} {b : Option β} (h : Option.Rel r (some a) b) :
    ∃ b', b = some b' ∧ r a b' := by
  generalize ha : some a = x at h
  cases h with
  | none => cases ha
  | some h => cases ha; exact ⟨_, rfl, h⟩

theorem rel_isSome {α β : Type*} {r : α → β → Prop} {a : Option α} {b : Option β} (h : Option.Rel r a b) :
    b.isSome = a.isSome := by
  cases h <;> rfl

section simple
variable {tr : Tr W → R (Tr W)} {fin : W → R W} {p : Props → Props}

theorem simple_runTrs (ts ts' : List (Tr W)) (u : Unit) :
    (Mapper.simple tr fin p).runTrs () ts = .ok (u, ts') ↔ List.Forall₂ (fun t t' => tr t = .ok t') ts ts' := by
  induction ts generalizing ts' with
  | nil =>
    simp only [Mapper.runTrs, Except.ok.injEq, Prod.mk.injEq, true_and, List.forall₂_nil_left_iff]
    exact eq_comm
  | cons t ts ih =>
    simp only [Mapper.runTrs]
    have h1 : (Mapper.simple tr fin p).tr () t = match tr t with | .error e => .error e | .ok t' => .ok ((), t') := rfl
    rw [h1]
    cases ht : tr t with
    | error e =>
      simp only [reduceCtorEq, false_iff]
      intro h
      rw [List.forall₂_cons_left_iff] at h
      obtain ⟨b, _, h2, _⟩ := h
      rw [ht] at h2
      cases h2
    | ok t1 =>
      simp only
      rw [List.forall₂_cons_left_iff]
      cases hr : (Mapper.simple tr fin p).runTrs () ts with
      | error e =>
        simp only [reduceCtorEq, false_iff]
        rintro ⟨b, u', h2, h3, h4⟩
        rw [← ih, hr] at h3
        cases h3
      | ok r =>
        have h3 := (ih r.2).1 (by rw [hr])
        constructor
        · intro h
          simp only [Except.ok.injEq, Prod.mk.injEq, true_and] at h
          exact ⟨t1, r.2, ht, h3, h.symm⟩
        · rintro ⟨b, u', h2, h5, h4⟩
          rw [ht] at h2
          cases h2
          rw [← ih, hr] at h5
          simp only [Except.ok.injEq] at h5
          rw [h5, h4]

theorem simple_runState (r : List (Tr W) × Option W) (ts' : List (Tr W)) (t' : Option (FinalTr W)) (u : Unit) :
    (Mapper.simple tr fin p).runState () r = .ok (u, ts', t') ↔ List.Forall₂ (fun t t' => tr t = .ok t') r.1 ts' ∧
      (match r.2 with | none => t' = none | some w => ∃ w', fin w = .ok w' ∧ t' = some ⟨EPS, EPS, w'⟩) := by
  unfold Mapper.runState
  have key : ∀ k, (Mapper.simple tr fin p).runFin k r.2 = .ok (u, t') ↔
      (match r.2 with | none => t' = none | some w => ∃ w', fin w = .ok w' ∧ t' = some ⟨EPS, EPS, w'⟩) := by
    intro k
    cases r.2 with
    | none =>
      simp only [Mapper.runFin, Except.ok.injEq, Prod.mk.injEq, true_and]
      exact eq_comm
    | some w =>
      simp only [Mapper.runFin, Mapper.simple]
      cases fin w with
      | error e => simp
      | ok w' =>
        simp only [Except.ok.injEq, Prod.mk.injEq, true_and, exists_eq_left']
        exact eq_comm
  cases hr : (Mapper.simple tr fin p).runTrs () r.1 with
  | error e =>
    simp only [reduceCtorEq, false_iff]
    rintro ⟨h, -⟩
    rw [← simple_runTrs (fin := fin) (p := p) _ _ (), hr] at h
    cases h
  | ok x =>
    obtain ⟨k, ts⟩ := x
    simp only
    have h1 := (simple_runTrs (fin := fin) (p := p) r.1 ts ()).1 (by rw [hr])
    constructor
    · intro h
      cases hf : (Mapper.simple tr fin p).runFin k r.2 with
      | error e => rw [hf] at h; cases h
      | ok y =>
        rw [hf] at h
        simp only [Except.ok.injEq, Prod.mk.injEq, true_and] at h
        obtain ⟨rfl, rfl⟩ := h
        exact ⟨h1, (key k).1 (by rw [hf])⟩
    · rintro ⟨h2, h3⟩
      rw [(key k).2 h3]
      simp only [Except.ok.injEq, Prod.mk.injEq, true_and, and_true]
      rw [← simple_runTrs (fin := fin) (p := p) _ _ (), hr] at h2
      simp only [Except.ok.injEq, Prod.mk.injEq] at h2
      exact h2.2

theorem simple_runAll_ok (rows : List (List (Tr W) × Option W))
    (h : ∀ r ∈ rows, (∀ t ∈ r.1, ∃ t', tr t = .ok t') ∧ (∀ w, r.2 = some w → ∃ w', fin w = .ok w')) :
    ∃ out, (Mapper.simple tr fin p).runAll () rows = .ok ((), out) := by
  induction rows with
  | nil => exact ⟨[], rfl⟩
  | cons r rows ih =>
    obtain ⟨out, ho⟩ := ih (fun x hx => h x (by simp [hx]))
    obtain ⟨h1, h2⟩ := h r (by simp)
    have h3 : ∃ ts', List.Forall₂ (fun t t' => tr t = .ok t') r.1 ts' := by
      clear ho h2 h ih
      generalize r.1 = l at h1
      induction l with
      | nil => exact ⟨[], .nil⟩
      | cons t ts ih =>
        obtain ⟨ts', h⟩ := ih (fun t ht => h1 t (by simp [ht]))
        obtain ⟨t', ht⟩ := h1 t (by simp)
        exact ⟨t' :: ts', .cons ht h⟩
    obtain ⟨ts', h3⟩ := h3
    have h4 : ∃ t' : Option (FinalTr W),
        (match r.2 with | none => t' = none | some w => ∃ w', fin w = .ok w' ∧ t' = some ⟨EPS, EPS, w'⟩) := by
      cases hr : r.2 with
      | none => exact ⟨none, rfl⟩
      | some w =>
        obtain ⟨w', hw⟩ := h2 w hr
        exact ⟨_, w', hw, rfl⟩
    obtain ⟨t', h4⟩ := h4
    have := (simple_runState (tr := tr) (fin := fin) (p := p) r ts' t' ()).2 ⟨h3, h4⟩
    simp only [Mapper.runAll]
    rw [this]
    simp only
    rw [ho]
    exact ⟨_, rfl⟩

/-- The result of a mapper without state: every transition and final weight is replaced by its image. -/
structure SimpleMapped (tr : Tr W → R (Tr W)) (fin : W → R W) (f g : Fst W) : Prop where
  start : g.start = f.start
  num : g.numStates = f.numStates
  trs : ∀ s, List.Forall₂ (fun t t' => tr t = .ok t') (f.trsOf s) (g.trsOf s)
  fin : ∀ s, Option.Rel (fun w w' => fin w = .ok w') (f.finOf s) (g.finOf s)
  counters : f.AllCounters → g.AllCounters

/-- C50 for mappers without state and without superfinal state (all shipped ones except `EncodeMapper`): on an FST with a start
state `tr_map` succeeds exactly when the mapper succeeds on every transition and every final weight, and then replaces each of
them by its image, in place. -/
theorem C50_simple (f : Fst W) (hs : f.start ≠ none) :
    ((∃ g, f.trMap (Mapper.simple tr fin p) () = .ok ((), g)) ↔
      (∀ s, ∀ t ∈ f.trsOf s, ∃ t', tr t = .ok t') ∧ (∀ s w, f.finOf s = some w → ∃ w', fin w = .ok w')) ∧
    ∀ g, f.trMap (Mapper.simple tr fin p) () = .ok ((), g) → SimpleMapped tr fin f g ∧ g.props = p f.props := by
  have hsp := trMap_spec f (Mapper.simple tr fin p) () hs
  have hc : mapCalls (Mapper.simple tr fin p).action f = f.rows := by
    unfold mapCalls; simp [Mapper.simple]
  rw [hc] at hsp
  have main : ∀ g, f.trMap (Mapper.simple tr fin p) () = .ok ((), g) → SimpleMapped tr fin f g ∧ g.props = p f.props := by
    intro g hg
    cases hr : (Mapper.simple tr fin p).runAll () f.rows with
    | error e =>
      rw [hr] at hsp
      obtain ⟨e', he⟩ := hsp
      rw [he] at hg; cases hg
    | ok r =>
      obtain ⟨k', out⟩ := r
      rw [hr] at hsp
      by_cases hgo : goodOut (Mapper.simple tr fin p).action out
      · obtain ⟨g', hg', hm⟩ := hsp.1 hgo
        rw [hg'] at hg
        simp only [Except.ok.injEq, Prod.mk.injEq, true_and] at hg
        subst hg
        have hrow : ∀ s, s < f.numStates → List.Forall₂ (fun t t' => tr t = .ok t') (f.trsOf s) (g'.trsOf s) ∧
            Option.Rel (fun w w' => fin w = .ok w') (f.finOf s) (g'.finOf s) := by
          intro s hs
          obtain ⟨ts, t, ho, hp⟩ := hm.state s hs
          obtain ⟨k1, k2, r', hr', hst⟩ := runAll_get _ _ _ _ _ hr s _ (rows_get f hs)
          rw [ho] at hr'
          cases hr'
          rw [simple_runState] at hst
          obtain ⟨h1, h2⟩ := hst
          cases hf : f.finOf s with
          | none =>
            rw [hf] at h2
            simp only at h2
            subst h2
            simp only [placedCode, Prod.mk.injEq] at hp
            rw [hp.1, hp.2]
            exact ⟨h1, .none⟩
          | some w =>
            rw [hf] at h2
            obtain ⟨w', hw, rfl⟩ := h2
            simp only [placedCode, Mapper.simple, reduceCtorEq, false_and, if_false, placed, Prod.mk.injEq] at hp
            rw [hp.1, hp.2]
            exact ⟨h1, .some hw⟩
        refine ⟨⟨hm.start, ?_, ?_, ?_, hm.counters⟩, hm.props⟩
        · rw [hm.num]; simp [Mapper.simple, usesSuper]
        · intro s
          by_cases hs : s < f.numStates
          · exact (hrow s hs).1
          · rw [Fst.trsOf_of_ge (by omega), Fst.trsOf_of_ge (f := g') (by rw [hm.num]; simp [Mapper.simple, usesSuper]; omega)]
            exact .nil
        · intro s
          by_cases hs : s < f.numStates
          · exact (hrow s hs).2
          · rw [Fst.finOf_of_ge (by omega), Fst.finOf_of_ge (f := g') (by rw [hm.num]; simp [Mapper.simple, usesSuper]; omega)]
            exact .none
      · obtain ⟨e, he⟩ := hsp.2 hgo
        rw [he] at hg; cases hg
  refine ⟨⟨?_, ?_⟩, main⟩
  · rintro ⟨g, hg⟩
    obtain ⟨hm, -⟩ := main g hg
    constructor
    · intro s t ht
      obtain ⟨i, hi, rfl⟩ := List.getElem_of_mem ht
      have := List.Forall₂.get (hm.trs s) hi ((hm.trs s).length_eq ▸ hi)
      exact ⟨_, this⟩
    · intro s w hw
      have := hm.fin s
      rw [hw] at this
      obtain ⟨w', -, h⟩ := rel_some this
      exact ⟨w', h⟩
  · rintro ⟨h1, h2⟩
    obtain ⟨out, ho⟩ := simple_runAll_ok (tr := tr) (fin := fin) (p := p) f.rows (by
      intro r hr
      obtain ⟨s, -, rfl⟩ := List.mem_map.1 hr
      exact ⟨h1 s, h2 s⟩)
    rw [ho] at hsp
    obtain ⟨g, hg, -⟩ := hsp.1 (by
      intro r hr ha t ht
      obtain ⟨s, hs', rfl⟩ := List.getElem_of_mem hr
      have hl : s < f.rows.length := by rw [← runAll_length _ _ _ _ _ ho]; exact hs'
      obtain ⟨k1, k2, r', h3, h4⟩ := runAll_get _ _ _ _ _ ho s _ (List.getElem?_eq_getElem hl)
      rw [List.getElem?_eq_getElem hs'] at h3
      cases h3
      generalize out[s] = x at h4 ht
      obtain ⟨x1, x2⟩ := x
      simp only at ht
      subst ht
      have h5 := ((simple_runState _ _ _ _).1 h4).2
      split at h5
      · cases h5
      · obtain ⟨w', -, h6⟩ := h5
        cases h6
        rfl)
    exact ⟨g, hg⟩

theorem simple_no_start (f : Fst W) (hs : f.start = none) (m : Mapper σ W) (k : σ) : f.trMap m k = .ok (k, f) := by
  unfold Fst.trMap; rw [if_pos hs]

end simple

theorem forall₂_ok {k : Tr W → Tr W} {a b : List (Tr W)} (h : List.Forall₂ (fun t t' => (.ok (k t) : R (Tr W)) = .ok t') a b) :
    b = a.map k := by
  induction h with
  | nil => rfl
  | cons h _ ih => cases h; rw [ih]; rfl

theorem rel_ok {k : W → W} {a b : Option W} (h : Option.Rel (fun w w' => (.ok (k w) : R W) = .ok w') a b) : b = a.map k := by
  cases h with
  | none => rfl
  | some h => cases h; rfl

theorem weights_shape {g : W → R W} {f o : Fst W}
    (h : SimpleMapped (fun t => match g t.weight with | .error e => .error e | .ok w => .ok { t with weight := w }) g f o) :
    Fst.SameShape f o := by
  refine ⟨?_, ?_, h.num, h.start⟩
  · intro s
    have := h.trs s
    generalize f.trsOf s = a at this
    generalize o.trsOf s = b at this
    induction this with
    | nil => rfl
    | cons h _ ih =>
      rename_i a b _ _ _
      simp only [List.map_cons, ih, List.cons.injEq, and_true]
      cases hg : g a.weight with
      | error e => rw [hg] at h; cases h
      | ok w => rw [hg] at h; cases h; rfl
  · intro s
    exact rel_isSome (h.fin s)

theorem weightInvariant_free (b) (h : Props.weightInvariantMask b = true) : Fst.weightFree b = true := by
  cases b <;> first | rfl | (revert h; decide)

/-- C51 for the weight mappers (`TimesMapper`, `PlusMapper`, `InvertWeightMapper`, `QuantizeMapper`). -/
theorem C50_flags_weights (g : W → R W) (f o : Fst W) (h : f.Truthful) (ho : f.trMap (Mapper.weights g) () = .ok ((), o)) :
    o.Truthful := by
  by_cases hs : f.start = none
  · rw [simple_no_start f hs] at ho
    cases ho
    exact h
  · obtain ⟨hm, hp⟩ := (C50_simple f hs).2 o ho
    intro b hb
    rw [hp] at hb
    simp only [Props.and_apply, Bool.and_eq_true] at hb
    exact ((weights_shape hm).holds b (weightInvariant_free b hb.2)).2 (h b hb.1)

/-- C50/C51 for `IdentityTrMapper`: nothing changes. -/
theorem C50_identity (f : Fst W) (hc : f.AllCounters) : f.trMap identityMapper () = .ok ((), f) := by
  by_cases hs : f.start = none
  · rw [simple_no_start f hs]
  · obtain ⟨h1, h2⟩ := C50_simple (tr := (.ok : Tr W → R (Tr W))) (fin := (.ok : W → R W)) (p := id) f hs
    obtain ⟨g, hg⟩ := h1.2 ⟨fun _ t _ => ⟨t, rfl⟩, fun _ w _ => ⟨w, rfl⟩⟩
    obtain ⟨hm, hp⟩ := h2 g hg
    have ht : ∀ s, g.trsOf s = f.trsOf s := fun s => by
      have := forall₂_ok (k := id) (hm.trs s)
      rwa [List.map_id] at this
    have hf : ∀ s, g.finOf s = f.finOf s := fun s => by
      have := rel_ok (k := id) (hm.fin s)
      rwa [Option.map_id] at this
    have : g = f := by
      have e1 := Fst.states_ext hc (hm.counters hc) hm.num ht hf
      have e2 := hm.start
      cases g; cases f
      simp only [id] at hp e1 e2
      rw [e1, e2, hp]
    rw [this] at hg
    exact hg

/-- C50/C51 for `RmWeightMapper`: weights become zero or one, everything else stays, and the flags are true. -/
theorem C50_rm_weight (f : Fst W) (hs : f.start ≠ none) : ∃ g, f.trMap rmWeightMapper () = .ok ((), g) ∧
    (∀ s, g.trsOf s = (f.trsOf s).map fun t => { t with weight := if t.weight = 0 then 0 else 1 }) ∧
    (∀ s, g.finOf s = (f.finOf s).map fun w => if w = 0 then 0 else 1) ∧
    g.start = f.start ∧ g.numStates = f.numStates ∧ (f.Truthful → g.Truthful) := by
  obtain ⟨h1, h2⟩ := C50_simple (tr := (fun t => .ok { t with weight := rmWeightVal t.weight } : Tr W → R (Tr W)))
    (fin := fun w => .ok (rmWeightVal w)) (p := fun p => (p.and Props.weightInvariantMask).or (Props.of [.unweighted])) f hs
  obtain ⟨g, hg⟩ := h1.2 ⟨fun _ t _ => ⟨_, rfl⟩, fun _ w _ => ⟨_, rfl⟩⟩
  obtain ⟨hm, hp⟩ := h2 g hg
  have hv : ∀ w : W, rmWeightVal w = if w = 0 then 0 else 1 := by
    intro w; unfold rmWeightVal; split
    · rename_i h; exact h
    · rfl
  have ht : ∀ s, g.trsOf s = (f.trsOf s).map fun t => { t with weight := if t.weight = 0 then 0 else 1 } := by
    intro s
    rw [forall₂_ok (k := fun t => { t with weight := rmWeightVal t.weight }) (hm.trs s)]
    refine List.map_congr_left fun t _ => ?_
    rw [hv]
  have hf : ∀ s, g.finOf s = (f.finOf s).map fun w => if w = 0 then 0 else 1 := by
    intro s
    rw [rel_ok (k := rmWeightVal) (hm.fin s)]
    congr 1
    funext w
    exact hv w
  refine ⟨g, hg, ht, hf, hm.start, hm.num, fun tf b hb => ?_⟩
  rw [hp] at hb
  simp only [Props.or_apply, Props.and_apply, Bool.or_eq_true, Bool.and_eq_true] at hb
  have sh : Fst.SameShape f g := by
    refine ⟨fun s => ?_, fun s => ?_, hm.num, hm.start⟩
    · rw [ht, List.map_map]; rfl
    · rw [hf]; simp
  rcases hb with hb | hb
  · exact (sh.holds b (weightInvariant_free b hb.2)).2 (tf b hb.1)
  · have : b = .unweighted := by revert hb; cases b <;> decide
    subst this
    constructor
    · intro s t ht'
      rw [ht] at ht'
      obtain ⟨t', -, rfl⟩ := List.mem_map.1 ht'
      simp only [Fst.TrivialW]
      split <;> simp
    · intro s w hw
      rw [hf] at hw
      obtain ⟨w', -, rfl⟩ := Option.map_eq_some_iff.1 hw
      simp only [Fst.TrivialW]
      split <;> simp

/-- C50/C51 for `InputEpsilonMapper`: the input labels become ε, everything else stays. The flags are true as soon as the FST has
a transition; without one the flag `I_EPSILONS` is wrong (`C50_input_epsilon_defect`). -/
theorem C50_input_epsilon_partial (f : Fst W) (hs : f.start ≠ none) : ∃ g, f.trMap inputEpsilonMapper () = .ok ((), g) ∧
    (∀ s, g.trsOf s = (f.trsOf s).map fun t => { t with ilabel := EPS }) ∧ (∀ s, g.finOf s = f.finOf s) ∧
    g.start = f.start ∧ g.numStates = f.numStates ∧ ((∃ s, f.trsOf s ≠ []) → g.Truthful) := by
  obtain ⟨h1, h2⟩ := C50_simple (tr := (fun t => .ok { t with ilabel := EPS } : Tr W → R (Tr W)))
    (fin := .ok) (p := fun p => (p.and Props.setArcMask).or (Props.of [.iEpsilons, .iLabelSorted])) f hs
  obtain ⟨g, hg⟩ := h1.2 ⟨fun _ t _ => ⟨_, rfl⟩, fun _ w _ => ⟨_, rfl⟩⟩
  obtain ⟨hm, hp⟩ := h2 g hg
  have ht : ∀ s, g.trsOf s = (f.trsOf s).map fun t => { t with ilabel := EPS } := fun s => forall₂_ok (hm.trs s)
  have hf : ∀ s, g.finOf s = f.finOf s := fun s => by
    have := rel_ok (k := id) (hm.fin s)
    rwa [Option.map_id] at this
  refine ⟨g, hg, ht, hf, hm.start, hm.num, fun ⟨s, hne⟩ b hb => ?_⟩
  rw [hp] at hb
  have hb : b = .iEpsilons ∨ b = .iLabelSorted := by revert hb; cases b <;> simp [Props.setArcMask, Props.of]
  rcases hb with rfl | rfl
  · obtain ⟨t, l, hl⟩ := List.exists_cons_of_ne_nil hne
    exact ⟨s, { t with ilabel := EPS }, by rw [ht, hl]; simp, rfl⟩
  · intro s
    rw [ht, List.map_map]
    show ((f.trsOf s).map fun _ => EPS).Pairwise (· ≤ ·)
    rw [List.map_const']
    exact List.pairwise_replicate.2 (Or.inr (le_refl _))

/-- `OutputEpsilonMapper`: the same on the output side. -/
theorem C50_output_epsilon_partial (f : Fst W) (hs : f.start ≠ none) : ∃ g, f.trMap outputEpsilonMapper () = .ok ((), g) ∧
    (∀ s, g.trsOf s = (f.trsOf s).map fun t => { t with olabel := EPS }) ∧ (∀ s, g.finOf s = f.finOf s) ∧
    g.start = f.start ∧ g.numStates = f.numStates ∧ ((∃ s, f.trsOf s ≠ []) → g.Truthful) := by
  obtain ⟨h1, h2⟩ := C50_simple (tr := (fun t => .ok { t with olabel := EPS } : Tr W → R (Tr W)))
    (fin := .ok) (p := fun p => (p.and Props.setArcMask).or (Props.of [.oEpsilons, .oLabelSorted])) f hs
  obtain ⟨g, hg⟩ := h1.2 ⟨fun _ t _ => ⟨_, rfl⟩, fun _ w _ => ⟨_, rfl⟩⟩
  obtain ⟨hm, hp⟩ := h2 g hg
  have ht : ∀ s, g.trsOf s = (f.trsOf s).map fun t => { t with olabel := EPS } := fun s => forall₂_ok (hm.trs s)
  have hf : ∀ s, g.finOf s = f.finOf s := fun s => by
    have := rel_ok (k := id) (hm.fin s)
    rwa [Option.map_id] at this
  refine ⟨g, hg, ht, hf, hm.start, hm.num, fun ⟨s, hne⟩ b hb => ?_⟩
  rw [hp] at hb
  have hb : b = .oEpsilons ∨ b = .oLabelSorted := by revert hb; cases b <;> simp [Props.setArcMask, Props.of]
  rcases hb with rfl | rfl
  · obtain ⟨t, l, hl⟩ := List.exists_cons_of_ne_nil hne
    exact ⟨s, { t with olabel := EPS }, by rw [ht, hl]; simp, rfl⟩
  · intro s
    rw [ht, List.map_map]
    show ((f.trsOf s).map fun _ => EPS).Pairwise (· ≤ ·)
    rw [List.map_const']
    exact List.pairwise_replicate.2 (Or.inr (le_refl _))

/-- C50/C51 for `TimesMapper`: every transition weight and final weight is multiplied from the right. -/
theorem C50_times [Mul W] (f : Fst W) (hs : f.start ≠ none) (c : W) : ∃ g, f.trMap (timesMapper c) () = .ok ((), g) ∧
    (∀ s, g.trsOf s = (f.trsOf s).map fun t => { t with weight := t.weight * c }) ∧
    (∀ s, g.finOf s = (f.finOf s).map (· * c)) ∧ g.start = f.start ∧ g.numStates = f.numStates ∧
    (f.Truthful → g.Truthful) := by
  obtain ⟨h1, h2⟩ := C50_simple (tr := (fun t => .ok { t with weight := t.weight * c } : Tr W → R (Tr W)))
    (fin := fun w => .ok (w * c)) (p := fun p => p.and Props.weightInvariantMask) f hs
  obtain ⟨g, hg⟩ := h1.2 ⟨fun _ t _ => ⟨_, rfl⟩, fun _ w _ => ⟨_, rfl⟩⟩
  obtain ⟨hm, hp⟩ := h2 g hg
  exact ⟨g, hg, fun s => forall₂_ok (hm.trs s), fun s => rel_ok (hm.fin s), hm.start, hm.num,
    fun tf => C50_flags_weights (fun w => .ok (w * c)) f g tf hg⟩

/-- `PlusMapper`: a constant is added to every transition weight and final weight. -/
theorem C50_plus [Add W] (f : Fst W) (hs : f.start ≠ none) (c : W) : ∃ g, f.trMap (plusMapper c) () = .ok ((), g) ∧
    (∀ s, g.trsOf s = (f.trsOf s).map fun t => { t with weight := t.weight + c }) ∧
    (∀ s, g.finOf s = (f.finOf s).map (· + c)) ∧ g.start = f.start ∧ g.numStates = f.numStates ∧
    (f.Truthful → g.Truthful) := by
  obtain ⟨h1, h2⟩ := C50_simple (tr := (fun t => .ok { t with weight := t.weight + c } : Tr W → R (Tr W)))
    (fin := fun w => .ok (w + c)) (p := fun p => p.and Props.weightInvariantMask) f hs
  obtain ⟨g, hg⟩ := h1.2 ⟨fun _ t _ => ⟨_, rfl⟩, fun _ w _ => ⟨_, rfl⟩⟩
  obtain ⟨hm, hp⟩ := h2 g hg
  exact ⟨g, hg, fun s => forall₂_ok (hm.trs s), fun s => rel_ok (hm.fin s), hm.start, hm.num,
    fun tf => C50_flags_weights (fun w => .ok (w + c)) f g tf hg⟩

/-- The mappers change the instance `exTwoTape`. -/
example : (∃ g, exTwoTape.trMap (timesMapper 3) () = .ok ((), g) ∧ g.finOf 2 = some 21 ∧ g.trsOf 1 = [⟨0, 4, 9, 2⟩]) ∧
    (∃ g, exTwoTape.trMap inputEpsilonMapper () = .ok ((), g) ∧ g.trsOf 0 = [⟨0, 5, 2, 1⟩, ⟨0, 0, 1, 1⟩] ∧
      g.props .iEpsilons = true) ∧
    (∃ g, exTwoTape.trMap rmWeightMapper () = .ok ((), g) ∧ g.trsOf 0 = [⟨1, 5, 1, 1⟩, ⟨1, 0, 1, 1⟩] ∧
      g.props .unweighted = true ∧ exTwoTape.props .unweighted = false) :=
  ⟨⟨_, rfl, by decide⟩, ⟨_, rfl, by decide⟩, ⟨_, rfl, by decide⟩⟩

/-- A mapper which allows a superfinal state and labels the final weight 7. -/
def exAllow : Mapper Unit Nat where
  tr _ t := .ok ((), { t with weight := t.weight + 1 })
  fin _ t := .ok ((), if t.weight = 7 then { t with olabel := 9 } else t)
  action := .allowSuperfinal
  props _ := Props.of []

/-- The superfinal state is created and used. -/
example : ∃ g, exTwoTape.trMap exAllow () = .ok ((), g) ∧ g.numStates = 4 ∧ g.trsOf 2 = [⟨0, 9, 7, 3⟩] ∧ g.finOf 2 = none ∧
    g.finOf 3 = some 1 := ⟨_, rfl, by decide⟩

/-- Defect: `InputEpsilonMapper` claims input epsilons on an FST without any transition. -/
theorem C50_input_epsilon_defect : ∃ f g : Fst Nat, f.WF ∧ f.Truthful ∧ f.trMap inputEpsilonMapper () = .ok ((), g) ∧
    g.props .iEpsilons = true ∧ ¬ g.Holds .iEpsilons := by
  obtain ⟨g, h1, h2, -⟩ := C50_input_epsilon_partial ((Fst.new.addStates 1).setStart 0 : Fst Nat) (by simp)
  refine ⟨(Fst.new.addStates 1).setStart 0, g, ⟨?_, ?_⟩,
    Fst.truthful_setStart (Fst.truthful_addStates Fst.truthful_new 1) 0, h1, ?_, ?_⟩
  · intro i hi; cases hi; decide
  · intro s t ht; simp at ht
  · obtain ⟨g', h1', h3⟩ : ∃ g', ((Fst.new.addStates 1).setStart 0 : Fst Nat).trMap inputEpsilonMapper () = .ok ((), g') ∧
        g'.props .iEpsilons = true := ⟨_, rfl, rfl⟩
    rw [h1] at h1'
    cases h1'
    exact h3
  · rintro ⟨s, t, ht, -⟩
    rw [h2] at ht
    simp at ht

/-- A mapper which requires a superfinal state and turns final weights into zero. -/
def exRequire : Mapper Unit Nat where
  tr _ t := .ok ((), t)
  fin _ t := .ok ((), { t with weight := 0 })
  action := .requireSuperfinal
  props _ := Props.of []

/-- Defect: when a `MapRequireSuperfinal` mapper turns a final weight into an unlabelled zero, the old weight stays. -/
theorem C50_require_zero_defect : ∃ g, exTwoTape.trMap exRequire () = .ok ((), g) ∧ exTwoTape.finOf 2 = some 7 ∧
    exRequire.fin () ⟨0, 0, 7⟩ = .ok ((), ⟨0, 0, 0⟩) ∧ g.finOf 2 = some 7 ∧ g.trsOf 2 = [] :=
  ⟨_, rfl, by decide⟩

/-- Defect: without a start state `tr_map` returns `Ok` and maps nothing. -/
theorem C50_no_start (f : Fst W) (hs : f.start = none) (m : Mapper σ W) (k : σ) : f.trMap m k = .ok (k, f) :=
  simple_no_start f hs m k

end Verif
