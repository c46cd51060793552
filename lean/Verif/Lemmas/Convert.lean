import Verif.Model.Convert
import Verif.Lemmas.TrMap

/-! # The loops of `weight_convert` -/

namespace Verif
set_option linter.unusedSectionVars false
universe u v
variable {W : Type u} {V : Type v} [Zero V] [One V] [DecidableEq V]

theorem freshStates_spec (n : Nat) : (freshStates n : Fst V).numStates = n ∧ (∀ s, (freshStates n : Fst V).trsOf s = []) ∧
    (∀ s, (freshStates n : Fst V).finOf s = none) ∧ (freshStates n : Fst V).start = none ∧ (freshStates n : Fst V).Truthful ∧
    (freshStates n : Fst V).AllCounters := by
  induction n with
  | zero =>
    exact ⟨rfl, fun s => Fst.trsOf_of_ge (Nat.zero_le _), fun s => Fst.finOf_of_ge (Nat.zero_le _), rfl, Fst.truthful_new, Fst.allCounters_new⟩
  | succ n ih =>
    obtain ⟨h1, h2, h3, h4, h5, h6⟩ := ih
    refine ⟨by simp [freshStates, h1], fun s => by simp [freshStates, h2], fun s => by simp [freshStates, h3], h4, ?_, ?_⟩
    · exact Fst.truthful_addStates h5 1
    · exact Fst.allCounters_addStates h6 1

/-- The results of the converter on a list of transitions. -/
def ConvTrs (c : Converter W V) : List (Tr W) → List (Tr V) → Prop := List.Forall₂ fun t t' => c.tr t = .ok t'

/-- The results of the converter on a final weight. -/
def ConvFin (c : Converter W V) : Option W → Option (FinalTr V) → Prop := Option.Rel fun w t => c.fin ⟨EPS, EPS, w⟩ = .ok t

/-- `g` is `o` with `ts` added to the transitions of `s`. -/
structure TrsAdded (o g : Fst V) (s : StateId) (ts : List (Tr V)) : Prop where
  trs : ∀ q, g.trsOf q = if q = s then o.trsOf s ++ ts else o.trsOf q
  fin : ∀ q, g.finOf q = o.finOf q
  num : g.numStates = o.numStates
  start : g.start = o.start
  counters : o.AllCounters → g.AllCounters
  truthful : o.Truthful → g.Truthful

theorem convTrs_ok {c : Converter W V} {s : Nat} : ∀ {ts : List (Tr W)} {ts' : List (Tr V)} {o : Fst V}, ConvTrs c ts ts' → s < o.numStates →
    ∃ g, convTrs c s ts o = .ok g ∧ TrsAdded o g s ts' := by
  intro ts
  induction ts with
  | nil =>
    intro ts' o h hs
    cases h
    refine ⟨o, rfl, fun q => ?_, fun _ => rfl, rfl, rfl, id, id⟩
    split
    · rename_i e; rw [e]; simp
    · rfl
  | cons t ts ih =>
    intro ts' o h hs
    cases h with
    | @cons _ t' _ ts' h1 h2 =>
      obtain ⟨g, h3, h4⟩ := ih (o := o.addTr s t') h2 (by simpa using hs)
      refine ⟨g, by simp only [convTrs, h1, h3], fun q => ?_, fun q => by rw [h4.fin]; simp, by rw [h4.num]; simp, by rw [h4.start]; simp, fun hc =>
        h4.counters (Fst.allCounters_addTr hc _ _), fun ht => h4.truthful (Fst.truthful_addTr ht hs _)⟩
      by_cases hq : q = s
      · rw [h4.trs, if_pos hq, if_pos hq, Fst.addTr_trsOf, if_pos (And.intro rfl hs)]; simp
      · rw [h4.trs, if_neg hq, if_neg hq, Fst.addTr_trsOf, if_neg (by tauto)]

theorem convTrs_of_ok {c : Converter W V} {s : Nat} : ∀ {ts : List (Tr W)} {o g : Fst V}, convTrs c s ts o = .ok g → ∃ ts', ConvTrs c ts ts' := by
  intro ts
  induction ts with
  | nil => intro o g _; exact ⟨[], .nil⟩
  | cons t ts ih =>
    intro o g h
    simp only [convTrs] at h
    cases hc : c.tr t with
    | error e => rw [hc] at h; cases h
    | ok t' =>
      rw [hc] at h
      obtain ⟨ts', h'⟩ := ih h
      exact ⟨t' :: ts', .cons hc h'⟩

/-- May this mapped final transition be placed? -/
def placeable (act : FinalAction) (t : Option (FinalTr V)) : Prop := act = .noSuperfinal → ∀ x, t = some x → x.labelled = false

/-- The state of the loop after `k` states. -/
structure ConvInv (c : Converter W V) (f : Fst W) (k : Nat) (rows : List (List (Tr V) × Option (FinalTr V))) (o : Fst V)
    (sf : Option StateId) : Prop where
  len : rows.length = k
  start : o.start = f.start
  num : o.numStates = f.numStates + if usesSuper c.action rows then 1 else 0
  sfE : sf = if usesSuper c.action rows then some f.numStates else none
  low : ∀ (s : Nat) ts t, rows[s]? = some (ts, t) → (o.trsOf s, o.finOf s) = placed c.action f.numStates ts t
  calls : ∀ (s : Nat) ts t, rows[s]? = some (ts, t) → ConvTrs c (f.trsOf s) ts ∧ ConvFin c (f.finOf s) t ∧ placeable c.action t
  high : ∀ s, k ≤ s → s < f.numStates → o.trsOf s = [] ∧ o.finOf s = none
  sup : usesSuper c.action rows = true → o.trsOf f.numStates = [] ∧ o.finOf f.numStates = some 1
  counters : o.AllCounters
  truthful : o.Truthful

/-- Going on by one state. -/
theorem ConvInv.next {c : Converter W V} {f : Fst W} {k : Nat} {rows} {o g : Fst V} {sf sf' : Option StateId} (inv : ConvInv c f k rows o sf)
    (hk : k < f.numStates) {ts : List (Tr V)} {t : Option (FinalTr V)} (hc : ConvTrs c (f.trsOf k) ts) (hf : ConvFin c (f.finOf k) t) (hp : placeable c.action t)
    (hstart : g.start = o.start) (hnum : g.numStates = f.numStates + if usesSuper c.action (rows ++ [(ts, t)]) then 1 else 0)
    (hsf : sf' = if usesSuper c.action (rows ++ [(ts, t)]) then some f.numStates else none)
    (hat : (g.trsOf k, g.finOf k) = placed c.action f.numStates ts t)
    (hrest : ∀ q, q < f.numStates → q ≠ k → g.trsOf q = o.trsOf q ∧ g.finOf q = o.finOf q)
    (hsup : usesSuper c.action (rows ++ [(ts, t)]) = true → g.trsOf f.numStates = [] ∧ g.finOf f.numStates = some 1)
    (hcount : g.AllCounters) (htrue : g.Truthful) : ConvInv c f (k + 1) (rows ++ [(ts, t)]) g sf' where
  len := by simp [inv.len]
  start := by rw [hstart, inv.start]
  num := hnum
  sfE := hsf
  low s ts' t' h := by
    by_cases hs : s < k
    · rw [List.getElem?_append_left (by rw [inv.len]; exact hs)] at h
      obtain ⟨e1, e2⟩ := hrest s (by omega) (by omega)
      rw [e1, e2]
      exact inv.low s ts' t' h
    · have hlt := (List.getElem?_eq_some_iff.1 h).1
      simp only [List.length_append, inv.len, List.length_singleton] at hlt
      have : s = k := by omega
      subst this
      rw [List.getElem?_append_right (by rw [inv.len]), inv.len, Nat.sub_self] at h
      simp only [List.getElem?_cons_zero, Option.some.injEq, Prod.mk.injEq] at h
      rw [← h.1, ← h.2]; exact hat
  calls s ts' t' h := by
    by_cases hs : s < k
    · rw [List.getElem?_append_left (by rw [inv.len]; exact hs)] at h
      exact inv.calls s ts' t' h
    · have hlt := (List.getElem?_eq_some_iff.1 h).1
      simp only [List.length_append, inv.len, List.length_singleton] at hlt
      have : s = k := by omega
      subst this
      rw [List.getElem?_append_right (by rw [inv.len]), inv.len, Nat.sub_self] at h
      simp only [List.getElem?_cons_zero, Option.some.injEq, Prod.mk.injEq] at h
      rw [← h.1, ← h.2]; exact ⟨hc, hf, hp⟩
  high s h1 h2 := by
    obtain ⟨e1, e2⟩ := hrest s h2 (by omega)
    rw [e1, e2]
    exact inv.high s (by omega) h2
  sup := hsup
  counters := hcount
  truthful := htrue

theorem finToSuper_truthful {o : Fst V} (h : o.Truthful) {s : Nat} (hs : s < o.numStates) (t : FinalTr V) (q) : (finToSuper o s t q).Truthful :=
  Fst.truthful_delFinal (Fst.truthful_addTr h hs _) (by simpa using hs)

theorem labelled_iff {t : FinalTr V} : t.labelled = true ↔ t.ilabel ≠ EPS ∨ t.olabel ≠ EPS := by
  simp only [FinalTr.labelled, Bool.or_eq_true, decide_eq_true_eq]

theorem convState_step {c : Converter W V} {f : Fst W} {k : Nat} {rows} {o : Fst V} {sf : Option StateId} (inv : ConvInv c f k rows o sf)
    (hk : k < f.numStates) {ts : List (Tr V)} {t : Option (FinalTr V)} (hc : ConvTrs c (f.trsOf k) ts) (hf : ConvFin c (f.finOf k) t)
    (hp : placeable c.action t) : ∃ g sf', convState c f (o, sf) k = .ok (g, sf') ∧ ConvInv c f (k + 1) (rows ++ [(ts, t)]) g sf' := by
  have hko : k < o.numStates := by rw [inv.num]; split <;> omega
  obtain ⟨g1, e1, a1⟩ := convTrs_ok hc hko
  obtain ⟨ht0, hf0⟩ := inv.high k (le_refl _) hk
  have htrs : g1.trsOf k = ts := by rw [a1.trs, if_pos rfl, ht0, List.nil_append]
  have hfin : g1.finOf k = none := by rw [a1.fin, hf0]
  have hrest : ∀ q, q ≠ k → g1.trsOf q = o.trsOf q ∧ g1.finOf q = o.finOf q := fun q hq => ⟨by rw [a1.trs, if_neg hq], a1.fin q⟩
  have hc1 := a1.counters inv.counters
  have ht1 := a1.truthful inv.truthful
  have hk1 : k < g1.numStates := by rw [a1.num]; exact hko
  have hsup1 : usesSuper c.action rows = true → g1.trsOf f.numStates = [] ∧ g1.finOf f.numStates = some 1 := by
    intro h
    obtain ⟨e1, e2⟩ := hrest f.numStates (by omega)
    rw [e1, e2]; exact inv.sup h
  unfold convState
  simp only [e1]
  cases hfk : f.finOf k with
  | none =>
    rw [hfk] at hf
    cases hf
    have hu : usesSuper c.action (rows ++ [(ts, none)]) = usesSuper c.action rows := by
      rw [usesSuper_append]; cases c.action <;> simp
    refine ⟨g1, sf, rfl, inv.next hk hc (by rw [hfk]; exact .none) hp a1.start ?_ ?_ ?_ (fun q _ h => hrest q h) ?_ hc1 ht1⟩
    · rw [hu, a1.num]; exact inv.num
    · rw [hu]; exact inv.sfE
    · rw [htrs, hfin]; rfl
    · rw [hu]; exact hsup1
  | some w =>
    rw [hfk] at hf
    cases hf with
    | @some _ t hcf =>
    have hf' : ConvFin c (f.finOf k) (some t) := by rw [hfk]; exact .some hcf
    simp only [convFin, hcf]
    cases ha : c.action with
    | noSuperfinal =>
      have hl : t.labelled = false := hp ha t rfl
      have hu : ∀ r : List (List (Tr V) × Option (FinalTr V)), usesSuper c.action r = false := by intro r; rw [ha]; rfl
      refine ⟨g1.setFinal k t.weight, sf, by simp [convPlace, hl], inv.next hk hc hf' hp a1.start ?_ ?_ ?_ (fun q _ h => ?_) ?_ ?_ ?_⟩
      · rw [hu, Fst.setFinal_numStates, a1.num, inv.num, hu]
      · rw [hu, inv.sfE, hu]
      · rw [Fst.setFinal_trsOf, Fst.setFinal_finOf, if_pos ⟨rfl, hk1⟩, htrs, ha]; rfl
      · rw [Fst.setFinal_trsOf, Fst.setFinal_finOf, if_neg (by tauto)]; exact hrest q h
      · rw [hu]; intro h; cases h
      · exact Fst.allCounters_setFinal hc1 _ _
      · exact Fst.truthful_setFinal ht1 hk1 _
    | requireSuperfinal =>
      have hu : ∀ r : List (List (Tr V) × Option (FinalTr V)), usesSuper c.action r = true := by intro r; rw [ha]; rfl
      have hsf : sf = some f.numStates := by rw [inv.sfE, hu]; rfl
      subst hsf
      by_cases hl : t.labelled = true ∨ t.weight ≠ 0
      · refine ⟨finToSuper g1 k t f.numStates, some f.numStates, by simp only [convPlace]; rw [if_pos hl], inv.next hk hc hf' hp a1.start ?_ ?_ ?_ (fun q _ h => ?_) ?_ ?_ ?_⟩
        · rw [hu, finToSuper_num, a1.num, inv.num, hu]
        · rw [hu]; rfl
        · rw [finToSuper_trsOf _ _ _ _ _ hk1, finToSuper_finOf, if_pos rfl, if_pos rfl, htrs, ha]
          simp only [placed]
          rw [if_pos]
          rcases hl with h | h
          · rw [labelled_iff] at h; tauto
          · tauto
        · rw [finToSuper_trsOf _ _ _ _ _ hk1, finToSuper_finOf, if_neg h, if_neg h]; exact hrest q h
        · intro h
          rw [finToSuper_trsOf _ _ _ _ _ hk1, finToSuper_finOf, if_neg (by omega), if_neg (by omega)]; exact hsup1 (hu _)
        · exact finToSuper_counters hc1 _ _ _
        · exact finToSuper_truthful ht1 hk1 _ _
      · refine ⟨g1.delFinal k, some f.numStates, by simp only [convPlace]; rw [if_neg hl], inv.next hk hc hf' hp a1.start ?_ ?_ ?_ (fun q _ h => ?_) ?_ ?_ ?_⟩
        · rw [hu, Fst.delFinal_numStates, a1.num, inv.num, hu]
        · rw [hu]; rfl
        · rw [Fst.delFinal_trsOf, Fst.delFinal_finOf, if_pos rfl, htrs, ha]
          simp only [placed]
          rw [if_neg]
          rw [labelled_iff] at hl; tauto
        · rw [Fst.delFinal_trsOf, Fst.delFinal_finOf, if_neg h]; exact hrest q h
        · intro h
          rw [Fst.delFinal_trsOf, Fst.delFinal_finOf, if_neg (by omega)]; exact hsup1 (hu _)
        · exact Fst.allCounters_delFinal hc1 _
        · exact Fst.truthful_delFinal ht1 hk1
    | allowSuperfinal =>
      by_cases hl : t.labelled = true
      · have hu : usesSuper c.action (rows ++ [(ts, some t)]) = true := by rw [ha, usesSuper_append]; simp [hl]
        obtain ⟨g2, q2, he, hq2, hnum2, hst2, htr2, hfi2, hsup2, hct2, htt2⟩ : ∃ g2 q2, ensureSuper g1 sf = (g2, q2) ∧ q2 = f.numStates ∧
            g2.numStates = f.numStates + 1 ∧ g2.start = g1.start ∧ (∀ q, q < f.numStates → g2.trsOf q = g1.trsOf q) ∧
            (∀ q, q < f.numStates → g2.finOf q = g1.finOf q) ∧ (g2.trsOf f.numStates = [] ∧ g2.finOf f.numStates = some 1) ∧
            g2.AllCounters ∧ g2.Truthful := by
          by_cases hb : usesSuper c.action rows = true
          · have : sf = some f.numStates := by rw [inv.sfE, if_pos hb]
            subst this
            exact ⟨g1, _, rfl, rfl, by rw [a1.num, inv.num, if_pos hb], rfl, fun _ _ => rfl, fun _ _ => rfl, hsup1 hb, hc1, ht1⟩
          · have : sf = none := by rw [inv.sfE, if_neg hb]
            subst this
            have hnn : g1.numStates = f.numStates := by rw [a1.num, inv.num, if_neg hb]; rfl
            refine ⟨_, _, rfl, hnn, by simp [hnn], rfl, fun q _ => by simp, fun q hq => ?_, ⟨?_, ?_⟩,
              Fst.allCounters_setFinal (Fst.allCounters_addStates hc1 1) _ _, Fst.truthful_setFinal (Fst.truthful_addStates ht1 1) (by simp) _⟩
            · rw [Fst.setFinal_finOf, if_neg (by omega)]; simp
            · rw [Fst.setFinal_trsOf, Fst.addState_trsOf, Fst.trsOf_of_ge (by omega)]
            · rw [Fst.setFinal_finOf, if_pos ⟨hnn.symm, by simp⟩]
        subst hq2
        have hk2 : k < g2.numStates := by omega
        refine ⟨finToSuper g2 k t f.numStates, some f.numStates, by simp only [convPlace, he]; rw [if_pos hl],
          inv.next hk hc hf' hp (by rw [show (finToSuper g2 k t f.numStates).start = g2.start from rfl, hst2]; exact a1.start) ?_ ?_ ?_ (fun q hq h => ?_) ?_ ?_ ?_⟩
        · rw [hu, finToSuper_num, hnum2]; rfl
        · rw [hu]; rfl
        · rw [finToSuper_trsOf _ _ _ _ _ hk2, finToSuper_finOf, if_pos rfl, if_pos rfl, htr2 k hk, htrs, ha]
          simp only [placed]
          rw [if_pos (labelled_iff.1 hl)]
        · rw [finToSuper_trsOf _ _ _ _ _ hk2, finToSuper_finOf, if_neg h, if_neg h, htr2 q hq, hfi2 q hq]; exact hrest q h
        · intro _
          rw [finToSuper_trsOf _ _ _ _ _ hk2, finToSuper_finOf, if_neg (by omega), if_neg (by omega)]; exact hsup2
        · exact finToSuper_counters hct2 _ _ _
        · exact finToSuper_truthful htt2 hk2 _ _
      · have hu : usesSuper c.action (rows ++ [(ts, some t)]) = usesSuper c.action rows := by rw [ha, usesSuper_append]; simp [hl]
        refine ⟨g1.setFinal k t.weight, sf, by simp only [convPlace]; rw [if_neg hl], inv.next hk hc hf' hp a1.start ?_ ?_ ?_ (fun q _ h => ?_) ?_ ?_ ?_⟩
        · rw [hu, Fst.setFinal_numStates, a1.num, inv.num]
        · rw [hu]; exact inv.sfE
        · rw [Fst.setFinal_trsOf, Fst.setFinal_finOf, if_pos ⟨rfl, hk1⟩, htrs, ha]
          simp only [placed]
          rw [if_neg (by rw [← labelled_iff]; exact hl)]
        · rw [Fst.setFinal_trsOf, Fst.setFinal_finOf, if_neg (by tauto)]; exact hrest q h
        · rw [hu]; intro h
          rw [Fst.setFinal_trsOf, Fst.setFinal_finOf, if_neg (by omega)]; exact hsup1 h
        · exact Fst.allCounters_setFinal hc1 _ _
        · exact Fst.truthful_setFinal ht1 hk1 _

/-- If a step succeeds then so did the calls of the converter. -/
theorem convState_of_ok {c : Converter W V} {f : Fst W} {k : Nat} {o g : Fst V} {sf sf' : Option StateId} (h : convState c f (o, sf) k = .ok (g, sf')) :
    ∃ ts t, ConvTrs c (f.trsOf k) ts ∧ ConvFin c (f.finOf k) t ∧ placeable c.action t := by
  unfold convState at h
  cases h1 : convTrs c k (f.trsOf k) o with
  | error e => simp only [h1] at h; cases h
  | ok o1 =>
    simp only [h1] at h
    obtain ⟨ts, hts⟩ := convTrs_of_ok h1
    cases h2 : f.finOf k with
    | none => exact ⟨ts, none, hts, .none, fun _ x hx => by cases hx⟩
    | some w =>
      rw [h2] at h
      simp only [convFin] at h
      cases h3 : c.fin ⟨EPS, EPS, w⟩ with
      | error e => rw [h3] at h; cases h
      | ok t =>
        rw [h3] at h
        refine ⟨ts, some t, hts, .some h3, fun ha x hx => ?_⟩
        cases hx
        simp only [ha, convPlace] at h
        cases hl : t.labelled with
        | false => rfl
        | true => rw [hl] at h; cases h

theorem convLoop_ok {c : Converter W V} {f : Fst W} {o : Fst V} {sf : Option StateId} (inv : ConvInv c f 0 [] o sf) :
    ∀ n, n ≤ f.numStates →
    (∀ g sf', (List.range n).foldlM (convState c f) (o, sf) = .ok (g, sf') → ∃ rows, ConvInv c f n rows g sf') ∧
    ((∀ s, s < n → ∃ ts t, ConvTrs c (f.trsOf s) ts ∧ ConvFin c (f.finOf s) t ∧ placeable c.action t) →
      ∃ g sf', (List.range n).foldlM (convState c f) (o, sf) = .ok (g, sf')) := by
  intro n
  induction n with
  | zero =>
    intro _
    refine ⟨fun g sf' h => ?_, fun _ => ⟨o, sf, rfl⟩⟩
    simp only [List.range_zero, List.foldlM_nil] at h
    cases h
    exact ⟨[], inv⟩
  | succ n ih =>
    intro hn
    obtain ⟨ih1, ih2⟩ := ih (by omega)
    rw [List.range_succ, List.foldlM_append]
    constructor
    · intro g sf' h
      cases h1 : (List.range n).foldlM (convState c f) (o, sf) with
      | error e => rw [h1] at h; cases h
      | ok p =>
        obtain ⟨o1, sf1⟩ := p
        rw [h1] at h
        obtain ⟨rows, inv1⟩ := ih1 _ _ h1
        have h' : convState c f (o1, sf1) n = .ok (g, sf') := by
          simp only [List.foldlM_cons, List.foldlM_nil, bind, Except.bind, pure, Except.pure] at h
          cases h2 : convState c f (o1, sf1) n with
          | error e => rw [h2] at h; cases h
          | ok p => rw [h2] at h; exact h
        obtain ⟨ts, t, a, b, d⟩ := convState_of_ok h'
        obtain ⟨g', sf'', e, inv2⟩ := convState_step inv1 (by omega) a b d
        rw [h'] at e
        cases e
        exact ⟨_, inv2⟩
    · intro h
      obtain ⟨o1, sf1, h1⟩ := ih2 (fun s hs => h s (by omega))
      obtain ⟨rows, inv1⟩ := ih1 _ _ h1
      obtain ⟨ts, t, a, b, d⟩ := h n (by omega)
      obtain ⟨g', sf'', e, inv2⟩ := convState_step inv1 (by omega) a b d
      refine ⟨g', sf'', ?_⟩
      rw [h1]
      simp only [List.foldlM_cons, List.foldlM_nil, bind, Except.bind, pure, Except.pure, e]

theorem convInv_init (c : Converter W V) (f : Fst W) {i : StateId} (hi : f.start = some i) :
    ConvInv c f 0 [] ((initSuper c.action (freshStates f.numStates : Fst V)).1.setStart i) (initSuper c.action (freshStates f.numStates : Fst V)).2 := by
  obtain ⟨h1, h2, h3, h4, h5, h6⟩ := freshStates_spec (V := V) f.numStates
  by_cases ha : c.action = .requireSuperfinal
  · have e : initSuper c.action (freshStates f.numStates : Fst V) =
        ((freshStates f.numStates : Fst V).addState.setFinal f.numStates 1, some f.numStates) := by rw [ha]; simp [initSuper, h1]
    rw [e]
    refine ⟨rfl, hi.symm, ?_, ?_, fun s ts t h => by simp at h, fun s ts t h => by simp at h, fun s _ hs => ?_, fun _ => ?_, ?_, ?_⟩
    · simp [Fst.setStart_numStates, h1, ha, usesSuper]
    · simp [ha, usesSuper]
    · simp only [Fst.setStart_trsOf, Fst.setStart_finOf, Fst.setFinal_trsOf, Fst.setFinal_finOf]
      rw [if_neg (by omega)]
      simp [h2, h3]
    · simp only [Fst.setStart_trsOf, Fst.setStart_finOf, Fst.setFinal_trsOf, Fst.setFinal_finOf]
      simp [h1, h2]
    · exact Fst.allCounters_setStart (Fst.allCounters_setFinal (Fst.allCounters_addStates h6 1) _ _) _
    · exact Fst.truthful_setStart (Fst.truthful_setFinal (Fst.truthful_addStates h5 1) (by simp [h1]) _) _
  · have e : initSuper c.action (freshStates f.numStates : Fst V) = (freshStates f.numStates, none) := by
      cases h : c.action
      · rfl
      · rfl
      · exact absurd h ha
    have hu : usesSuper c.action ([] : List (List (Tr V) × Option (FinalTr V))) = false := by
      cases h : c.action
      · rfl
      · rfl
      · exact absurd h ha
    rw [e]
    refine ⟨rfl, hi.symm, ?_, ?_, fun s ts t h => by simp at h, fun s ts t h => by simp at h, fun s _ hs => ?_, fun h => ?_, ?_, ?_⟩
    · rw [hu]; simp [h1]
    · rw [hu]; rfl
    · simp [h2, h3]
    · rw [hu] at h; cases h
    · exact Fst.allCounters_setStart h6 _
    · exact Fst.truthful_setStart h5 _

end Verif
