import Verif.Lemmas.DetFunc
import Verif.Lemmas.DetSupport

/-! # `GallicWeightMin` in the determinization of transducers -/

namespace Verif
set_option linter.unusedSectionVars false
universe u
variable {W : Type u}

/-! ### Every path of the determinization is a path of the input -/

section
variable [MonoidWithZero W] [DecidableEq W] {o : DetOps W} {good : W → Prop} {f D : Fst W} {ord : DTup W → Label → List (DElt W) → List (DElt W)}

theorem det_support (hK : ∀ a b c, o.plus a b = .ok c → c = a ∨ c = b)
    (hdiv : ∀ ws d w q q', (∀ x ∈ ws, good x) → commonFold o 0 ws = .ok d → Sums o ws w → o.divide w d = .ok q → o.quantize q = .ok q' → d * q' = w)
    (ho : Orders ord) (hg : ∀ s, ∀ t ∈ f.trsOf s, good t.weight) (hmul : ∀ a b, good a → good b → good (a * b)) (hac : f.Holds .acceptor)
    (hgood : ∀ t, (detMachine f o ord).Reach t → DGood f good t) {nm} (hp : (detMachine f o ord).Presents nm D) :
    ∀ (n : Nat) (s : StateId) (t : DTup W), nm s = some t → ∀ p ∈ D.pathsFrom n s, ∃ e ∈ t.subset, ∃ v, (p.1, p.2.1, v) ∈ f.pathsFrom n e.state ∧ p.2.2 = e.weight * v := by
  intro n
  induction n with
  | zero =>
    intro s t hs p hpm
    have hr : (detMachine f o ord).Reach t := (hp.tuples t).2 ⟨s, hs⟩
    rw [hp.pathsFrom 0 hs, Machine.pathsFrom] at hpm
    cases hf : (detMachine f o ord).fin t with
    | none => rw [hf] at hpm; simp at hpm
    | some v =>
      rw [hf] at hpm
      simp only [Multiset.mem_singleton] at hpm
      subst hpm
      simp only [TupleOp.machine, detOp, detFin] at hf
      cases hsum : detFinSum f o 0 t.subset with
      | error e => rw [hsum] at hf; cases hf
      | ok w =>
        rw [hsum] at hf
        simp only at hf
        have h0 : w ≠ 0 ∧ w = v := by
          by_cases h : w = 0
          · simp [h] at hf
          · simp [h] at hf; exact ⟨h, hf⟩
        obtain ⟨h0, rfl⟩ := h0
        rcases detFinSum_from (K := id) hK (fun e he => (hgood t hr e he).1) hsum with h | ⟨e, he, h⟩
        · exact absurd h h0
        · cases hx : f.finOf e.state with
          | none => rw [hx] at h; exact absurd (h.trans (mul_zero _)) h0
          | some x =>
            rw [hx] at h
            exact ⟨e, he, x, by simp [Fst.pathsFrom, hx], h⟩
  | succ n ih =>
    intro s t hs p hpm
    have hr : (detMachine f o ord).Reach t := (hp.tuples t).2 ⟨s, hs⟩
    rw [Fst.pathsFrom, Multiset.mem_bind] at hpm
    obtain ⟨tr, htr, hpm⟩ := hpm
    obtain ⟨p', hp', rfl⟩ := Multiset.mem_map.1 hpm
    obtain ⟨d, a, hd, -, ha, hn⟩ := hp.trs_of s tr (by simpa using htr)
    rw [hs] at hd; injection hd with hd; subst hd
    obtain ⟨q, hq, v, hv, hw⟩ := ih _ _ hn.2.2.2 p' hp'
    simp only [TupleOp.machine, detOp] at ha
    cases hc : detTrs f o ord t with
    | error e => rw [hc] at ha; cases ha
    | ok as =>
      rw [hc] at ha
      obtain ⟨ws, w1, w2, w3⟩ := detTrs_from (K := id) hK ho (fun e he => (hgood t hr e he).1) hc a ha
      obtain ⟨e, he, tr', htr', l1, l2, l3, m, x, hsm, l4, l5, l6⟩ := w3 q hq
      have hdq := hdiv ws a.weight m x q.weight (fun z hz => by
        obtain ⟨e, he, tr, ht, rfl⟩ := w1 z hz
        exact hmul _ _ (hgood t hr e he).2 (hg _ _ ht)) w2 hsm l5 l6
      refine ⟨e, he, tr'.weight * v, ?_, ?_⟩
      · rw [Fst.pathsFrom, Multiset.mem_bind]
        refine ⟨tr', by simpa using htr', Multiset.mem_map.2 ⟨_, by rw [l3]; exact hv, ?_⟩⟩
        simp only [PathT.cat, Tr.asPath, hn.1, hn.2.1, ← hac e.state tr' htr', l1, ← l2]
      · show tr.weight * p'.2.2 = _
        rw [hn.2.2.1, hw, ← mul_assoc, hdq, show m = e.weight * tr'.weight from l4, mul_assoc]

end

/-! ### The operations -/

section
variable [Semiring W] [DecidableEq W]

/-- The operations of `GallicWeightMin<W>` (`minDet`) on proper values. -/
def mgDet (w : WeightOps W) (o : DetOps W) : DetOps (RG W) where
  plus a b := liftRG ((minDet w o).plus a.1 b.1)
  common a b := liftRG ((minDet w o).common a.1 b.1)
  divide a b := liftRG ((minDet w o).divide a.1 b.1)
  quantize a := liftRG ((minDet w o).quantize a.1)
  leftSemiring := o.leftSemiring

/-- `determinize` of an FST without the `ACCEPTOR` flag, type `DeterminizeDisambiguate` (determinize_static.rs 79-93). -/
def determinizeD (w : WeightOps W) (o : DetOps W) (q : W → R W) (ord : DTup (RG W) → Label → List (DElt (RG W)) → List (DElt (RG W))) (f : Fst W) (n : Nat) :
    Option (R (Fst W)) :=
  if !w.flags.path then some (.error .err)
  else determinizeT RG.mk' (fun v => extractPair v.1) (mgDet w o) rgFactor (rgQuantize q) ord true f n

/-- What the weights must be like: `⊕` selects one of its arguments. -/
structure PathLaw (w : WeightOps W) : Prop where
  flag : w.flags.path = true
  plus : ∀ a b, w.plus a b = .ok (a + b)
  path : ∀ a b : W, a + b = a ∨ a + b = b

variable {w : WeightOps W} {o : DetOps W} {good : W → Prop}

theorem mg_plus (P : PathLaw w) (a b : RG W) : ∃ c, (mgDet w o).plus a b = .ok c ∧ (c = a ∨ c = b) ∧ c.raw.2 = a.raw.2 + b.raw.2 := by
  have hn : naturalLess w a.1.2 b.1.2 = .ok (a.raw.2 + b.raw.2 == a.raw.2 && !(a.raw.2 == b.raw.2)) := by
    unfold naturalLess; rw [P.plus]; rfl
  cases hb : (a.raw.2 + b.raw.2 == a.raw.2 && !(a.raw.2 == b.raw.2)) with
  | true =>
    rw [hb] at hn
    refine ⟨a, liftRG_ok ?_, .inl rfl, ?_⟩
    · show gallicMinPlus w a.1 b.1 = _
      unfold gallicMinPlus; rw [hn]
    · simp only [Bool.and_eq_true, beq_iff_eq] at hb
      exact hb.1.symm
  | false =>
    rw [hb] at hn
    refine ⟨b, liftRG_ok ?_, .inr rfl, ?_⟩
    · show gallicMinPlus w a.1 b.1 = _
      unfold gallicMinPlus; rw [hn]
    · simp only [Bool.and_eq_false_iff, beq_eq_false_iff_ne, Bool.not_eq_false', beq_iff_eq] at hb
      rcases P.path a.raw.2 b.raw.2 with h | h
      · rcases hb with hb | hb
        · exact absurd h hb
        · rw [h, hb]
      · exact h.symm

theorem mg_plus_sel (P : PathLaw w) (a b c : RG W) (h : (mgDet w o).plus a b = .ok c) : (c = a ∨ c = b) ∧ c.raw.2 = a.raw.2 + b.raw.2 := by
  obtain ⟨c', h1, h2⟩ := mg_plus (o := o) P a b
  rw [h] at h1; injection h1 with h1; subst h1
  exact h2

theorem mg_commonFold (ws : List (RG W)) (d : RG W) : commonFold (mgDet w o) d ws = commonFold (rgDet o) d ws := by
  induction ws generalizing d with
  | nil => rfl
  | cons v ws ih =>
    rw [commonFold, commonFold]
    rw [show (mgDet w o).common d v = (rgDet o).common d v from rfl]
    cases (rgDet o).common d v with
    | error e => rfl
    | ok d => exact ih d

theorem mg_sums (P : PathLaw w) {ws : List (RG W)} {v : RG W} (h : Sums (mgDet w o) ws v) : v ∈ ws := by
  induction h with
  | one h => exact h
  | more _ hb hc ih =>
    rcases (mg_plus_sel P _ _ _ hc).1 with h | h
    · rw [h]; exact ih
    · rw [h]; exact hb

theorem mg_divide (P : PathLaw w) (L : DivLaw o good) {ws : List (RG W)} {d v : RG W} (hg : ∀ v ∈ ws, RGood good v) (h : commonFold (mgDet w o) 0 ws = .ok d)
    (hs : Sums (mgDet w o) ws v) : ∃ q, (mgDet w o).divide v d = .ok q ∧ (mgDet w o).quantize q = .ok q ∧ d * q = v ∧ RGood good q := by
  rw [mg_commonFold] at h
  obtain ⟨c, u, k, x, q, rfl, rfl, e1, e2, e3, e4, e5⟩ := rg_divide L hg h (.one (mg_sums P hs))
  exact ⟨RG.single k q, e1, e2, by rw [RG.single_mul, e3], k, q, rfl, e4, e5⟩

theorem mgDet_law (P : PathLaw w) (L : DivLaw o good) : DetLaw (mgDet w o) (fun v : RG W => v.raw.2) (RGood good) where
  zero := rfl
  one := rfl
  mul _ _ := rfl
  plus a b c h := (mg_plus_sel P a b c h).2
  good_one := ⟨[], 1, rfl, L.one, by simp⟩
  good_mul := (rgDet_law L).good_mul
  divide ws d v q q' hg hc hs h1 h2 := by
    obtain ⟨r, e1, e2, e3, e4⟩ := mg_divide P L hg hc hs
    rw [h1] at e1; injection e1 with e1; subst e1
    rw [h2] at e2; injection e2 with e2; subst e2
    exact ⟨congrArg (fun v : RG W => v.raw.2) e3, e4⟩

theorem mgDet_total (P : PathLaw w) (L : DivLaw o good) : DetTotal (mgDet w o) (RGood good) where
  plus a b := (mg_plus P a b).imp fun c h => h.1
  common a b := by
    rcases RG.cases' b with rfl | ⟨l, x, rfl⟩
    · rcases RG.cases' a with rfl | ⟨l, x, rfl⟩
      · exact ⟨0, liftRG_ok (by
          show gallicCommon o.plus (.inf, 0) (.inf, 0) = .ok (.inf, 0)
          simp [gallicCommon, labelCommon, L.plus, pairR])⟩
      · refine ⟨RG.single (l.take 1) x, liftRG_ok ?_⟩
        show gallicCommon o.plus (.labels l, x) (.inf, 0) = .ok (.labels (l.take 1), x)
        rcases l with _ | ⟨a, l⟩ <;> simp [gallicCommon, labelCommon, L.plus, pairR]
    · obtain ⟨r, h, -⟩ := rg_common L.plus a (RG.single l x) (RG.single_ne_zero _ _)
      exact ⟨r, h⟩
  divide ws d v hg hc hs := by
    obtain ⟨r, e1, e2, -⟩ := mg_divide P L hg hc hs
    exact ⟨r, r, e1, e2⟩

/-! ### After the determinization -/

open Classical in
theorem sumVal_nonzero {V S : Type*} [Zero V] [DecidableEq V] [AddCommMonoid S] {val : V → S} (h : val 0 = 0) (A : Multiset (PathT V)) (x y : List Label) :
    sumVal val (nonzero A) x y = sumVal val A x y := by
  unfold sumVal nonzero
  induction A using Multiset.induction_on with
  | empty => simp
  | cons a A ih =>
    rw [Multiset.filter_cons, Multiset.filter_cons]
    by_cases h : a.1 = x ∧ a.2.1 = y
    · by_cases h0 : a.2.2 = 0 <;> simp_all
    · by_cases h0 : a.2.2 = 0
      · rw [if_neg (not_not.2 h0), if_neg h, zero_add, zero_add]; exact ih
      · rw [if_pos h0, if_neg h, zero_add, Multiset.singleton_add, Multiset.filter_cons_of_neg (p := fun p : PathT V => p.1 = x ∧ p.2.1 = y) _ h]
        exact ih

theorem sumVal_snd (A : Multiset (PathT W)) (x : List Label) :
    sumVal (fun v : RG W => v.raw.2) (A.map fun p => (p.1, p.1, RG.single p.2.1 p.2.2)) x x = sumIn A x := by
  unfold sumVal sumIn
  rw [Multiset.filter_map, Multiset.map_map]
  have : (fun p : PathT (RG W) => p.1 = x ∧ p.2.1 = x) ∘ (fun p : PathT W => (p.1, p.1, RG.single p.2.1 p.2.2)) = fun p : PathT W => p.1 = x ∧ p.1 = x := rfl
  simp only [Function.comp_def, and_self]
  rfl

variable {q : W → R W} {f : Fst W} {ord : DTup (RG W) → Label → List (DElt (RG W)) → List (DElt (RG W))}

/-- What comes of the determinization over gallic weights. -/
theorem d_after (P : PathLaw w) (L : DivLaw o good) (hq : q 1 = .ok 1) (ho : Orders ord) (hw : f.WF) (hg : ∀ s, ∀ t ∈ f.trsOf s, good t.weight) {g D : Fst (RG W)}
    (h1 : f.weightConvert (toGallic RG.mk') = .ok g) (hD : D.WF) {nm} (hp : (detMachine g (mgDet w o) ord).Presents nm D) :
    ∃ H F, EndsWith (factorWeight D rgFactor (rgQuantize q) detFwOpts) (.ok H) ∧ H.weightConvert (fromGallic (fun v : RG W => extractPair v.1) EPS) = .ok F ∧
      F.WF ∧ F.AllCounters ∧ F.InputDeterministicUpToEps ∧ SameInputWeightsDelayed f F ∧ (∀ x y v, F.Accepts x y v → D.Accepts x x (RG.single y v)) ∧
      ∀ x x' v, D.Accepts x x' v → ∃ y z, v = RG.single y z ∧ f.Accepts x y z := by
  have L' := mgDet_law P L
  have T' := mgDet_total P L
  obtain ⟨hi, hfin, -⟩ := toGallic_input (good := RGood good) h1 hw (fun s t ht => ⟨_, _, rfl, hg s t ht, strip_clean _⟩)
  have hok := fun t => det_no_error (t := t) L' T' ho hi
  obtain ⟨hs, hac⟩ := det_presents_trs L' ho hi.wf hi.weights hp
  obtain ⟨hex, hfac, hsp⟩ := rg_factor_laws (W := W) hq
  obtain ⟨H, hH, hHw, p1, e1, e2⟩ := C41_paths hex hfac hsp (o := detFwOpts) ⟨rfl, rfl, rfl, rfl⟩ hD (Or.inl rfl)
    (C41_finite hex hfac hD (Or.inr rfl))
  obtain ⟨N, hN⟩ := hH
  obtain ⟨F, hF, f1, f2, f3, p2, e3, e4, e5⟩ := det_tail (J := RgRead) (K := RgClean) (extract := fun v : RG W => extractPair v.1) (mk := RG.single) RG.single_mul hex hD hac
    (fun s => (hs s).imp (fun h => Nat.ne_of_lt h))
    (fun s t ht => by
      obtain ⟨d, a, -, hr, ha, hn⟩ := hp.trs_of s t ht
      obtain ⟨ws, w1, w2, w3⟩ := det_tr_common L' ho hi.wf hi.weights hr ha
      rw [mg_commonFold] at w3
      obtain ⟨c, w, k1, k2, k3, -⟩ := rg_commonFold L w1 w2 w3
      rw [hn.2.2.1]
      exact ⟨c, w, k1, k2, k3⟩)
    (fun s v hv _ => by
      obtain ⟨d, -, hr, hfv⟩ := hp.fin_of hv
      have hdg := det_reach_good L' ho hi.wf hi.weights hr
      refine (det_fin_all (P := RgClean) ?_ (fun h => absurd rfl h) ?_ hfv).1
      · intro a b c hc ha hb
        rcases (mg_plus_sel P _ _ _ hc).1 with rfl | rfl
        · exact ha
        · exact hb
      · intro e he
        refine ⟨(hdg e he).1, ?_⟩
        cases hx : g.finOf e.state with
        | none =>
          show RgClean (e.weight * 0)
          rw [mul_zero]; exact fun h => absurd rfl h
        | some x =>
          obtain ⟨w, rfl⟩ := hfin _ _ hx
          obtain ⟨l, y, hl, -, h0⟩ := (hdg e he).2
          intro _
          refine ⟨l ++ [], y * w, ?_, by simpa using h0⟩
          rw [hl]; rfl)
    (fun v hv p hp => rg_factor_step hv p hp) (fun v hv h0 hf => rg_factor_done hv h0 hf) (fun v hv => rg_read hv) (hN N (le_refl _)) hHw
  obtain ⟨part, r1, r2⟩ := regroup (fun p : PathT W => (p.1, p.1, RG.single p.2.1 p.2.2)) e1 (fun n => (e2 n).imp fun D h => h.1) e3 e4 e5
  have hpaths : ∀ n, ∃ E, (∀ k, E ≤ k → part n k = 0) ∧ (∑ k ∈ Finset.range E, part n k).map (fun p : PathT W => ((p.1, p.1, RG.single p.2.1 p.2.2) : PathT (RG W))) = nonzero (D.accPaths n) := by
    intro n
    obtain ⟨E, r3, r4⟩ := r2 n
    obtain ⟨E', r5, r6⟩ := e2 n
    refine ⟨E, r3, ?_⟩
    have key := r4 E' r5
    rw [← r6, ← key]
    symm
    refine Multiset.filter_eq_self.2 fun p hp => ?_
    obtain ⟨p', -, rfl⟩ := Multiset.mem_map.1 hp
    exact RG.single_ne_zero _ _
  refine ⟨H, F, ⟨N, hN⟩, hF, f1, f2, f3, ⟨part, r1, fun n => ?_⟩, ?_, ?_⟩
  · obtain ⟨E, r3, r4⟩ := hpaths n
    refine ⟨E, r3, fun x => ?_⟩
    have key := det_weights L' ho hi.wf hi.weights hi.acceptor hok n x x
    rw [← hp.accPaths, ← sumVal_nonzero (val := fun v : RG W => v.raw.2) L'.zero (D.accPaths n), ← r4, sumVal_snd, C60_to_gallic_paths h1 (fun l m a b => RG.single_mul l m a b) n] at key
    rw [key]
    exact sumVal_snd (f.accPaths n) x
  · rintro x y v ⟨m, hm⟩
    rw [r1, Multiset.mem_sum] at hm
    obtain ⟨n, -, hm⟩ := hm
    obtain ⟨E, r3, r4⟩ := hpaths n
    have hlt : m - n < E := by
      by_contra h
      rw [r3 _ (by omega)] at hm
      simp at hm
    refine ⟨n, (Multiset.mem_filter.1 (show (x, x, RG.single y v) ∈ nonzero (D.accPaths n) from ?_)).1⟩
    rw [← r4]
    exact Multiset.mem_map.2 ⟨(x, y, v), Multiset.mem_sum.2 ⟨m - n, by simpa using hlt, hm⟩, rfl⟩
  · rintro x x' v ⟨n, hn⟩
    have hsup := det_support (fun a b c h => (mg_plus_sel P a b c h).1) (fun ws d v q q' hg hc hs h1 h2 => by
        obtain ⟨r, e1, e2, e3, -⟩ := mg_divide P L hg hc hs
        rw [h1] at e1; injection e1 with e1; subst e1
        rw [h2] at e2; injection e2 with e2; subst e2
        exact e3) ho hi.weights L'.good_mul hi.acceptor (fun t ht => det_reach_good L' ho hi.wf hi.weights ht) hp n
    cases hs : D.start with
    | none => rw [Fst.accPaths_none hs] at hn; simp at hn
    | some i =>
      rw [Fst.accPaths_some hs] at hn
      obtain ⟨t, hst, ht⟩ := hp.start_some hs
      obtain ⟨e, he, v', h2, h3⟩ := hsup i t ht _ hn
      simp only [TupleOp.machine, detOp, Option.map_eq_some_iff] at hst
      obtain ⟨j, hj, rfl⟩ := hst
      simp only [List.mem_singleton] at he
      subst he
      have : (x, x', v') ∈ g.accPaths n := by rw [Fst.accPaths_some hj]; exact h2
      rw [C60_to_gallic_paths h1 (fun l m a b => RG.single_mul l m a b) n] at this
      obtain ⟨p, hp1, hp2⟩ := Multiset.mem_map.1 this
      simp only [Prod.mk.injEq] at hp2
      refine ⟨p.2.1, p.2.2, ?_, n, ?_⟩
      · have : v = 1 * v' := h3
        rw [this, one_mul, ← hp2.2.2]; rfl
      · rw [← hp2.1]; exact hp1

end
end Verif
