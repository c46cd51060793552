import Verif.Lemmas.DetFst
import Verif.Spec.Delayed

/-! # Gallic weights in the determinization of transducers -/

namespace Verif
set_option linter.unusedSectionVars false
universe u
variable {W : Type u} [Semiring W] [DecidableEq W]

/-- `quantize_assign` of gallic weights, on the proper ones. -/
def gwQuantize (q : W → R W) (v : GW W) : R (GW W) := liftGW (unionQuantize (gallicOpt (semiOps W anyFlags)) (prodQuantize strQuantize q) [] v.1)

/-- `determinize` of an FST without the `ACCEPTOR` flag, type `DeterminizeNonFunctional`: over `GallicWeight`, whose proper values are `GW W`. -/
def determinizeNF (o : DetOps W) (q : W → R W) (ord : DTup (GW W) → Label → List (DElt (GW W)) → List (DElt (GW W))) (f : Fst W) (n : Nat) :
    Option (R (Fst W)) :=
  determinizeT GW.mk' (fun v => extractUnion v.1) (gwDet o) gwFactor (gwQuantize q) ord false f n

/-- A string of at most one label. -/
def GwRead (v : GW W) : Prop := ∃ c w, v = GW.single c w ∧ c.length ≤ 1 ∧ EPS ∉ c

/-- Strings without `ε`. -/
def GwClean (v : GW W) : Prop := GW.Every (fun k _ => EPS ∉ k) v

theorem gw_quantize_exact {q : W → R W} (h : q 1 = .ok 1) : Exact (gwFactor (W := W)) (gwQuantize q) := by
  refine gw_exact fun w s hw => liftGW_ok ?_
  rw [hw]; exact unionQuantize_single h s

theorem gallicUnionFactor_mem {l : List (StrW × W)} {p} (h : p ∈ gallicUnionFactor l) : ∃ x ∈ l, p = gallicUnionStep x := by
  match l, h with
  | [w], h =>
    simp only [gallicUnionFactor] at h
    split at h
    · cases h
    · exact ⟨w, by simp, by simpa using h⟩
  | a :: b :: l, h =>
    simp only [gallicUnionFactor] at h
    obtain ⟨x, hx, rfl⟩ := List.mem_map.1 h
    exact ⟨x, hx, rfl⟩

theorem gw_factor_step {v : GW W} (hv : GwClean v) : ∀ p ∈ gwFactor v, GwRead p.1 ∧ GwClean p.2 := by
  intro p hp
  have h1 : (p.1.1, p.2.1) ∈ gallicUnionFactor v.1 := by
    rw [← gwFactor_eq]; exact List.mem_map.2 ⟨p, hp, rfl⟩
  obtain ⟨x, hx, e⟩ := gallicUnionFactor_mem h1
  have hpr := gproper_eq (v.2.1 x hx)
  rw [hpr] at hx e
  have hc := hv _ _ hx
  generalize gkey x = k at hc e
  cases k with
  | nil =>
    simp only [gallicUnionStep, stringFactor, Prod.mk.injEq] at e
    refine ⟨⟨[], x.2, Subtype.ext e.1, by simp, by simp⟩, ?_⟩
    rw [show p.2 = GW.single [] 1 from Subtype.ext e.2]
    exact GW.every_single.2 (by simp)
  | cons a k =>
    simp only [gallicUnionStep, stringFactor, Prod.mk.injEq] at e
    refine ⟨⟨[a], x.2, Subtype.ext e.1, by simp, fun h => hc (by simp at h; simp [h])⟩, ?_⟩
    rw [show p.2 = GW.single k 1 from Subtype.ext e.2]
    exact GW.every_single.2 fun h => hc (by simp [h])

theorem gw_factor_done {v : GW W} (hv : GwClean v) (h0 : v ≠ 0) (hf : gwFactor v = []) : GwRead v := by
  have h1 : gallicUnionFactor v.1 = [] := by rw [← gwFactor_eq, hf]; rfl
  obtain ⟨l, hl⟩ := v
  rcases l with _ | ⟨x, _ | ⟨y, l⟩⟩
  · exact absurd rfl h0
  · have hpr := gproper_eq (hl.1 x (by simp))
    have hc := hv (gkey x) x.2 (by rw [← hpr]; exact List.mem_singleton_self x)
    refine ⟨gkey x, x.2, Subtype.ext (show [x] = [_] by rw [← hpr]), ?_, hc⟩
    simp only [gallicUnionFactor] at h1
    split at h1
    · rename_i h
      rw [hpr] at h
      exact h
    · cases h1
  · simp [gallicUnionFactor] at h1

theorem gw_read {v : GW W} (h : GwRead v) : ∃ w l, extractUnion v.1 = .ok (w, l) ∧ v = GW.single (strip l) w := by
  obtain ⟨c, w, rfl, h1, h2⟩ := h
  match c, h1, h2 with
  | [], _, _ => exact ⟨w, EPS, rfl, rfl⟩
  | [a], _, h2 =>
    refine ⟨w, a, rfl, ?_⟩
    have : a ≠ 0 := fun h => h2 (by simp [h])
    rw [strip, if_neg this]

/-- The coefficients of a sum of paths over gallic weights. -/
theorem coef_sumOf (A : Multiset (PathT W)) (x y : List Label) :
    GW.coef y (sumOf (A.map fun p => (p.1, p.1, GW.single p.2.1 p.2.2)) x x) = sumOf A x y := by
  unfold sumOf
  induction A using Multiset.induction_on with
  | empty => simp [GW.coef_zero]
  | cons p A ih =>
    rw [Multiset.map_cons, Multiset.filter_cons, Multiset.filter_cons]
    by_cases hx : p.1 = x
    · rw [if_pos ⟨hx, hx⟩, Multiset.map_add, Multiset.sum_add, GW.coef_add, ih, Multiset.map_singleton, Multiset.sum_singleton, GW.coef_single]
      by_cases hy : p.2.1 = y
      · rw [if_pos hy, if_pos (And.intro hx hy)]; simp
      · rw [if_neg hy, if_neg (fun h => hy h.2), zero_add, zero_add]
    · rw [if_neg (fun h => hx h.1), if_neg (fun h => hx h.1), zero_add, zero_add, ih]

variable {o : DetOps W} {good : W → Prop} {q : W → R W} {ord : DTup (GW W) → Label → List (DElt (GW W)) → List (DElt (GW W))} {f : Fst W}

theorem strip_clean (l : Label) : EPS ∉ strip l := by
  unfold strip; split
  · simp
  · rename_i h; simpa using fun e => h e.symm

/-- What comes of the determinization over gallic weights. -/
theorem nf_after (L : DivLaw o good) (hq : q 1 = .ok 1) (ho : Orders ord) (hw : f.WF) (hg : ∀ s, ∀ t ∈ f.trsOf s, good t.weight) {g D : Fst (GW W)}
    (h1 : f.weightConvert (toGallic GW.mk') = .ok g) (hD : D.WF) {nm} (hp : (detMachine g (gwDet o) ord).Presents nm D) :
    ∃ H F, EndsWith (factorWeight D gwFactor (gwQuantize q) detFwOpts) (.ok H) ∧ H.weightConvert (fromGallic (fun v : GW W => extractUnion v.1) EPS) = .ok F ∧
      F.WF ∧ F.AllCounters ∧ F.InputDeterministicUpToEps ∧ SameWeightsDelayed f F := by
  obtain ⟨L', T'⟩ := gwDet_law L
  obtain ⟨hi, hfin, -⟩ := toGallic_input (good := GWGood good) h1 hw (fun s t ht => gwGood_single (hg s t ht) (strip_clean _))
  obtain ⟨hs, hac⟩ := det_presents_trs L' ho hi.wf hi.weights hp
  have hex := gw_quantize_exact (W := W) hq
  obtain ⟨H, hH, hHw, p1, e1, e2⟩ := C41_total hex gw_factoring gw_factorizes (o := detFwOpts) ⟨rfl, rfl, rfl, rfl⟩ hD (Or.inl rfl)
    (C41_finite hex gw_factoring hD (Or.inr rfl))
  obtain ⟨N, hN⟩ := hH
  obtain ⟨F, hF, f1, f2, f3, p2, e3, e4, e5⟩ := det_tail (J := GwRead) (K := GwClean) (extract := fun v : GW W => extractUnion v.1) (mk := GW.single) GW.single_mul hex hD hac
    (fun s => (hs s).imp (fun h => Nat.ne_of_lt h))
    (fun s t ht => by
      obtain ⟨d, a, -, hr, ha, hn⟩ := hp.trs_of s t ht
      obtain ⟨ws, w1, w2, w3⟩ := det_tr_common L' ho hi.wf hi.weights hr ha
      obtain ⟨c, w, k1, k2, k3, -⟩ := gw_commonFold L w1 w2 w3
      rw [hn.2.2.1]
      exact ⟨c, w, k1, k2, k3⟩)
    (fun s v hv _ => by
      obtain ⟨d, -, hr, hfv⟩ := hp.fin_of hv
      have hdg := det_reach_good L' ho hi.wf hi.weights hr
      refine (det_fin_all (P := GwClean) ?_ (GW.every_zero _) ?_ hfv).1
      · intro a b c hc ha hb
        rw [gwDet_plus] at hc; injection hc with hc; subst hc
        exact GW.every_add (fun _ _ _ h _ => h) ha hb
      · intro e he
        refine ⟨(hdg e he).1, ?_⟩
        cases hx : g.finOf e.state with
        | none =>
          show GwClean (e.weight * 0)
          rw [mul_zero]; exact GW.every_zero _
        | some x =>
          obtain ⟨w, rfl⟩ := hfin _ _ hx
          refine GW.every_mul (P := fun k _ => EPS ∉ k) (Q := fun k _ => EPS ∉ k) (fun _ _ _ h _ => h) (fun k l a b hk hl => by simp [hk, hl])
            (fun k w hk => ((hdg e he).2.2 k w hk).2) ?_
          exact GW.every_single.2 (by simp))
    (fun v hv p hp => gw_factor_step hv p hp) (fun v hv h0 hf => gw_factor_done hv h0 hf) (fun v hv => gw_read hv) (hN N (le_refl _)) hHw
  refine ⟨H, F, ⟨N, hN⟩, hF, f1, f2, f3, ?_⟩
  obtain ⟨part, r1, r2⟩ := regroup (fun p : PathT W => (p.1, p.1, GW.single p.2.1 p.2.2)) e1 (fun n => (e2 n).imp fun D h => h.1) e3 e4 e5
  refine ⟨part, r1, fun n => ?_⟩
  obtain ⟨E, r3, r4⟩ := r2 n
  obtain ⟨E', r5, r6⟩ := e2 n
  refine ⟨E, r3, fun x y => ?_⟩
  have hok := fun t => det_no_error (t := t) L' T' ho hi
  have key := det_weights L' ho hi.wf hi.weights hi.acceptor hok n x x
  rw [← hp.accPaths, sumVal_id, sumVal_id, ← r6, ← r4 E' r5] at key
  have := congrArg (GW.coef y) key
  rw [coef_sumOf] at this
  rw [this]
  unfold Fst.weightOf
  rw [C60_to_gallic_paths h1 (fun l m a b => GW.single_mul l m a b) n]
  exact coef_sumOf _ x y

end Verif
