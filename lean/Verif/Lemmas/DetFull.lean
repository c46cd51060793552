import Verif.Props.C42Flags
import Verif.Spec.Reweight
import Verif.Spec.Minimize

/-! # All that is known of the result of `determinize` on an acceptor -/

namespace Verif
universe u v
variable {W : Type u} {S : Type v}

section
variable [Zero W] [One W] [Mul W] [DecidableEq W] [Semiring S] {f : Fst W} {o : DetOps W} {val : W → S} {good : W → Prop}
  {ord : DTup W → Label → List (DElt W) → List (DElt W)}

theorem commonFold_kept (hC : ∀ a b c, a = 0 ∨ good a → good b → o.common a b = .ok c → good c) : ∀ {ws : List W} {a d : W}, a = 0 ∨ good a → (∀ w ∈ ws, good w) →
    commonFold o a ws = .ok d → (ws ≠ [] ∨ good a) → good d
  | [], a, d, _, _, h, hn => by
    simp only [commonFold, Except.ok.injEq] at h
    rcases hn with hn | hn
    · exact absurd rfl hn
    · rwa [← h]
  | w :: ws, a, d, ha, hw, h, _ => by
    simp only [commonFold] at h
    split at h
    · cases h
    · next c hc =>
      have hg := hC a w c ha (hw w (by simp)) hc
      exact commonFold_kept hC (.inr hg) (fun x hx => hw x (by simp [hx])) h (.inr hg)

/-- The weights of the transitions are good. -/
theorem detTrs_weight (L : DetLaw o val good) (hC : ∀ a b c, a = 0 ∨ good a → good b → o.common a b = .ok c → good c)
    (hw : ∀ s, ∀ tr ∈ f.trsOf s, good tr.weight) {t : DTup W} {as : List (MTr (DTup W) W)} (h : detTrs f o ord t = .ok as) (ht : DGood f good t) :
    ∀ a ∈ as, good a.weight := by
  obtain ⟨m, c1, c2, c3, c4, c5⟩ := detCollect_spec.{u, v} (f := f) t.subset [] (fun e he => (ht e he).1)
  replace c3 := c3 (by simp [LmFull])
  replace c4 : ∀ l x, LmHas m l x ↔ ∃ e ∈ t.subset, ∃ tr ∈ f.trsOf e.state, l = tr.ilabel ∧ x = ⟨tr.nextstate, e.weight * tr.weight⟩ := by
    intro l x; rw [c4]; simp [LmHas]
  rw [detTrs, c1] at h
  have hall := normAll_spec h
  have hgood : ∀ p ∈ m, ∀ x ∈ p.2, good x.weight := by
    intro p hp x hx
    obtain ⟨e, he, tr, htr, _, rfl⟩ := (c4 p.1 x).1 ⟨p, hp, rfl, hx⟩
    exact L.good_mul _ _ (ht e he).2 (hw _ tr htr)
  have hmem : ∀ a ∈ as, ∃ p ∈ m, normTr o (ord t p.1) p.2 = .ok (a.weight, a.next.subset) := by
    clear h c1 c2 c3 c4 c5 hgood
    induction hall with
    | nil => simp
    | cons hd _ ih =>
      intro a ha
      rcases List.mem_cons.1 ha with rfl | ha
      · exact ⟨_, by simp, hd.2.2.2⟩
      · obtain ⟨p, hp, h⟩ := ih a ha
        exact ⟨p, by simp [hp], h⟩
  intro a ha
  obtain ⟨p, hp, hn⟩ := hmem a ha
  unfold normTr at hn
  simp only at hn
  split at hn
  · cases hn
  · next d hd =>
    split at hn
    · cases hn
    · split at hn
      · cases hn
      · simp only [Except.ok.injEq, Prod.mk.injEq] at hn
        rw [← hn.1]
        refine commonFold_kept hC (.inl rfl) ?_ hd (.inl ?_)
        · intro w hw'
          obtain ⟨x, hx, rfl⟩ := List.mem_map.1 hw'
          exact hgood p hp x ((List.perm_insertionSort _ p.2).mem_iff.1 hx)
        · intro he
          have := List.map_eq_nil_iff.1 he
          have h0 := (List.perm_insertionSort (fun a b : DElt W => a.state ≤ b.state) p.2).length_eq
          rw [this] at h0
          exact c3 p hp (List.length_eq_zero_iff.1 h0.symm)

omit [DecidableEq W] in
theorem detFinSum_good (hmz : ∀ a : W, a * 0 = 0) (L : DetLaw o val good) (hP : ∀ a b c, a = 0 ∨ good a → b = 0 ∨ good b → o.plus a b = .ok c → c = 0 ∨ good c)
    (hf : ∀ s w, f.finOf s = some w → good w) : ∀ {es : List (DElt W)} {acc w : W}, acc = 0 ∨ good acc → (∀ e ∈ es, e.state < f.numStates ∧ good e.weight) →
    detFinSum f o acc es = .ok w → w = 0 ∨ good w
  | [], acc, w, ha, _, h => by
    simp only [detFinSum, Except.ok.injEq] at h
    rwa [← h]
  | e :: es, acc, w, ha, he, h => by
    have hg : f.finalWeightR e.state = .ok (f.finOf e.state) := by
      have := (he e (by simp)).1
      simp only [Fst.finalWeightR, Fst.finOf]
      rw [List.getElem?_eq_getElem (by simpa [Fst.numStates] using this)]
    rw [detFinSum, hg] at h
    simp only at h
    split at h
    · cases h
    · next c hc =>
      refine detFinSum_good hmz L hP hf (hP _ _ _ ha ?_ hc) (fun x hx => he x (by simp [hx])) h
      cases hfe : f.finOf e.state with
      | none => exact .inl (hmz _)
      | some v => exact .inr (L.good_mul _ _ (he e (by simp)).2 (hf _ _ hfe))

/-- What `determinize` gives. -/
structure DetResult (f F : Fst W) (good : W → Prop) (val : W → S) : Prop where
  wf : F.WF
  counters : F.AllCounters
  truthful : F.Truthful
  det : F.Deterministic
  acceptor : F.Holds .acceptor
  flag : F.props .acceptor = true
  weights : F.WeightsIn good
  labels : ∀ s, ∀ t ∈ F.trsOf s, ∃ s', ∃ t' ∈ f.trsOf s', t'.ilabel = t.ilabel
  start : F.start ≠ none ∨ F.numStates = 0
  acyclic : f.props .acyclic = true → F.Holds .acyclic
  sums : ∀ n x y, sumVal val (F.accPaths n) x y = sumVal val (f.accPaths n) x y

theorem det_full (hmz : ∀ a : W, a * 0 = 0) (L : DetLaw o val good) (T : DetTotal o good) (hl : o.leftSemiring = true) (ho : Orders ord)
    (hi : DetInput f good) (ht : f.Truthful)
    (hf : ∀ s w, f.finOf s = some w → good w) (hg0 : ¬ good 0)
    (hC : ∀ a b c, a = 0 ∨ good a → good b → o.common a b = .ok c → good c)
    (hP : ∀ a b c, a = 0 ∨ good a → b = 0 ∨ good b → o.plus a b = .ok c → c = 0 ∨ good c)
    (hpl : ∀ a b c, o.plus a b = .ok c → c = 0 → a = 0 ∧ b = 0) (hmul : ∀ a b, good a → a * b = 0 → b = 0) (hval : ∀ w, val w = 0 → w = 0)
    (hfin : {t | (detMachine f o ord).Reach t}.Finite) (distinct : Bool) :
    ∃ F, EndsWith (determinize f o ord distinct) (.ok F) ∧ DetResult f F good val := by
  obtain ⟨F, ⟨N, hN⟩, h2, h3, h4, h5, h6, h7⟩ := C42_determinize L T hl ho hi hfin distinct
  have tF := (C42_flags L T hl ho hi ht (hN N (Nat.le_refl _))).2 (fun s h => hg0 (hf s _ h)) hpl hmul hval
  obtain ⟨-, hp, nm, H, HO⟩ := det_out L T hl ho hi (hN N (Nat.le_refl _))
  have D := fun t (h : (detMachine f o ord).Reach t) => det_reach_trs L T ho hi h
  refine ⟨F, ⟨N, hN⟩, h2, h3, tF, fun s => (h5 s).imp (fun h => Nat.ne_of_lt h), h6, ?_, ⟨?_, ?_⟩, ?_, ?_, fun ha => tF .acyclic ?_, h7⟩
  · rw [hp]; simp [Props.determinize, Props.setIf_apply, Props.orIf_apply, Props.or_apply, Props.of_apply, Props.keep, Props.and_apply, Props.has, hi.flag]
  · refine H.all_trs (fun _ _ w => good w) fun t ht a ha => ?_
    obtain ⟨as, has⟩ := (det_no_error L T ho hi ht).1
    have e : (detMachine f o ord).trs t = as := by simp only [TupleOp.machine, detOp, has]
    rw [e] at ha
    exact detTrs_weight L hC hi.weights has (det_reach_good L ho hi.wf hi.weights ht) a ha
  · intro s w hs
    have hlt : s < F.numStates := by
      by_contra hge
      rw [Fst.finOf_of_ge (Nat.le_of_not_lt hge)] at hs
      cases hs
    obtain ⟨t, htn⟩ := (H.states s).1 hlt
    have hr := H.reach htn
    rw [H.fin s t htn] at hs
    obtain ⟨w', hw'⟩ := (det_no_error L T ho hi hr).2
    have e : (detMachine f o ord).fin t = w' := by simp only [TupleOp.machine, detOp, hw']
    rw [e] at hs
    subst hs
    unfold detFin at hw'
    split at hw'
    · cases hw'
    · next v hv =>
      split at hw'
      · cases hw'
      · next hne =>
        simp only [Except.ok.injEq, Option.some.injEq] at hw'
        subst hw'
        exact (detFinSum_good hmz L hP hf (.inl rfl) (det_reach_good L ho hi.wf hi.weights hr) hv).resolve_left hne
  · refine H.all_trs (fun a _ _ => ∃ s', ∃ tr' ∈ f.trsOf s', tr'.ilabel = a) fun t ht a ha => ?_
    have hne := (D t ht).nonempty a ha
    obtain ⟨e, he⟩ := List.exists_mem_of_ne_nil _ hne
    obtain ⟨e', _, tr, htr, h1, _⟩ := ((D t ht).next a ha e.state).1 (List.mem_map_of_mem he)
    exact ⟨_, tr, htr, h1⟩
  · by_cases h0 : F.numStates = 0
    · exact .inr h0
    · left
      obtain ⟨i, hi', -⟩ := h4 0 (by omega)
      rw [hi']; simp
  · rw [hp]
    simp [Props.determinize, Props.setIf_apply, Props.orIf_apply, Props.or_apply, Props.of_apply, Props.keep, Props.and_apply, Props.has, hi.flag, ha]
end

end Verif
