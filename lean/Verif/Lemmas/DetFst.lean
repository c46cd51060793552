import Verif.Lemmas.FwFinal
import Verif.Lemmas.GallicDet
import Verif.Props.C42

/-! # The determinization step inside the determinization of transducers -/

namespace Verif
set_option linter.unusedSectionVars false
universe u v
variable {W : Type u} {V : Type v} {S : Type v}

section
variable [Zero V] [One V] [Mul V] [DecidableEq V] {f : Fst V} {o : DetOps V} {ord : DTup V → Label → List (DElt V) → List (DElt V)}

/-- `determinizeFsa` on a machine with finitely many tuples and no errors. -/
theorem det_fsa_static (hl : o.leftSemiring = true) (hflag : f.props .acceptor = true)
    (hok : ∀ t, (detMachine f o ord).Reach t → (∃ as, detTrs f o ord t = .ok as) ∧ ∃ w, detFin f o t = .ok w)
    (hfin : {t | (detMachine f o ord).Reach t}.Finite) :
    ∃ F, EndsWith (determinizeFsa f o ord) (.ok F) ∧ F.WF ∧ F.AllCounters ∧ ∃ nm, (detMachine f o ord).Presents nm F := by
  obtain ⟨F, z', ⟨N, hN⟩, h2, h3, _, nm, h5, h6⟩ := C38_present mapCache_law BiMap.law BiMap.findTuple_eq (detOp f o ord) (detMachine f o ord) rfl
    (fun t ht => by
      obtain ⟨as, h⟩ := (hok t ht).1
      show detTrs f o ord t = _
      simp only [TupleOp.machine, detOp, h])
    (fun t ht => by
      obtain ⟨w, h⟩ := (hok t ht).2
      show detFin f o t = _
      simp only [TupleOp.machine, detOp, h]) BiMap.ok_new (fun s => by simp [BiMap.tup, BiMap.new]) hfin
  refine ⟨F, ⟨N, fun n hn => ?_⟩, h2, h3, nm, h5⟩
  have := hN n hn
  unfold determinizeFsa
  rw [if_neg (by simp [hl]), if_neg (by simp [Props.has, hflag])]
  simp only [this, Option.map_some]

/-- `determinizeFsa` gives the same result with more fuel. -/
theorem det_fsa_mono {n m : Nat} {r : R (Fst V)} (h : determinizeFsa f o ord n = some r) (hle : n ≤ m) : determinizeFsa f o ord m = some r := by
  induction hle with
  | refl => exact h
  | @step m _ ih =>
    unfold determinizeFsa at ih ⊢
    split
    · rename_i h1; rw [if_pos h1] at ih; exact ih
    · rename_i h1
      rw [if_neg h1] at ih
      split
      · rename_i h2; rw [if_pos h2] at ih; exact ih
      · rename_i h2
        rw [if_neg h2] at ih
        cases hc : Lz.compute mapCache ((detOp f o ord).withTable BiMap.findId BiMap.findTuple) m ⟨mapCache.empty, BiMap.new⟩ with
        | none => rw [hc] at ih; cases ih
        | some x => rw [compute_more _ _ hc]; rw [hc] at ih; exact ih

/-- The determinization returns only if there are finitely many tuples. -/
theorem det_fsa_finite (hl : o.leftSemiring = true) (hflag : f.props .acceptor = true)
    (hok : ∀ t, (detMachine f o ord).Reach t → (∃ as, detTrs f o ord t = .ok as) ∧ ∃ w, detFin f o t = .ok w)
    {n : Nat} (h : determinizeFsa f o ord n ≠ none) : {t | (detMachine f o ord).Reach t}.Finite := by
  refine det_ends_finite hl hflag hok false (n := n) ?_
  unfold determinize
  match hd : determinizeFsa f o ord n with
  | none => exact absurd hd h
  | some (.error e) => simp
  | some (.ok g) => simp

variable [Semiring S] {val : V → S} {good : V → Prop}

/-- The weight of a transition is a common divisor of good weights. -/
theorem det_tr_common (L : DetLaw o val good) (ho : Orders ord) (hw : f.WF) (hg : ∀ s, ∀ tr ∈ f.trsOf s, good tr.weight) {t : DTup V}
    (ht : (detMachine f o ord).Reach t) {a : MTr (DTup V) V} (ha : a ∈ (detMachine f o ord).trs t) :
    ∃ ws, ws ≠ [] ∧ (∀ w ∈ ws, good w) ∧ commonFold o 0 ws = .ok a.weight := by
  have hdg := det_reach_good L ho hw hg ht
  simp only [TupleOp.machine, detOp] at ha
  cases h : detTrs f o ord t with
  | error e => rw [h] at ha; cases ha
  | ok as =>
    rw [h] at ha
    obtain ⟨m, c1, -, c3, c4, -⟩ := detCollect_spec.{v, v} (f := f) t.subset [] (fun e he => (hdg e he).1)
    replace c3 := c3 (by simp [LmFull])
    rw [detTrs, c1] at h
    obtain ⟨p, hp, h1⟩ : ∃ p ∈ m, normTr o (ord t p.1) p.2 = .ok (a.weight, a.next.subset) := by
      have := normAll_spec h
      clear c3 c4 h c1
      induction this with
      | nil => cases ha
      | @cons p b _ _ hh _ ih =>
        rcases List.mem_cons.1 ha with rfl | ha
        · exact ⟨p, by simp, hh.2.2.2⟩
        · obtain ⟨p, h1, h2⟩ := ih ha
          exact ⟨p, by simp [h1], h2⟩
    have hps := c3 p hp
    have hgp : ∀ x ∈ p.2, good x.weight := by
      intro x hx
      rcases (c4 p.1 x).1 ⟨p, hp, rfl, hx⟩ with ⟨_, h, _⟩ | ⟨e, he, tr, htr, _, rfl⟩
      · cases h
      · exact L.good_mul _ _ (hdg e he).2 (hg _ tr htr)
    have hperm := List.perm_insertionSort (fun a b : DElt V => a.state ≤ b.state) p.2
    refine ⟨(p.2.insertionSort fun a b => a.state ≤ b.state).map (·.weight), ?_, ?_, ?_⟩
    · intro hn
      rw [List.map_eq_nil_iff] at hn
      rw [hn] at hperm
      exact hps hperm.symm.eq_nil
    · intro w hw
      obtain ⟨x, hx, rfl⟩ := List.mem_map.1 hw
      exact hgp x (hperm.mem_iff.1 hx)
    · unfold normTr at h1
      simp only at h1
      split at h1
      · cases h1
      · rename_i d hd
        split at h1
        · cases h1
        · split at h1
          · cases h1
          · injection h1 with h1
            injection h1 with h1
            rw [← h1]; exact hd

/-- A property of final weights that sums have. -/
theorem detFinSum_all {P : V → Prop} (hp : ∀ a b c, o.plus a b = .ok c → P a → P b → P c) : ∀ {es : List (DElt V)} {acc w : V},
    (∀ e ∈ es, e.state < f.numStates ∧ P (e.weight * (f.finOf e.state).getD 0)) → P acc → detFinSum f o acc es = .ok w → P w := by
  intro es
  induction es with
  | nil => intro acc w _ h0 h; simp only [detFinSum, Except.ok.injEq] at h; subst h; exact h0
  | cons e es ih =>
    intro acc w he h0 h
    have hs := (he e (by simp)).1
    have hg : f.finalWeightR e.state = .ok (f.finOf e.state) := by
      have hs' : f.states[e.state]? = some f.states[e.state] := List.getElem?_eq_getElem hs
      simp [Fst.finalWeightR, Fst.finOf, hs']
    rw [detFinSum, hg] at h
    simp only at h
    split at h
    · cases h
    · rename_i c hc
      exact ih (fun x hx => he x (by simp [hx])) (hp _ _ _ hc h0 (he e (by simp)).2) h

theorem det_fin_all {P : V → Prop} (hp : ∀ a b c, o.plus a b = .ok c → P a → P b → P c) (h0 : P 0) {t : DTup V}
    (he : ∀ e ∈ t.subset, e.state < f.numStates ∧ P (e.weight * (f.finOf e.state).getD 0)) {v : V}
    (h : (detMachine f o ord).fin t = some v) : P v ∧ v ≠ 0 := by
  simp only [TupleOp.machine, detOp, detFin] at h
  cases hs : detFinSum f o 0 t.subset with
  | error e => rw [hs] at h; cases h
  | ok w =>
    rw [hs] at h
    simp only at h
    by_cases hw : w = 0
    · rw [if_pos hw] at h; cases h
    · rw [if_neg hw] at h
      injection h with h
      subst h
      exact ⟨detFinSum_all hp he h0 hs, hw⟩

/-- The determinized FST: sorted, an acceptor. -/
theorem det_presents_trs (L : DetLaw o val good) (ho : Orders ord) (hw : f.WF) (hg : ∀ s, ∀ tr ∈ f.trsOf s, good tr.weight)
    {F : Fst V} {nm} (hp : (detMachine f o ord).Presents nm F) :
    (∀ s, ((F.trsOf s).map (·.ilabel)).Pairwise (· < ·)) ∧ ∀ s, ∀ tr ∈ F.trsOf s, tr.ilabel = tr.olabel := by
  have htr : ∀ t, (detMachine f o ord).Reach t → (((detMachine f o ord).trs t).map (·.ilabel)).Pairwise (· < ·) ∧ ∀ a ∈ (detMachine f o ord).trs t, a.ilabel = a.olabel := by
    intro t ht
    have hdg := det_reach_good L ho hw hg ht
    cases h : detTrs f o ord t with
    | error e =>
      have : (detMachine f o ord).trs t = [] := by simp only [TupleOp.machine, detOp, h]
      rw [this]; exact ⟨.nil, by simp⟩
    | ok as =>
      have : (detMachine f o ord).trs t = as := by simp only [TupleOp.machine, detOp, h]
      rw [this]
      have := (detTrs_spec L ho hw hg h hdg).1
      exact ⟨this.sorted, this.acceptor⟩
  refine ⟨fun s => ?_, fun s tr h => ?_⟩
  · by_cases hs : s < F.numStates
    · obtain ⟨t, ht⟩ := (hp.states s).1 hs
      have hf2 := hp.trs s t ht
      have : (F.trsOf s).map (·.ilabel) = ((detMachine f o ord).trs t).map (·.ilabel) := by
        revert hf2
        generalize F.trsOf s = l1
        generalize (detMachine f o ord).trs t = l2
        intro hf2
        induction hf2 with
        | nil => rfl
        | cons hd _ ih => rw [List.map_cons, List.map_cons, ih, hd.1]
      rw [this]
      exact (htr t ((hp.tuples t).2 ⟨s, ht⟩)).1
    · rw [Fst.trsOf_of_ge (by omega)]; exact .nil
  · obtain ⟨t, a, _, hr, ha, hn⟩ := hp.trs_of s tr h
    rw [hn.1, hn.2.1, (htr t hr).2 a ha]

end

/-! ### Conversion to gallic weights sets the acceptor flag -/

section
variable [Zero W] [One W] [DecidableEq W] [Zero V] [One V] [DecidableEq V]

theorem addTr_acceptor {o : Fst V} (h : o.props .acceptor = true) (s : StateId) (t : Tr V) (ht : t.ilabel = t.olabel) : (o.addTr s t).props .acceptor = true := by
  show Props.addTr o.props s t _ .acceptor = true
  unfold Props.addTr
  simp only [ht, bne_self_eq_false, Props.has]
  split <;> split <;> simp [Props.flipIf_apply, Props.and_apply, Props.or_apply, h, Props.of_apply]

theorem setFinal_acceptor {o : Fst V} (h : o.props .acceptor = true) (s : StateId) (w : V) : (o.setFinal s w).props .acceptor = true := by
  show Props.setFinal o.props _ (some w) .acceptor = true
  simp [Props.setFinal, Props.flipIf_apply, Props.and_apply, Props.or_apply, h, Props.of_apply, Props.setFinalMask]
  unfold Props.clearIf
  split <;> simp [Props.clear, h]

theorem convTrs_acceptor {c : Converter W V} (hc : ∀ t t', c.tr t = .ok t' → t'.ilabel = t'.olabel) {s : StateId} : ∀ {ts : List (Tr W)} {o g : Fst V},
    convTrs c s ts o = .ok g → o.props .acceptor = true → g.props .acceptor = true
  | [], o, g, h, ho => by
    simp only [convTrs, Except.ok.injEq] at h; rw [← h]; exact ho
  | t :: ts, o, g, h, ho => by
    rw [convTrs] at h
    cases ht : c.tr t with
    | error e => rw [ht] at h; cases h
    | ok t' => rw [ht] at h; exact convTrs_acceptor hc h (addTr_acceptor ho s t' (hc t t' ht))

theorem convState_acceptor {mk : StrW × W → V} {f : Fst W} {a b : Fst V × Option StateId} {s : StateId} (h : convState (toGallic mk) f a s = .ok b)
    (ha : a.1.props .acceptor = true) : b.1.props .acceptor = true := by
  unfold convState at h
  split at h
  · cases h
  · rename_i o ho
    have ho := convTrs_acceptor (fun t t' ht => by simp only [toGallic, Except.ok.injEq] at ht; rw [← ht]) ho ha
    unfold convFin at h
    split at h
    · injection h with h; rw [← h]; exact ho
    · split at h
      · cases h
      · simp only [toGallic, convPlace] at h
        split at h
        · cases h
        · injection h with h; rw [← h]; exact setFinal_acceptor ho _ _

theorem freshStates_acceptor : ∀ n, (freshStates n : Fst V).props .acceptor = true
  | 0 => rfl
  | n + 1 => by
    show Props.addState (freshStates n : Fst V).props .acceptor = true
    simp [Props.addState, Props.and_apply, freshStates_acceptor n, Props.addStateMask, Props.of_apply]

/-- The result of the conversion to gallic weights is known to be an acceptor. -/
theorem toGallic_acceptor {mk : StrW × W → V} {f : Fst W} {g : Fst V} (h : f.weightConvert (toGallic mk) = .ok g) : g.props .acceptor = true := by
  unfold Fst.weightConvert at h
  split at h
  · injection h with h; rw [← h]; rfl
  · rename_i i _
    simp only at h
    have key : ∀ (l : List Nat) (a b : Fst V × Option StateId), l.foldlM (convState (toGallic mk) f) a = .ok b → a.1.props .acceptor = true → b.1.props .acceptor = true := by
      intro l
      induction l with
      | nil => intro a b h ha; injection h with h; rw [← h]; exact ha
      | cons s l ih =>
        intro a b h ha
        rw [List.foldlM_cons] at h
        cases hs : convState (toGallic mk) f a s with
        | error e => rw [hs] at h; cases h
        | ok c => rw [hs] at h; exact ih c b h (convState_acceptor hs ha)
    split at h
    · cases h
    · rename_i o sf he
      injection h with h
      rw [← h, Fst.setPropsMask_all, Props.or_apply]
      have : o.props .acceptor = true := by
        refine key _ _ _ he ?_
        show Props.setStart (freshStates f.numStates : Fst V).props .acceptor = true
        simp [Props.setStart, Props.setIf_apply, Props.and_apply, freshStates_acceptor, Props.setStartMask, Props.of_apply]
      rw [this, Bool.or_true]

/-- The conversion to gallic weights in the terms of determinization. -/
theorem toGallic_input {good : V → Prop} {mk : StrW × W → V} {f : Fst W} {g : Fst V} (h : f.weightConvert (toGallic mk) = .ok g) (hw : f.WF)
    (hg : ∀ s, ∀ t ∈ f.trsOf s, good (mk (.labels (strip t.olabel), t.weight))) : DetInput g good ∧
    (∀ s v, g.finOf s = some v → ∃ w, v = mk (.labels [], w)) ∧ (f.Holds .acyclic → g.Holds .acyclic) := by
  by_cases hs : f.start = none
  · rw [C60_no_start f _ hs] at h
    injection h with h
    subst h
    have hz : ∀ s, (Fst.new : Fst V).trsOf s = [] := fun s => Fst.trsOf_of_ge (Nat.zero_le _)
    have hn : ∀ (P : Prop) s (t : Tr V), t ∈ (Fst.new : Fst V).trsOf s → P := fun P s t h => by rw [hz] at h; cases h
    refine ⟨⟨⟨(by intro i h; cases h), fun s t h => hn _ s t h⟩, rfl, fun s t h => hn _ s t h, fun s t h => hn _ s t h⟩, ?_, fun _ => ?_⟩
    · intro s v h
      rw [Fst.finOf_of_ge (Nat.zero_le _)] at h
      cases h
    rintro ⟨s, hc⟩
    obtain ⟨q, ⟨t, ht, -⟩, -⟩ := Relation.TransGen.head'_iff.1 hc
    rw [hz] at ht; cases ht
  · obtain ⟨h1, h2, h3, h4, -⟩ := (C60_to_gallic f mk hs).2 g h
    have hm : ∀ s, ∀ t ∈ g.trsOf s, ∃ t' ∈ f.trsOf s, t = gallicTr mk t' := by
      intro s t ht
      rw [h3] at ht
      obtain ⟨t', a, b⟩ := List.mem_map.1 ht
      exact ⟨t', a, b.symm⟩
    refine ⟨⟨⟨fun i hi => by rw [h2]; exact hw.start_lt i (h1.symm.trans hi), fun s t ht => ?_⟩, toGallic_acceptor h, fun s t ht => ?_, fun s t ht => ?_⟩, fun s v hv => ?_, fun hac => ?_⟩
    · obtain ⟨t', a, rfl⟩ := hm s t ht
      rw [h2]; exact hw.next_lt s t' a
    · obtain ⟨t', a, rfl⟩ := hm s t ht
      rfl
    · obtain ⟨t', a, rfl⟩ := hm s t ht
      exact hg s t' a
    · rw [h4] at hv
      obtain ⟨w, -, rfl⟩ := Option.map_eq_some_iff.1 hv
      exact ⟨w, rfl⟩
    · rintro ⟨s, hc⟩
      refine hac ⟨s, Relation.TransGen.mono ?_ _ _ hc⟩
      rintro p q ⟨t, ht, rfl⟩
      obtain ⟨t', a, rfl⟩ := hm p t ht
      exact ⟨t', a, rfl⟩

end

theorem factorWeight_mono [Zero V] [One V] [Mul V] [DecidableEq V] {d : Fst V} {factors : V → List (V × V)} {quantize : V → R V} {o : FwOpts}
    {n m : Nat} {r : R (Fst V)} (h : factorWeight d factors quantize o n = some r) (hle : n ≤ m) : factorWeight d factors quantize o m = some r := by
  induction hle with
  | refl => exact h
  | @step m _ ih =>
    unfold factorWeight at ih ⊢
    split
    · rename_i h1; rw [h1] at ih; exact ih
    · rename_i op h1
      rw [h1] at ih
      simp only at ih
      cases hc : Lz.compute mapCache (op.withTable FwTable.findState FwTable.findTuple) m ⟨mapCache.empty, FwTable.new o.factorTr⟩ with
      | none => rw [hc] at ih; cases ih
      | some x => rw [compute_more _ _ hc]; rw [hc] at ih; exact ih

end Verif
