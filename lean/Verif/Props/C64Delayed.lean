import Verif.Props.C64Flags

/-! # C51 for the flags that a delayed union, concatenation or closure shows -/

namespace Verif
universe u
variable {W : Type u}
open Lz

/-- The transitions of a configuration; calls and other transitions are kept apart. -/
theorem RNet.mem_trs_call [Zero W] [One W] [DecidableEq W] {N : RNet W} {c : RCfg} {a : MTr RCfg W} (h : a ∈ N.machine.trs c) :
    (a.ilabel = N.retIn ∧ a.olabel = N.retOut) ∨
    ∃ tr ∈ (N.fst c.fst).trsOf c.state, (N.callee tr = none ∧ a.ilabel = tr.ilabel ∧ a.olabel = tr.olabel) ∨
      ((N.callee tr).isSome ∧ a.ilabel = N.callIn tr ∧ a.olabel = N.callOut tr) := by
  rw [machine_trs, List.mem_append] at h
  rcases h with ha | ha
  · unfold retTr at ha
    cases hs : c.stack with
    | nil => simp [hs] at ha
    | cons fr st =>
      cases hf : (N.fst c.fst).finOf c.state with
      | none => simp [hs, hf] at ha
      | some w =>
        by_cases hw : w = 0
        · simp [hs, hf, hw] at ha
        · simp only [hs, hf, hw, if_false, List.mem_singleton] at ha
          subst ha
          exact .inl ⟨rfl, rfl⟩
  · rw [List.mem_flatMap] at ha
    obtain ⟨tr, htr, ha⟩ := ha
    unfold stepTr at ha
    cases hc : N.callee tr with
    | none =>
      simp only [hc, List.mem_singleton] at ha
      subst ha
      exact .inr ⟨tr, htr, .inl ⟨hc, rfl, rfl⟩⟩
    | some j =>
      cases hq : (N.fst j).start with
      | none => simp [hc, hq] at ha
      | some q =>
        simp only [hc, hq, List.mem_singleton] at ha
        subst ha
        exact .inr ⟨tr, htr, .inr ⟨by rw [hc]; rfl, rfl, rfl⟩⟩

section
variable [Zero W] [One W] [DecidableEq W] {list : List (Label × Fst W)} {root : Label} {r : Nat}

/-- Properties of the FST that `replace` returns, from those of the list, when calls keep their input label. -/
theorem replace_holds (hwf : ∀ p ∈ list, p.2.WF) (hr : namedBy list root = some r) {n : Nat} {F : Fst W} (hF : replace list root false n = some (.ok F)) :
    F.Holds .accessible ∧
    ((∀ p ∈ list, ∀ s, ∀ t ∈ p.2.trsOf s, if t.olabel = EPS ∨ namedBy list t.olabel = none then t.ilabel = t.olabel else t.ilabel = EPS) → F.Holds .acceptor) ∧
    ((∀ p ∈ list, p.2.Holds .acyclic) → F.Holds .acyclic) ∧
    ((∀ p ∈ list, p.2.Holds .unweighted) → F.Holds .unweighted) ∧
    ((∀ f, list[r]?.map (·.2) = some f → f.Holds .initialAcyclic) → F.Holds .initialAcyclic) := by
  obtain ⟨g, h1, h2, h3, h4, h5⟩ := RGrammar.new_net false hr hwf
  obtain ⟨F', ⟨N, hN⟩, _, _, e4, nm, e5⟩ := replace_present h1 h2 (.inr ⟨n, by rw [hF]; simp⟩)
  obtain rfl : F' = F := by
    have h6 : ∀ m, n ≤ m → replace list root false m = some (.ok F) := by
      intro m hm
      rw [replace_run h1] at hF ⊢
      simp only [Option.map_eq_some_iff] at hF ⊢
      obtain ⟨⟨a, z⟩, h4, h5⟩ := hF
      refine ⟨(a, z), ?_, h5⟩
      induction m, hm using Nat.le_induction with
      | base => exact h4
      | succ m _ ih => exact compute_more _ _ ih
    have h7 := hN (max N n) (Nat.le_max_left _ _)
    rw [h6 _ (Nat.le_max_right _ _)] at h7
    injection h7 with h7
    injection h7 with h7
    exact h7.symm
  by_cases hst : g.net.machine.start = none
  · rw [if_pos hst] at e4
    have := presents_none e5 hst e4
    subst this
    have H : ∀ b, (Fst.new : Fst W).props b = true → (Fst.new : Fst W).Holds b := fun b => Fst.truthful_new b
    exact ⟨H _ rfl, fun _ => H _ rfl, fun _ => H _ rfl, fun _ => H _ rfl, fun _ => H _ rfl⟩
  have hfst : ∀ i, g.net.fst i = (list[i]?.map (·.2)).getD ⟨[], none, fun _ => false⟩ := fun i => by
    have : g.net.rtn.fst i = (rtnOf list false).fst i := by rw [h4]
    exact this
  have hcallee : ∀ tr, g.net.callee tr = if tr.olabel = EPS then none else namedBy list tr.olabel := fun tr => by
    have : g.net.rtn.callee tr = (rtnOf list false).callee tr := by rw [h4]
    exact this
  have hall : ∀ (P : Fst W → Prop), P ⟨[], none, fun _ => false⟩ → (∀ p ∈ list, P p.2) → ∀ i, P (g.net.fst i) := by
    intro P p0 hp i
    rw [hfst]
    cases hi : list[i]? with
    | none => exact p0
    | some p => exact hp p (List.mem_of_getElem? hi)
  obtain ⟨g', k1, k2, k3, k4, k5, k6, k7, k8, k9, _⟩ := RGrammar.new_some (o := ROpts.new root false) hr
  rw [h1] at k1
  injection k1 with k1
  subst k1
  have hcallIn : ∀ tr, g.net.callIn tr = tr.ilabel := by
    intro tr
    simp only [RGrammar.net, k8, ROpts.new]
    simp [RLabelType.epsIn]
  have hcallOut : ∀ tr, g.net.callOut tr = 0 := by
    intro tr
    simp only [RGrammar.net, k8, ROpts.new]
    simp [RLabelType.epsOut]
  have hretIn : g.net.retIn = 0 := by
    simp only [RGrammar.net, k9, ROpts.new]
    simp [RLabelType.epsIn]
  have hretOut : g.net.retOut = 0 := by
    simp only [RGrammar.net, k9, ROpts.new]
    simp [RLabelType.epsOut]
  refine ⟨e5.accessible, fun h => ?_, fun h => ?_, fun h => ?_, fun h => ?_⟩
  · have hh := hall (fun f => ∀ s, ∀ t ∈ f.trsOf s, if t.olabel = EPS ∨ namedBy list t.olabel = none then t.ilabel = t.olabel else t.ilabel = EPS)
      (fun s t ht => by simp [Fst.trsOf] at ht) h
    refine e5.all_trs (fun il ol _ => il = ol) fun t _ a ha => ?_
    rcases RNet.mem_trs_call ha with ⟨q1, q2⟩ | ⟨tr, htr, ⟨q0, q1, q2⟩ | ⟨q0, q1, q2⟩⟩
    · rw [q1, q2, hretIn, hretOut]
    · have := hh t.fst t.state tr htr
      rw [hcallee] at q0
      rw [if_pos (by
        by_cases ho : tr.olabel = EPS
        · exact .inl ho
        · rw [if_neg ho] at q0; exact .inr q0)] at this
      rw [q1, q2, this]
    · have := hh t.fst t.state tr htr
      rw [hcallee] at q0
      rw [if_neg (by
        rintro (ho | ho)
        · rw [if_pos ho] at q0; simp at q0
        · rw [ho] at q0; simp at q0)] at this
      rw [q1, q2, hcallIn, hcallOut, this]
  · rw [e5.holds_acyclic]
    intro t _
    refine RNet.acyclic (N := g.net) (fun i s hs => ?_) _ t rfl
    refine hall (fun f => f.Holds .acyclic) ?_ h i ⟨s, hs⟩
    rintro ⟨s, hs⟩
    obtain ⟨q, ⟨tr, htr, _⟩, _⟩ := Relation.TransGen.head'_iff.1 hs
    simp [Fst.trsOf] at htr
  · have hh := hall (fun f => f.Holds .unweighted) ⟨fun s t ht => by simp [Fst.trsOf] at ht, fun s w hw => by simp [Fst.finOf] at hw⟩ h
    refine e5.holds_unweighted fun t _ => ?_
    refine ⟨fun a ha => ?_, fun w hw => ?_⟩
    · rcases RNet.mem_trs ha with ⟨w, q0, q, _⟩ | ⟨tr, htr, q, _⟩
      · rw [q]; exact (hh t.fst).2 _ _ q0
      · rw [q]; exact (hh t.fst).1 _ tr htr
    · simp only [RNet.machine] at hw
      by_cases hs : t.stack = []
      · rw [if_pos hs] at hw; exact (hh t.fst).2 _ _ hw
      · rw [if_neg hs] at hw; cases hw
  · rw [e5.holds_initialAcyclic]
    intro t hts hc
    simp only [RNet.machine, Option.map_eq_some_iff] at hts
    obtain ⟨s, hs, rfl⟩ := hts
    obtain ⟨hl, f, hf⟩ := namedBy_some hr
    refine h f ?_ ⟨s, ?_, ?_⟩
    · rw [hf]; rfl
    · have := hs
      rw [hfst, h3, hf] at this
      exact this
    · have := RNet.initial_acyclic hc
      rw [hfst, h3, hf] at this
      exact this

end

section
variable [MonoidWithZero W] [DecidableEq W] {f g : Fst W}
open Fst

theorem unionRoot_trs (s : StateId) {t : Tr W} (h : t ∈ (unionRoot : Fst W).trsOf s) :
    (t.olabel = NO_LABEL ∨ t.olabel = NO_LABEL - 1) ∧ t.ilabel = EPS ∧ t.weight = 1 ∧ s < t.nextstate := by
  match s, h with
  | 0, h =>
    have : t ∈ ([⟨EPS, NO_LABEL, 1, 1⟩, ⟨EPS, NO_LABEL - 1, 1, 1⟩] : List (Tr W)) := h
    simp only [List.mem_cons, List.not_mem_nil, or_false] at this
    rcases this with rfl | rfl <;> simp
  | 1, h => exact absurd (show t ∈ ([] : List (Tr W)) from h) List.not_mem_nil
  | s + 2, h => rw [trsOf_of_ge (show 2 ≤ s + 2 by omega)] at h; cases h

theorem concatRoot_trs (s : StateId) {t : Tr W} (h : t ∈ (concatRoot : Fst W).trsOf s) :
    (t.olabel = NO_LABEL ∨ t.olabel = NO_LABEL - 1) ∧ t.ilabel = EPS ∧ t.weight = 1 ∧ s < t.nextstate := by
  match s, h with
  | 0, h => obtain rfl := List.mem_singleton.1 (show t ∈ ([⟨EPS, NO_LABEL, 1, 1⟩] : List (Tr W)) from h); simp
  | 1, h => obtain rfl := List.mem_singleton.1 (show t ∈ ([⟨EPS, NO_LABEL - 1, 1, 2⟩] : List (Tr W)) from h); simp
  | 2, h => exact absurd (show t ∈ ([] : List (Tr W)) from h) List.not_mem_nil
  | s + 3, h => rw [trsOf_of_ge (show 3 ≤ s + 3 by omega)] at h; cases h

theorem closureRoot_trs (c : ClosureType) (s : StateId) {t : Tr W} (h : t ∈ (closureRoot c : Fst W).trsOf s) :
    (t.olabel = NO_LABEL ∨ t.olabel = EPS) ∧ t.ilabel = EPS ∧ t.weight = 1 := by
  cases c with
  | star =>
    match s, h with
    | 0, h => obtain rfl := List.mem_singleton.1 (show t ∈ ([⟨EPS, NO_LABEL, 1, 0⟩] : List (Tr W)) from h); simp
    | s + 1, h => rw [trsOf_of_ge (show 1 ≤ s + 1 by omega)] at h; cases h
  | plus =>
    match s, h with
    | 0, h => obtain rfl := List.mem_singleton.1 (show t ∈ ([⟨EPS, NO_LABEL, 1, 1⟩] : List (Tr W)) from h); simp
    | 1, h => obtain rfl := List.mem_singleton.1 (show t ∈ ([⟨EPS, EPS, 1, 0⟩] : List (Tr W)) from h); simp
    | s + 2, h => rw [trsOf_of_ge (show 2 ≤ s + 2 by omega)] at h; cases h

theorem unionRoot_fin (s : StateId) {w : W} (e : (unionRoot : Fst W).finOf s = some w) : w = 1 := by
  match s, e with
  | 0, e => cases e
  | 1, e => cases e; rfl
  | s + 2, e => rw [finOf_of_ge (show 2 ≤ s + 2 by omega)] at e; cases e

theorem concatRoot_fin (s : StateId) {w : W} (e : (concatRoot : Fst W).finOf s = some w) : w = 1 := by
  match s, e with
  | 0, e => cases e
  | 1, e => cases e
  | 2, e => cases e; rfl
  | s + 3, e => rw [finOf_of_ge (show 3 ≤ s + 3 by omega)] at e; cases e

theorem closureRoot_fin (c : ClosureType) (s : StateId) {w : W} (e : (closureRoot c : Fst W).finOf s = some w) : w = 1 := by
  cases c with
  | star =>
    match s, e with
    | 0, e => cases e; rfl
    | s + 1, e => rw [finOf_of_ge (show 1 ≤ s + 1 by omega)] at e; cases e
  | plus =>
    match s, e with
    | 0, e => cases e
    | 1, e => cases e; rfl
    | s + 2, e => rw [finOf_of_ge (show 2 ≤ s + 2 by omega)] at e; cases e

/-- C51 for the flags that `properties()` of a `UnionFst`, `ConcatFst` or `ClosureFst` shows, as claims about the FST that `compute` returns, for well-formed operands with right
flags that do not use the labels by which the code names them: `ACCEPTOR` and `UNWEIGHTED` are right, `ACYCLIC` for union and concatenation,
`ACCESSIBLE` for union and closure and `INITIAL_ACYCLIC` for union. -/
theorem C64_shown_flags_partial (hf : f.WF) (hg : g.WF) (tf : f.Truthful) (tg : g.Truthful) (hf' : f.NoNames [NO_LABEL, NO_LABEL - 1])
    (hg' : g.NoNames [NO_LABEL, NO_LABEL - 1]) {n : Nat} {F : Fst W} :
    (unionFst f g n = some (.ok F) → ∀ b ∈ [PropBit.acceptor, .unweighted, .acyclic, .accessible, .initialAcyclic], unionFstProps f g b = true → F.Holds b) ∧
    (concatFst f g n = some (.ok F) → ∀ b ∈ [PropBit.acceptor, .unweighted, .acyclic], concatFstProps f g b = true → F.Holds b) ∧
    ∀ c, closureFst c f n = some (.ok F) → ∀ b ∈ [PropBit.acceptor, .unweighted, .accessible], closureFstProps f b = true → F.Holds b := by
  have acc3 : ∀ {r h : Fst W}, h.Holds .acceptor → h.NoNames [NO_LABEL, NO_LABEL - 1] → ∀ s, ∀ t ∈ h.trsOf s,
      if t.olabel = EPS ∨ namedBy [(0, r), (NO_LABEL, f), (NO_LABEL - 1, g)] t.olabel = none then t.ilabel = t.olabel else t.ilabel = EPS := by
    intro r h ha hn s t ht
    have e : t.ilabel = t.olabel := ha s t ht
    split
    · exact e
    · next hc =>
      rw [not_or, named_three] at hc
      have := hn s t ht
      simp only [List.mem_cons, List.not_mem_nil, or_false, not_or] at this
      rw [if_neg (fun h => this.2 h.symm), if_neg (fun h => this.1 h.symm), if_neg (fun h => hc.1 h.symm)] at hc
      exact absurd rfl hc.2
  have root3 : ∀ {r h : Fst W} {t : Tr W}, (t.olabel = NO_LABEL ∨ t.olabel = NO_LABEL - 1) → t.ilabel = EPS →
      if t.olabel = EPS ∨ namedBy [(0, r), (NO_LABEL, f), (NO_LABEL - 1, g)] t.olabel = none then t.ilabel = t.olabel else t.ilabel = EPS := by
    intro r _ t ho hi
    rw [if_neg]
    · exact hi
    · rw [named_three]
      rcases ho with ho | ho <;> rw [ho] <;> decide
  have top : ∀ {r : Fst W}, (∀ s, ∀ t ∈ r.trsOf s, s < t.nextstate) → r.Holds .acyclic := fun h => acyclic_of_topSorted h
  have three : ∀ {r : Fst W}, r.WF → (∀ s, ∀ t ∈ r.trsOf s, (t.olabel = NO_LABEL ∨ t.olabel = NO_LABEL - 1) ∧ t.ilabel = EPS ∧ t.weight = 1 ∧ s < t.nextstate) →
      (∀ s w, r.finOf s = some w → w = 1) → replace [(0, r), (NO_LABEL, f), (NO_LABEL - 1, g)] 0 false n = some (.ok F) →
      F.Holds .accessible ∧ (f.Holds .acceptor → g.Holds .acceptor → F.Holds .acceptor) ∧ (f.Holds .acyclic → g.Holds .acyclic → F.Holds .acyclic) ∧
      (f.Holds .unweighted → g.Holds .unweighted → F.Holds .unweighted) ∧ F.Holds .initialAcyclic := by
    intro r hr ht hw h
    obtain ⟨a1, a2, a3, a4, a5⟩ := replace_holds (three_wf hr hf hg) (r := 0) (by rw [named_three]; rfl) h
    refine ⟨a1, fun x y => a2 fun p hp => ?_, fun x y => a3 fun p hp => ?_, fun x y => a4 fun p hp => ?_, a5 fun k hk => ?_⟩
    · simp only [List.mem_cons, List.not_mem_nil, or_false] at hp
      rcases hp with rfl | rfl | rfl
      · exact fun s t h => root3 (h := r) (ht s t h).1 (ht s t h).2.1
      · exact acc3 x hf'
      · exact acc3 y hg'
    · simp only [List.mem_cons, List.not_mem_nil, or_false] at hp
      rcases hp with rfl | rfl | rfl
      exacts [top fun s t h => (ht s t h).2.2.2, x, y]
    · simp only [List.mem_cons, List.not_mem_nil, or_false] at hp
      rcases hp with rfl | rfl | rfl
      exacts [⟨fun s t h => .inr (ht s t h).2.2.1, fun s w h => .inr (hw s w h)⟩, x, y]
    · cases hk
      rintro ⟨s, -, hc⟩
      exact top (fun s t h => (ht s t h).2.2.2) ⟨s, hc⟩
  refine ⟨fun h b hb hp => ?_, fun h b hb hp => ?_, fun c h b hb hp => ?_⟩
  · obtain ⟨a1, a2, a3, a4, a5⟩ := three unionRoot_wf (fun s t => unionRoot_trs s) (fun s w => unionRoot_fin s) h
    simp only [List.mem_cons, List.not_mem_nil, or_false] at hb
    rcases hb with rfl | rfl | rfl | rfl | rfl
    · simp [unionFstProps, Props.union, Props.keep, Props.orIf_apply, Props.of_apply, Props.set] at hp
      exact a2 (tf _ hp.1) (tg _ hp.2)
    · simp [unionFstProps, Props.union, Props.keep, Props.orIf_apply, Props.of_apply, Props.set] at hp
      exact a4 (tf _ hp.1) (tg _ hp.2)
    · simp [unionFstProps, Props.union, Props.keep, Props.orIf_apply, Props.of_apply, Props.set] at hp
      exact a3 (tf _ hp.1) (tg _ hp.2)
    · exact a1
    · exact a5
  · obtain ⟨a1, a2, a3, a4, a5⟩ := three concatRoot_wf (fun s t => concatRoot_trs s) (fun s w => concatRoot_fin s) h
    simp only [List.mem_cons, List.not_mem_nil, or_false] at hb
    rcases hb with rfl | rfl | rfl
    · simp [concatFstProps, Props.concat, Props.keep, Props.orIf_apply, Props.of_apply] at hp
      exact a2 (tf _ hp.1) (tg _ hp.2)
    · simp [concatFstProps, Props.concat, Props.keep, Props.orIf_apply, Props.of_apply] at hp
      exact a4 (tf _ hp.1) (tg _ hp.2)
    · simp [concatFstProps, Props.concat, Props.keep, Props.orIf_apply, Props.of_apply] at hp
      exact a3 (tf _ hp.1) (tg _ hp.2)
  · obtain ⟨a1, a2, a3, a4, a5⟩ := replace_holds (two_wf (closureRoot_wf c) hf) (r := 0) (by rw [named_two]; rfl) h
    simp only [List.mem_cons, List.not_mem_nil, or_false] at hb
    rcases hb with rfl | rfl | rfl
    · have hp : f.props .acceptor = true := by
        simpa [closureFstProps, Props.closure, Props.keep, Props.orIf_apply, Props.of_apply, Props.setIf_apply] using hp
      refine a2 fun p hp' => ?_
      simp only [List.mem_cons, List.not_mem_nil, or_false] at hp'
      rcases hp' with rfl | rfl
      · intro s t ht
        obtain ⟨q1, q2, -⟩ := closureRoot_trs c s ht
        show if t.olabel = EPS ∨ _ then _ else _
        rw [named_two]
        rcases q1 with q1 | q1
        · rw [q1, if_neg (by decide)]; exact q2
        · rw [q1, if_pos (.inl rfl)]; exact q2
      · intro s t ht
        have e : t.ilabel = t.olabel := tf _ hp s t ht
        show if t.olabel = EPS ∨ _ then _ else _
        split
        · exact e
        · next hc =>
          rw [not_or, named_two] at hc
          have := hf' s t ht
          simp only [List.mem_cons, List.not_mem_nil, or_false, not_or] at this
          rw [if_neg (fun h => this.1 h.symm), if_neg (fun h => hc.1 h.symm)] at hc
          exact absurd rfl hc.2
    · have hp : f.props .unweighted = true := by
        simpa [closureFstProps, Props.closure, Props.keep, Props.orIf_apply, Props.of_apply, Props.setIf_apply] using hp
      refine a4 fun p hp' => ?_
      simp only [List.mem_cons, List.not_mem_nil, or_false] at hp'
      rcases hp' with rfl | rfl
      exacts [⟨fun s t h => .inr (closureRoot_trs c s h).2.2, fun s w h => .inr (closureRoot_fin c s h)⟩, tf _ hp]
    · exact a1

end

/-- The instance `exOne` meets the hypotheses, and the union shows `ACCEPTOR` and `ACYCLIC`, the closure `ACCEPTOR`. -/
example : exOne.WF ∧ exOne.Truthful ∧ exOne.NoNames [NO_LABEL, NO_LABEL - 1] ∧ unionFstProps exOne exOne .acceptor = true ∧ unionFstProps exOne exOne .acyclic = true ∧
    concatFstProps exOne exOne .acyclic = true ∧ closureFstProps exOne .acceptor = true ∧
    (match unionFst exOne exOne 20, concatFst exOne exOne 20, closureFst .plus exOne 20 with | some (.ok _), some (.ok _), some (.ok _) => true | _, _, _ => false) = true := by
  refine ⟨Fst.wf_of_wfB (by decide), Fst.truthful_addTr (Fst.truthful_setFinal (Fst.truthful_setStart (Fst.truthful_addStates Fst.truthful_new 2) 0) (by decide) _) (by decide) _,
    fun s t ht => ?_, by decide +kernel, by decide +kernel, by decide +kernel, by decide +kernel, by decide +kernel⟩
  match s, ht with
  | 0, h => obtain rfl := List.mem_singleton.1 (show t ∈ ([⟨1, 1, 2, 1⟩] : List (Tr Nat)) from h); decide
  | 1, h => exact absurd (show t ∈ ([] : List (Tr Nat)) from h) List.not_mem_nil
  | s + 2, h => rw [Fst.trsOf_of_ge (show 2 ≤ s + 2 by omega)] at h; cases h

end Verif
