import Verif.Props.C64Exists

/-! # C51 for all the flags that a delayed union, concatenation or closure shows -/

namespace Verif
universe u
variable {W : Type u}
open Lz

/-- The flags that are kept if the operand is accessible. -/
def existBits : List PropBit := [PropBit.notAcceptor, .notIDeterministic, .notODeterministic, .epsilons, .iEpsilons, .oEpsilons,
  .notILabelSorted, .notOLabelSorted, .weighted, .weightedCycles, .cyclic, .notCoaccessible]

theorem Props.union_shown {p q : Props} {b : PropBit} (h : Props.union p q true b = true) :
    (b ∈ [PropBit.acceptor, .unweighted, .unweightedCycles, .acyclic] ∧ p b = true ∧ q b = true) ∨ b = .accessible ∨ b = .initialAcyclic ∨
      (b ∈ .notAccessible :: existBits ∧ (p .accessible = true ∧ p b = true ∨ q .accessible = true ∧ q b = true)) := by
  cases b <;> simp [Props.union, Props.keep, Props.orIf_apply, Props.of_apply, Props.set, Props.has, existBits, Props.and] at h ⊢ <;> tauto

theorem Props.concat_shown {p q : Props} {b : PropBit} (h : Props.concat p q true b = true) :
    (b ∈ [PropBit.acceptor, .unweighted, .unweightedCycles, .acyclic] ∧ p b = true ∧ q b = true) ∨
      (b ∈ .notAccessible :: existBits ∧ p .accessible = true ∧ p b = true) := by
  cases b <;> simp [Props.concat, Props.keep, Props.orIf_apply, Props.of_apply, Props.set, Props.has, existBits, Props.and] at h ⊢ <;> tauto

theorem Props.closure_shown {p : Props} {b : PropBit} (h : Props.closure p true b = true) :
    (b ∈ [PropBit.acceptor, .unweighted, .accessible] ∧ p b = true) ∨ (b = .unweightedCycles ∧ p .unweighted = true) ∨
      (b ∈ .notAccessible :: existBits ∧ p .accessible = true ∧ (p b = true ∨ (b = .weightedCycles ∧ p .weighted = true ∧ p .coaccessible = true))) := by
  cases b <;> simp [Props.closure, Props.keep, Props.orIf_apply, Props.of_apply, Props.setIf_apply, Props.has, existBits, Props.and] at h ⊢ <;> tauto

section
variable [MonoidWithZero W] [DecidableEq W] {f g : Fst W}
open Fst

theorem noCalls_three {r h : Fst W} (hn : h.NoNames [NO_LABEL, NO_LABEL - 1]) (s : StateId) (t : Tr W) (ht : t ∈ h.trsOf s) :
    t.olabel = EPS ∨ namedBy [(0, r), (NO_LABEL, f), (NO_LABEL - 1, g)] t.olabel = none := by
  have := hn s t ht
  simp only [List.mem_cons, List.not_mem_nil, or_false, not_or] at this
  rw [named_three, if_neg (fun h => this.2 h.symm), if_neg (fun h => this.1 h.symm)]
  by_cases h0 : t.olabel = EPS
  · exact .inl h0
  · exact .inr (if_neg fun h => h0 h.symm)

theorem noCalls_two {r h : Fst W} (hn : h.NoNames [NO_LABEL]) (s : StateId) (t : Tr W) (ht : t ∈ h.trsOf s) :
    t.olabel = EPS ∨ namedBy [(0, r), (NO_LABEL, f)] t.olabel = none := by
  have := hn s t ht
  simp only [List.mem_cons, List.not_mem_nil, or_false] at this
  rw [named_two, if_neg (fun h => this h.symm)]
  by_cases h0 : t.olabel = EPS
  · exact .inl h0
  · exact .inr (if_neg fun h => h0 h.symm)

theorem three_unweightedCycles (hf : f.WF) (hg : g.WF) (hf' : f.NoNames [NO_LABEL, NO_LABEL - 1]) (hg' : g.NoNames [NO_LABEL, NO_LABEL - 1]) {r : Fst W} (hr : r.WF)
    (ht : ∀ s, ∀ t ∈ r.trsOf s, s < t.nextstate) {n : Nat} {F : Fst W} (h : replace [(0, r), (NO_LABEL, f), (NO_LABEL - 1, g)] 0 false n = some (.ok F))
    (uf : f.Holds .unweightedCycles) (ug : g.Holds .unweightedCycles) : F.Holds .unweightedCycles := by
  refine replace_unweightedCycles (three_wf hr hf hg) (r := 0) (by rw [named_three]; rfl) h (R := r) rfl ht ?_ ?_
  · intro l k p h0 hk hp
    rw [named_three] at hk
    by_cases h2 : NO_LABEL - 1 = l
    · rw [if_pos h2] at hk; cases hk; cases hp
      exact noCalls_three hg'
    by_cases h1 : NO_LABEL = l
    · rw [if_neg h2, if_pos h1] at hk; cases hk; cases hp
      exact noCalls_three hf'
    · rw [if_neg h2, if_neg h1, if_neg (fun h => h0 h.symm)] at hk
      cases hk
  · intro p hp
    simp only [List.mem_cons, List.not_mem_nil, or_false] at hp
    rcases hp with rfl | rfl | rfl
    · rintro ⟨s, t, h1, _, h2⟩
      exact acyclic_of_topSorted ht ⟨s, Relation.TransGen.head' ⟨t, h1, rfl⟩ h2⟩
    · exact uf
    · exact ug

/-- C51 for the flags that `properties()` of a `UnionFst`, `ConcatFst` or `ClosureFst` shows, as claims about the FST that `compute` returns. For well-formed operands with right
flags that do not use the labels by which the code names them, every flag is right; for the closure if no final weight is the zero of the semiring. -/
theorem C64_shown_flags (hf : f.WF) (hg : g.WF) (tf : f.Truthful) (tg : g.Truthful) (hf' : f.NoNames [NO_LABEL, NO_LABEL - 1])
    (hg' : g.NoNames [NO_LABEL, NO_LABEL - 1]) {n : Nat} {F : Fst W} :
    (unionFst f g n = some (.ok F) → ∀ b, unionFstProps f g b = true → F.Holds b) ∧
    (concatFst f g n = some (.ok F) → ∀ b, concatFstProps f g b = true → F.Holds b) ∧
    ∀ c, closureFst c f n = some (.ok F) → (∀ s, f.finOf s ≠ some 0) → ∀ b, closureFstProps f b = true → F.Holds b := by
  obtain ⟨P1, P2, P3⟩ := C64_shown_flags_partial hf hg tf tg hf' hg' (n := n) (F := F)
  have split : ∀ {b : PropBit} {h : Fst W}, h.Truthful → b ∈ .notAccessible :: existBits → h.props .accessible = true → h.props b = true → b ∈ existBits := by
    intro b h th hb h1 h2
    rcases List.mem_cons.1 hb with rfl | hb
    · exact absurd (th _ h1) (th _ h2)
    · exact hb
  refine ⟨fun h b hp => ?_, fun h b hp => ?_, fun c h hz b hp => ?_⟩
  · rcases Props.union_shown hp with ⟨hb, h1, h2⟩ | rfl | rfl | ⟨hb, ⟨h1, h2⟩ | ⟨h1, h2⟩⟩
    · simp only [List.mem_cons, List.not_mem_nil, or_false] at hb
      rcases hb with rfl | rfl | rfl | rfl
      · exact P1 h _ (by simp) hp
      · exact P1 h _ (by simp) hp
      · exact three_unweightedCycles hf hg hf' hg' unionRoot_wf (fun s t h => (unionRoot_trs s h).2.2.2) h (tf _ h1) (tg _ h2)
      · exact P1 h _ (by simp) hp
    · exact P1 h _ (by simp) hp
    · exact P1 h _ (by simp) hp
    · exact replace_copies (three_wf unionRoot_wf hf hg) (r := 0) (by rw [named_three]; rfl) h (R := unionRoot) (i := 0) (t0 := ⟨EPS, NO_LABEL, 1, 1⟩) (k := 1) (f := f)
        rfl rfl (.head _) (show NO_LABEL ≠ EPS by decide) (by rw [named_three]; rfl) rfl (noCalls_three hf') (tf _ h1) (split tf hb h1 h2) (.inl (tf _ h2))
    · exact replace_copies (three_wf unionRoot_wf hf hg) (r := 0) (by rw [named_three]; rfl) h (R := unionRoot) (i := 0) (t0 := ⟨EPS, NO_LABEL - 1, 1, 1⟩) (k := 2) (f := g)
        rfl rfl (.tail _ (.head _)) (show NO_LABEL - 1 ≠ EPS by decide) (by rw [named_three]; rfl) rfl (noCalls_three hg') (tg _ h1) (split tg hb h1 h2) (.inl (tg _ h2))
  · rcases Props.concat_shown hp with ⟨hb, h1, h2⟩ | ⟨hb, h1, h2⟩
    · simp only [List.mem_cons, List.not_mem_nil, or_false] at hb
      rcases hb with rfl | rfl | rfl | rfl
      · exact P2 h _ (by simp) hp
      · exact P2 h _ (by simp) hp
      · exact three_unweightedCycles hf hg hf' hg' concatRoot_wf (fun s t h => (concatRoot_trs s h).2.2.2) h (tf _ h1) (tg _ h2)
      · exact P2 h _ (by simp) hp
    · exact replace_copies (three_wf concatRoot_wf hf hg) (r := 0) (by rw [named_three]; rfl) h (R := concatRoot) (i := 0) (t0 := ⟨EPS, NO_LABEL, 1, 1⟩) (k := 1) (f := f)
        rfl rfl (.head _) (show NO_LABEL ≠ EPS by decide) (by rw [named_three]; rfl) rfl (noCalls_three hf') (tf _ h1) (split tf hb h1 h2) (.inl (tf _ h2))
  · have hf1 : f.NoNames [NO_LABEL] := fun s t ht hm => hf' s t ht (by simp only [List.mem_singleton] at hm; rw [hm]; exact .head _)
    rcases Props.closure_shown hp with ⟨hb, h1⟩ | ⟨rfl, h1⟩ | ⟨hb, h1, h2⟩
    · exact P3 c h b hb hp
    · have hu : F.Holds .unweighted := P3 c h .unweighted (by simp) (by
        simpa [closureFstProps, Props.closure, Props.keep, Props.orIf_apply, Props.of_apply, Props.setIf_apply] using h1)
      rintro ⟨s, t, ht, hne, _⟩
      exact hne (hu.1 s t ht)
    · have hb' : b ∈ existBits := by
        rcases h2 with h2 | ⟨rfl, _⟩
        · exact split tf hb h1 h2
        · decide
      cases c with
      | star =>
        refine replace_copies (two_wf (closureRoot_wf .star) hf) (r := 0) (by rw [named_two]; rfl) h (R := closureRoot .star) (i := 0) (t0 := ⟨EPS, NO_LABEL, 1, 0⟩) (k := 1) (f := f)
          rfl rfl (.head _) (show NO_LABEL ≠ EPS by decide) (by rw [named_two]; rfl) rfl (noCalls_two hf1) (tf _ h1) hb' ?_
        exact h2.imp (tf _) fun ⟨q1, q2, q3⟩ => ⟨q1, .inl rfl, hz, tf _ q2, tf _ q3⟩
      | plus =>
        refine replace_copies (two_wf (closureRoot_wf .plus) hf) (r := 0) (by rw [named_two]; rfl) h (R := closureRoot .plus) (i := 0) (t0 := ⟨EPS, NO_LABEL, 1, 1⟩) (k := 1) (f := f)
          rfl rfl (.head _) (show NO_LABEL ≠ EPS by decide) (by rw [named_two]; rfl) rfl (noCalls_two hf1) (tf _ h1) hb' ?_
        exact h2.imp (tf _) fun ⟨q1, q2, q3⟩ => ⟨q1, .inr ⟨⟨EPS, EPS, 1, 0⟩, .head _, rfl, rfl⟩, hz, tf _ q2, tf _ q3⟩

end

/-- `exOne` with further flags. -/
def exOneF : Fst Nat := { exOne with props := Props.of [.acceptor, .weighted, .accessible, .coaccessible, .acyclic] }

theorem exOneF_truthful {w : Nat} : ({ (exOne.setFinal 1 w) with props := Props.of [.acceptor, .weighted, .accessible, .coaccessible, .acyclic] } : Fst Nat).Truthful := by
  have ht : ∀ s, ∀ t ∈ (exOne.setFinal 1 w).trsOf s, s = 0 ∧ t = ⟨1, 1, 2, 1⟩ := by
    intro s t h
    match s, h with
    | 0, h => exact ⟨rfl, List.mem_singleton.1 (show t ∈ ([⟨1, 1, 2, 1⟩] : List (Tr Nat)) from h)⟩
    | 1, h => exact absurd (show t ∈ ([] : List (Tr Nat)) from h) List.not_mem_nil
    | s + 2, h => rw [Fst.trsOf_of_ge (show 2 ≤ s + 2 by omega)] at h; cases h
  have he : (exOne.setFinal 1 w).Edge 0 1 := ⟨⟨1, 1, 2, 1⟩, .head _, rfl⟩
  intro b hb
  simp only [Props.of_apply, decide_eq_true_eq, List.mem_cons, List.not_mem_nil, or_false] at hb
  rcases hb with rfl | rfl | rfl | rfl | rfl
  · intro s t h
    obtain ⟨-, rfl⟩ := ht s t h
    rfl
  · intro h
    rcases h.1 0 ⟨1, 1, 2, 1⟩ (.head _) with h | h <;> cases h
  · intro s hs
    have hs : s < 2 := hs
    match s, hs with
    | 0, _ => exact ⟨0, rfl, .refl⟩
    | 1, _ => exact ⟨0, rfl, .single he⟩
  · intro s hs
    have hs : s < 2 := hs
    match s, hs with
    | 0, _ => exact ⟨1, .single he, rfl⟩
    | 1, _ => exact ⟨1, .refl, rfl⟩
  · refine Fst.acyclic_of_topSorted (f := exOne.setFinal 1 w) fun s t h => ?_
    obtain ⟨rfl, rfl⟩ := ht s t h
    decide

theorem exOneF_noNames {w : Nat} {p : Props} : ({ (exOne.setFinal 1 w) with props := p } : Fst Nat).NoNames [NO_LABEL, NO_LABEL - 1] := by
  intro s t h
  match s, h with
  | 0, h => obtain rfl := List.mem_singleton.1 (show t ∈ ([⟨1, 1, 2, 1⟩] : List (Tr Nat)) from h); show (1 : Nat) ∉ _; decide
  | 1, h => exact absurd (show t ∈ ([] : List (Tr Nat)) from h) List.not_mem_nil
  | s + 2, h => rw [Fst.trsOf_of_ge (show 2 ≤ s + 2 by omega)] at h; cases h

example : exOneF.WF ∧ exOneF.Truthful ∧ exOneF.NoNames [NO_LABEL, NO_LABEL - 1] ∧ (∀ s, exOneF.finOf s ≠ some 0) ∧ unionFstProps exOneF exOneF .weighted = true ∧
    concatFstProps exOneF exOneF .acyclic = true ∧ closureFstProps exOneF .weightedCycles = true ∧
    (match unionFst exOneF exOneF 20, concatFst exOneF exOneF 20, closureFst .plus exOneF 20 with | some (.ok _), some (.ok _), some (.ok _) => true | _, _, _ => false) = true := by
  refine ⟨Fst.wf_of_wfB (by decide), exOneF_truthful (w := 3), exOneF_noNames (w := 3), fun s h => ?_, by decide +kernel, by decide +kernel, by decide +kernel, by decide +kernel⟩
  match s, h with
  | 0, h => cases h
  | 1, h => exact absurd (Option.some.inj (show some 3 = some 0 from h)) (by decide)
  | s + 2, h => rw [Fst.finOf_of_ge (show 2 ≤ s + 2 by omega)] at h; cases h

/-- The same with the zero of the semiring as final weight. -/
def exZeroFinal : Fst Nat := { exOne.setFinal 1 0 with props := Props.of [.acceptor, .weighted, .accessible, .coaccessible, .acyclic] }

/-- The condition on the final weights cannot be dropped: `ClosureFst` shows `WEIGHTED_CYCLES` for it, although the FST that `compute` returns has no cycle, as `replace` makes no
return with weight zero. -/
theorem C64_closure_weighted_cycles_defect : exZeroFinal.WF ∧ exZeroFinal.Truthful ∧ exZeroFinal.NoNames [NO_LABEL, NO_LABEL - 1] ∧
    closureFstProps exZeroFinal .weightedCycles = true ∧ ∃ F, closureFst .star exZeroFinal 20 = some (.ok F) ∧ ¬ F.Holds .weightedCycles := by
  refine ⟨Fst.wf_of_wfB (by decide), exOneF_truthful (w := 0), exOneF_noNames (w := 0), by decide +kernel, ?_⟩
  have h : (match closureFst .star exZeroFinal 20 with
    | some (.ok F) => decide (∀ s < F.numStates, ∀ t ∈ F.trsOf s, s < t.nextstate)
    | _ => false) = true := by decide +kernel
  cases hF : closureFst .star exZeroFinal 20 with
  | none => rw [hF] at h; cases h
  | some x =>
    cases x with
    | error e => rw [hF] at h; cases h
    | ok F =>
      rw [hF] at h
      refine ⟨F, rfl, ?_⟩
      rintro ⟨s, t, ht, _, h2⟩
      refine Fst.acyclic_of_topSorted (f := F) (fun s t ht => ?_) ⟨s, Relation.TransGen.head' ⟨t, ht, rfl⟩ h2⟩
      by_cases hs : s < F.numStates
      · exact of_decide_eq_true h s hs t ht
      · rw [Fst.trsOf_of_ge (not_lt.1 hs)] at ht; cases ht

end Verif
