import Verif.Lemmas.RandFan

/-!
# Random paths: the flags of the weighted output, and the paths of the input
-/

namespace Verif
universe u v
variable {W : Type u}

section
variable [Zero W]

/-- A run is an accepting path. -/
theorem Fst.Draws.path [MonoidWithZero W] {f : Fst W} {s : StateId} {ps : List Nat} {x y : List Label} (h : f.Draws s ps x y) :
    ∃ w, (x, y, w) ∈ f.pathsFrom ps.length s := by
  induction h with
  | stop h =>
    obtain ⟨w, hw, _⟩ := h
    exact ⟨w, by rw [List.length_nil, Fst.pathsFrom, hw]; simp⟩
  | @step s p ps t x y ht _ ih =>
    obtain ⟨w, hw⟩ := ih
    refine ⟨t.weight * w, ?_⟩
    rw [List.length_cons, Fst.pathsFrom, Multiset.mem_bind]
    exact ⟨t, List.mem_of_getElem? ht, Multiset.mem_map.2 ⟨_, hw, rfl⟩⟩

end

section
variable [Zero W] [One W] [DecidableEq W] {f : Fst W} {s0 : StateId} {cfg : RandCfg} {neglog : ℚ → W} {table : List RandState} {sf : Option StateId}
  {nodes : List (Node W)} {out : Fst W}

/-- The transitions of the weighted tree. -/
theorem STree.trs_eq (T : STree f s0 cfg neglog table sf nodes out) (hlen : nodes.length = table.length) (hw : cfg.weighted = true) (s : StateId) :
    out.trsOf s = [] ∨ ∃ nd r, nodes[s]? = some nd ∧ NodeAt f cfg neglog table sf out s nd r ∧
      out.trsOf s = (nd.kids.zipIdx nd.base).map (kidTr cfg neglog r) := by
  by_cases hs : s < nodes.length
  · rcases T.done s _ (List.getElem?_eq_getElem hs) with ⟨_, _, _, h, _⟩ | ⟨r, h⟩
    · exact Or.inl h
    · exact Or.inr ⟨_, r, List.getElem?_eq_getElem hs, h, by rw [h.trs, Node.trs, if_pos hw, List.append_nil]⟩
  · exact Or.inl (T.later s (by omega)).1

/-- A relation between a transition and the later ones is inherited from the input. -/
theorem STree.pairwise (T : STree f s0 cfg neglog table sf nodes out) (hlen : nodes.length = table.length) (hw : cfg.weighted = true) {α : Type} (k : Tr W → α)
    (hk : ∀ (t : Tr W) w n, k ⟨t.ilabel, t.olabel, w, n⟩ = k t) (R : α → α → Prop) (h : ∀ s, ((f.trsOf s).map k).Pairwise R) (s : StateId) :
    ((out.trsOf s).map k).Pairwise R := by
  rcases T.trs_eq hlen hw s with e | ⟨nd, r, h1, h2, e⟩
  · rw [e]; exact List.Pairwise.nil
  · rw [e, List.map_map, List.pairwise_map]
    have hmem : ∀ x ∈ nd.kids.zipIdx nd.base, (f.trsOf r.stateId)[x.1.pos]? = some x.1.tr := fun x hx => by
      obtain ⟨i, _, hi⟩ := mem_zipIdx_get hx
      exact h2.drawn.tr x.1 (List.mem_of_getElem? hi)
    refine List.Pairwise.imp_of_mem ?_ (zipIdx_sorted nd.base h2.drawn.sorted)
    intro a b ha hb hab
    have ha' := hmem a ha
    have hb' := hmem b hb
    have hR := h r.stateId
    rw [List.pairwise_iff_getElem] at hR
    obtain ⟨la, ea⟩ := List.getElem?_eq_some_iff.1 ha'
    obtain ⟨lb, eb⟩ := List.getElem?_eq_some_iff.1 hb'
    have := hR a.1.pos b.1.pos (by simpa using la) (by simpa using lb) hab
    rw [List.getElem_map, List.getElem_map, ea, eb] at this
    simp only [Function.comp, kidTr, hk]
    exact this

theorem STree.mem_tr (T : STree f s0 cfg neglog table sf nodes out) (hlen : nodes.length = table.length) (hw : cfg.weighted = true) {s : StateId} {t : Tr W}
    (ht : t ∈ out.trsOf s) : s < t.nextstate ∧ ∃ q, ∃ u ∈ f.trsOf q, t.ilabel = u.ilabel ∧ t.olabel = u.olabel := by
  rcases T.trs_eq hlen hw s with e | ⟨nd, r, h1, h2, e⟩
  · rw [e] at ht; simp at ht
  · rw [e] at ht
    obtain ⟨x, hx, rfl⟩ := List.mem_map.1 ht
    obtain ⟨i, _, hi⟩ := mem_zipIdx_get hx
    exact ⟨(T.kid hlen h1 h2 hx).1, r.stateId, x.1.tr, List.mem_of_getElem? (h2.drawn.tr x.1 (List.mem_of_getElem? hi)), rfl, rfl⟩

/-- The flags of the weighted output are true. -/
theorem STree.truthful (T : STree f s0 cfg neglog table sf nodes out) (hlen : nodes.length = table.length) (hw : cfg.weighted = true) (ht : f.Truthful) :
    (out.setProps (randProps f.props true)).Truthful := by
  have hsf : sf = none := by
    cases h : sf with
    | none => rfl
    | some x => have := (T.sfIn x h).2; rw [hw] at this; cases this
  have hup : ∀ a b, Relation.TransGen out.Edge a b → a < b := by
    intro a b h
    induction h with
    | single h => obtain ⟨t, ht, rfl⟩ := h; exact (T.mem_tr hlen hw ht).1
    | tail _ h ih => obtain ⟨t, ht, rfl⟩ := h; exact ih.trans (T.mem_tr hlen hw ht).1
  have hacc : ∀ x, x < out.numStates → out.Reach 0 x := by
    intro x
    induction x using Nat.strong_induction_on with
    | _ x ih =>
      intro hl
      rcases Nat.eq_zero_or_pos x with rfl | hp
      · exact .refl
      · rw [T.num] at hl
        rcases T.cover x hp hl with ⟨h, _⟩ | ⟨s, nd, h1, h2, h3⟩
        · rw [hsf] at h; cases h
        · have hsl := (List.getElem?_eq_some_iff.1 h1).1
          have hb := (T.base s nd h1).1
          rcases T.done s nd h1 with ⟨h, _⟩ | ⟨r, h⟩
          · rw [hsf] at h; cases h
          · refine (ih s (by omega) (by rw [T.num]; omega)).tail ⟨kidTr cfg neglog r (nd.kids[x - nd.base]'(by omega), x), ?_, rfl⟩
            rw [h.trs, Node.trs]
            refine List.mem_append_left _ (List.mem_map.2 ⟨_, ?_, rfl⟩)
            rw [List.mem_zipIdx_iff_le_and_getElem?_sub]
            exact ⟨h2, List.getElem?_eq_getElem _⟩
  have hno : ∀ s, ¬ out.OnCycle s := fun s h => lt_irrefl _ (hup s s h)
  intro b hb
  have hb' : randProps f.props true b = true := hb
  have hin : ∀ b : PropBit, b ∉ [PropBit.acyclic, .initialAcyclic, .accessible, .unweightedCycles, .topSorted] → randProps f.props true b = true →
      f.Holds b := by
    intro b hn h
    refine ht b ?_
    simp only [randProps, if_true, Props.or_apply, Props.and_apply, Props.of_apply, Bool.or_eq_true, Bool.and_eq_true, decide_eq_true_eq] at h
    rcases h with (h | h) | h
    · exact absurd (by simp only [List.mem_cons, List.not_mem_nil, or_false] at h ⊢; tauto) hn
    · exact absurd (by simp only [List.mem_cons, List.not_mem_nil, or_false] at h ⊢; tauto) hn
    · exact h.2
  cases b
  case acyclic => exact fun ⟨s, h⟩ => hno s h
  case initialAcyclic => exact fun ⟨s, _, h⟩ => hno s h
  case accessible => exact fun s hs => ⟨0, T.start, hacc s hs⟩
  case unweightedCycles =>
    rintro ⟨s, t, h, _, h'⟩
    exact hno s (Relation.TransGen.trans_left (.single ⟨t, h, rfl⟩) h')
  case topSorted => exact fun s t h => (T.mem_tr hlen hw h).1
  case acceptor =>
    intro s t h
    obtain ⟨_, q, v, hv, e1, e2⟩ := T.mem_tr hlen hw h
    rw [e1, e2]
    exact hin _ (by decide) hb' q v hv
  case noEpsilons =>
    rintro ⟨s, t, h, h1, h2⟩
    obtain ⟨_, q, v, hv, e1, e2⟩ := T.mem_tr hlen hw h
    exact hin _ (by decide) hb' ⟨q, v, hv, by rw [← e1]; exact h1, by rw [← e2]; exact h2⟩
  case noIEpsilons =>
    rintro ⟨s, t, h, h1⟩
    obtain ⟨_, q, v, hv, e1, e2⟩ := T.mem_tr hlen hw h
    exact hin _ (by decide) hb' ⟨q, v, hv, by rw [← e1]; exact h1⟩
  case noOEpsilons =>
    rintro ⟨s, t, h, h1⟩
    obtain ⟨_, q, v, hv, e1, e2⟩ := T.mem_tr hlen hw h
    exact hin _ (by decide) hb' ⟨q, v, hv, by rw [← e2]; exact h1⟩
  case iDeterministic => exact T.pairwise hlen hw (·.ilabel) (fun _ _ _ => rfl) _ (hin _ (by decide) hb')
  case oDeterministic => exact T.pairwise hlen hw (·.olabel) (fun _ _ _ => rfl) _ (hin _ (by decide) hb')
  case iLabelSorted => exact T.pairwise hlen hw (·.ilabel) (fun _ _ _ => rfl) _ (hin _ (by decide) hb')
  case oLabelSorted => exact T.pairwise hlen hw (·.olabel) (fun _ _ _ => rfl) _ (hin _ (by decide) hb')
  all_goals exact absurd hb' (by simp [randProps, Props.or_apply, Props.and_apply, Props.of_apply])

end
end Verif
