import Verif.Lemmas.Wf

/-! # Preservation of truthful flags by each mutator -/

namespace Verif
set_option linter.unusedSectionVars false
universe u
variable {W : Type u}

theorem nontrivialW_iff [Zero W] [One W] [DecidableEq W] (w : W) : nontrivialW w = true ↔ ¬ Fst.TrivialW w := by
  simp [nontrivialW, isZeroW, isOneW, Fst.TrivialW]
theorem nontrivialW_false [Zero W] [One W] [DecidableEq W] (w : W) : nontrivialW w = false ↔ Fst.TrivialW w := by
  rw [← Bool.not_eq_true, nontrivialW_iff, not_not]

namespace Fst
variable [Zero W] [One W]

/-- The flags' meaning depends only on the queries. -/
theorem holds_congr {f g : Fst W} (hn : g.numStates = f.numStates) (hs : g.start = f.start)
    (ht : ∀ s, g.trsOf s = f.trsOf s) (hf : ∀ s, g.finOf s = f.finOf s) (b) : g.Holds b ↔ f.Holds b := by
  have e : g.Edge = f.Edge := by funext a b; simp [Edge, ht]
  have e1 : g.Reach = f.Reach := by simp [Reach, e]
  have e2 : g.OnCycle = f.OnCycle := by funext a; simp [OnCycle, e]
  have e3 : g.IsFinal = f.IsFinal := by funext a; simp [IsFinal, hf]
  have e4 : g.Accessible = f.Accessible := by funext a; simp [Accessible, hs, e1]
  have e5 : g.Coaccessible = f.Coaccessible := by funext a; simp [Coaccessible, e3, e1]
  cases b <;> simp only [Holds, Unweighted, HasWeightedCycle, IsLinear, hn, hs, ht, hf, e1, e2, e3, e4, e5]

/-- `g` is obtained from `f` by deleting states and transitions; `old` gives the number in `f` of a state of `g`. -/
structure Sub (g f : Fst W) (old : Nat → Nat) : Prop where
  trs : ∀ i, ((g.trsOf i).map (fun t => { t with nextstate := old t.nextstate })).Sublist (f.trsOf (old i))
  fin : ∀ i w, g.finOf i = some w → f.finOf (old i) = some w
  start : ∀ i, g.start = some i → f.start = some (old i)
  mono : ∀ a b, old a < old b → a < b

namespace Sub
variable {g f : Fst W} {old : Nat → Nat}

theorem mem (h : Sub g f old) {i t} (ht : t ∈ g.trsOf i) : { t with nextstate := old t.nextstate } ∈ f.trsOf (old i) :=
  (h.trs i).subset (List.mem_map.2 ⟨t, ht, rfl⟩)

theorem edge (h : Sub g f old) {a b} (e : g.Edge a b) : f.Edge (old a) (old b) := by
  obtain ⟨t, ht, rfl⟩ := e
  exact ⟨_, h.mem ht, rfl⟩

theorem reach (h : Sub g f old) {a b} (e : g.Reach a b) : f.Reach (old a) (old b) := by
  induction e with
  | refl => exact Relation.ReflTransGen.refl
  | tail _ e ih => exact ih.tail (h.edge e)

theorem cycle (h : Sub g f old) {a b} (e : Relation.TransGen g.Edge a b) : Relation.TransGen f.Edge (old a) (old b) := by
  induction e with
  | single e => exact .single (h.edge e)
  | tail _ e ih => exact ih.tail (h.edge e)

theorem labels (h : Sub g f old) (sel : Tr W → Nat) (hsel : ∀ t q, sel { t with nextstate := q } = sel t) (i) :
    ((g.trsOf i).map sel).Sublist ((f.trsOf (old i)).map sel) := by
  have := (h.trs i).map sel
  rw [List.map_map] at this
  have e : (sel ∘ fun t : Tr W => { t with nextstate := old t.nextstate }) = sel := by
    funext t; exact hsel t _
  rwa [e] at this

/-- Deleting states and transitions keeps every flag of `delete_states_properties`. -/
theorem holds (h : Sub g f old) (b) (hb : Props.deleteStatesMask b = true) (hf : f.Holds b) : g.Holds b := by
  cases b <;> simp [Props.deleteStatesMask, Props.of_apply] at hb <;> simp only [Holds] at hf ⊢
  · intro s t ht; have := hf _ _ (h.mem ht); exact this
  · intro s; exact (hf (old s)).sublist (h.labels _ (fun _ _ => rfl) s)
  · intro s; exact (hf (old s)).sublist (h.labels _ (fun _ _ => rfl) s)
  · rintro ⟨s, t, ht, e⟩; exact hf ⟨_, _, h.mem ht, e⟩
  · rintro ⟨s, t, ht, e⟩; exact hf ⟨_, _, h.mem ht, e⟩
  · rintro ⟨s, t, ht, e⟩; exact hf ⟨_, _, h.mem ht, e⟩
  · intro s; exact (hf (old s)).sublist (h.labels _ (fun _ _ => rfl) s)
  · intro s; exact (hf (old s)).sublist (h.labels _ (fun _ _ => rfl) s)
  · refine ⟨fun s t ht => ?_, fun s w hw => hf.2 _ _ (h.fin s w hw)⟩
    have := hf.1 _ _ (h.mem ht)
    exact this
  · rintro ⟨s, hs⟩; exact hf ⟨_, h.cycle hs⟩
  · rintro ⟨s, hs, hc⟩; exact hf ⟨_, h.start s hs, h.cycle hc⟩
  · intro s t ht; exact h.mono _ _ (hf _ _ (h.mem ht))
  · rintro ⟨s, t, ht, hw, hr⟩
    exact hf ⟨_, _, h.mem ht, hw, h.reach hr⟩

/-- Deleting transitions only also keeps the flags saying that some state is not (co)accessible. -/
theorem holds_id (h : Sub g f id) (hn : g.numStates = f.numStates) (b) (hb : Props.deleteArcsMask b = true)
    (hf : f.Holds b) : g.Holds b := by
  by_cases hb' : Props.deleteStatesMask b = true
  · exact h.holds b hb' hf
  · have hr : ∀ {a b}, g.Reach a b → f.Reach a b := fun e => h.reach e
    cases b <;> simp [Props.deleteStatesMask, Props.deleteArcsMask, Props.of_apply] at hb hb' <;>
      simp only [Holds, hn] at hf ⊢
    · intro hg; apply hf; intro s hs
      obtain ⟨i, h1, h2⟩ := hg s hs
      exact ⟨i, h.start i h1, hr h2⟩
    · intro hg; apply hf; intro s hs
      obtain ⟨q, h1, h2⟩ := hg s hs
      refine ⟨q, hr h1, ?_⟩
      unfold IsFinal at *
      obtain ⟨w, hw⟩ := Option.isSome_iff_exists.1 h2
      exact Option.isSome_iff_exists.2 ⟨w, h.fin q w hw⟩

end Sub

theorem sub_id {f g : Fst W} (hs : g.start = f.start) (ht : ∀ s, (g.trsOf s).Sublist (f.trsOf s))
    (hf : ∀ s, g.finOf s = f.finOf s) : Sub g f id where
  trs i := by simpa using ht i
  fin i w h := by rw [← hf]; exact h
  start i h := by rw [← hs]; exact h
  mono a b h := h

/-- `del_states` as a deletion. -/
theorem sub_delStates {f g : Fst W} {ds} (h : f.delStates ds = .ok g) :
    Sub g f (fun i => (survivors f.numStates ds)[i]?.getD (f.numStates + i)) where
  trs i := by
    by_cases hi : i < (survivors f.numStates ds).length
    · have hs : (survivors f.numStates ds)[i]? = some (survivors f.numStates ds)[i] := List.getElem?_eq_getElem hi
      rw [delStates_trsOf h hs]
      simp only [hs, Option.getD_some]
      have h2 := survivors_get_inv ds hs
      obtain ⟨-, -, hn⟩ := delStates_inv h
      simp only [survivingTrs, List.map_map]
      have : (List.filter (fun t => decide (t.nextstate ∉ ds)) (f.trsOf (survivors f.numStates ds)[i])).map
          ((fun t : Tr W => { t with nextstate := (survivors f.numStates ds)[t.nextstate]?.getD (f.numStates + t.nextstate) }) ∘
            fun t => { t with nextstate := newNumber ds t.nextstate }) =
          (List.filter (fun t => decide (t.nextstate ∉ ds)) (f.trsOf (survivors f.numStates ds)[i])).map id := by
        apply List.map_congr_left
        intro t ht
        simp only [List.mem_filter, decide_eq_true_eq] at ht
        have hlt := hn _ h2.1 h2.2.1 t ht.1
        have := survivors_get ds hlt ht.2
        simp [this]
      rw [this, List.map_id]
      exact List.filter_sublist
    · have : g.trsOf i = [] := by
        apply trsOf_of_ge
        rw [delStates_numStates h, ← survivors_length]; omega
      simp [this]
  fin i w hw := by
    have hi := lt_of_finOf hw
    rw [delStates_numStates h, ← survivors_length] at hi
    have hs : (survivors f.numStates ds)[i]? = some (survivors f.numStates ds)[i] := List.getElem?_eq_getElem hi
    rw [delStates_finOf h hs] at hw
    simpa [hs] using hw
  start i hi := by
    rw [delStates_start h] at hi
    obtain ⟨-, hlt, -⟩ := delStates_inv h
    cases hs : f.start with
    | none => simp [hs] at hi
    | some q =>
      simp only [hs, Option.bind_some] at hi
      split at hi
      · simp at hi
      · rename_i hd
        cases hi
        have := survivors_get ds (hlt q hs) hd
        simp [this]
  mono a b hab := by
    by_contra hc
    have hba : b ≤ a := Nat.le_of_not_lt hc
    revert hab
    show ¬ _
    rw [Nat.not_lt]
    by_cases ha : a < (survivors f.numStates ds).length
    · have hb : b < (survivors f.numStates ds).length := by omega
      rw [List.getElem?_eq_getElem ha, List.getElem?_eq_getElem hb]
      simp only [Option.getD_some]
      rcases Nat.lt_or_eq_of_le hba with hlt | heq
      · have hp : (survivors f.numStates ds).Pairwise (· < ·) :=
          List.Pairwise.filter _ List.pairwise_lt_range
        exact Nat.le_of_lt (List.pairwise_iff_getElem.1 hp b a hb ha hlt)
      · subst heq; exact Nat.le_refl _
    · rw [List.getElem?_eq_none (Nat.le_of_not_lt ha)]
      simp only [Option.getD_none]
      by_cases hb : b < (survivors f.numStates ds).length
      · rw [List.getElem?_eq_getElem hb]
        have := survivors_get_inv ds (List.getElem?_eq_getElem hb)
        simp only [Option.getD_some]
        omega
      · rw [List.getElem?_eq_none (Nat.le_of_not_lt hb)]
        simp only [Option.getD_none]; omega

/-! ## Truthful is preserved -/

theorem truthful_new : (new : Fst W).Truthful := by
  have hedge : ∀ a b, ¬ (new : Fst W).Edge a b := by
    rintro a b ⟨t, ht, -⟩; simp at ht
  intro b hb
  cases b <;> first
    | (simp [new, Props.nullMask, Props.of_apply] at hb; done)
    | simp [Holds, Unweighted, IsLinear, HasWeightedCycle]
  intro s hs
  have hs' : Relation.TransGen (new : Fst W).Edge s s := hs
  obtain ⟨c, hc, -⟩ := (Relation.TransGen.head'_iff).1 hs'
  exact hedge _ _ hc

theorem truthful_setStart {f : Fst W} (h : f.Truthful) (s) : (f.setStart s).Truthful := by
  intro b hb
  have hcong : ∀ b, Props.setStartMask b = true → f.Holds b → (f.setStart s).Holds b := by
    intro b hm hf
    cases b <;> first | (simp [Props.setStartMask, Props.of_apply] at hm; done) | exact hf
  simp only [setStart, Props.setStart, Props.setIf_apply] at hb
  split at hb
  · rename_i hc
    simp only [Props.has_apply] at hc
    simp only [Props.and_apply, Bool.or_eq_true, Bool.and_eq_true, decide_eq_true_eq] at hb
    rcases hb with ⟨hb, hm⟩ | hb
    · exact hcong b hm (h b hb)
    · subst hb
      have := h _ hc
      rintro ⟨i, -, hi⟩
      exact this ⟨i, hi⟩
  · simp only [Props.and_apply, Bool.and_eq_true] at hb
    exact hcong b hb.2 (h b hb.1)

theorem truthful_addStates {f : Fst W} (h : f.Truthful) (n) : (f.addStates n).Truthful := by
  intro b hb
  simp only [addStates, Props.addState, Props.and_apply, Bool.and_eq_true] at hb
  obtain ⟨hb, hm⟩ := hb
  have hf := h b hb
  have e : (f.addStates n).Edge = f.Edge := by funext a b; simp [Edge]
  have e1 : (f.addStates n).Reach = f.Reach := by simp [Reach, e]
  have e2 : (f.addStates n).OnCycle = f.OnCycle := by funext a; simp [OnCycle, e]
  have e3 : (f.addStates n).IsFinal = f.IsFinal := by funext a; simp [IsFinal]
  have e4 : (f.addStates n).Accessible = f.Accessible := by funext a; simp [Accessible, e1]
  have e5 : (f.addStates n).Coaccessible = f.Coaccessible := by funext a; simp [Coaccessible, e3, e1]
  cases b <;> first
    | (simp [Props.addStateMask, Props.of_apply] at hm; done)
    | (simp only [Holds, Unweighted, HasWeightedCycle, addStates_trsOf, addStates_finOf, addStates_start, e1, e2] at hf ⊢
       exact hf)
    | skip
  · simp only [Holds, addStates_numStates, e4] at hf ⊢
    intro hg; exact hf fun s hs => hg s (by omega)
  · simp only [Holds, addStates_numStates, e5] at hf ⊢
    intro hg; exact hf fun s hs => hg s (by omega)
  · simp only [Holds, IsLinear, addStates_numStates, addStates_trsOf, addStates_start, e3] at hf ⊢
    rcases Nat.eq_zero_or_pos n with rfl | hn
    · simpa using hf
    · intro hg
      apply hf
      intro hp
      have h1 := (hg (by omega)).2 (f.numStates + n - 1) (by omega)
      rw [if_pos (by omega)] at h1
      have := h1.1
      unfold IsFinal at this
      rw [finOf_of_ge (by omega)] at this
      simp at this

section
variable [DecidableEq W]

theorem truthful_final {f g : Fst W} (h : f.Truthful) (s : Nat) (new : Option W) (hl : s < f.numStates)
    (hp : g.props = Props.setFinal f.props (f.finOf s) new) (hn : g.numStates = f.numStates) (hs : g.start = f.start)
    (ht : ∀ q, g.trsOf q = f.trsOf q) (hfin : ∀ q, g.finOf q = if q = s then new else f.finOf q) : g.Truthful := by
  intro b hb
  have e : g.Edge = f.Edge := by funext a b; simp [Edge, ht]
  have e1 : g.Reach = f.Reach := by simp [Reach, e]
  have e2 : g.OnCycle = f.OnCycle := by funext a; simp [OnCycle, e]
  have e4 : g.Accessible = f.Accessible := by funext a; simp [Accessible, hs, e1]
  have hnt : ∀ o : Option W, Props.nontrivialO o = true ↔ ∃ w, o = some w ∧ ¬ TrivialW w := by
    intro o; cases o <;> simp [Props.nontrivialO, nontrivialW_iff]
  rw [hp] at hb
  simp only [Props.setFinal, Props.and_apply, Props.flipIf_apply, Props.clearIf, Bool.and_eq_true] at hb
  obtain ⟨hb, hm⟩ := hb
  by_cases hw : b = .weighted
  · subst hw
    simp only [Holds, Unweighted, ht, hfin]
    by_cases hnew : Props.nontrivialO new = true
    · obtain ⟨w, h1, h2⟩ := (hnt new).1 hnew
      intro hc
      exact h2 (hc.2 s w (by simp [h1]))
    · simp only [hnew] at hb
      by_cases hold : Props.nontrivialO (f.finOf s) = true
      · simp [hold] at hb
      · simp only [hold] at hb
        have hf := h _ (by simpa using hb)
        simp only [Holds, Unweighted] at hf
        intro hc
        apply hf
        refine ⟨hc.1, fun q w hq => ?_⟩
        by_cases hqs : q = s
        · subst hqs
          by_contra hcon
          exact hold ((hnt _).2 ⟨w, hq, hcon⟩)
        · exact hc.2 q w (by simpa [hqs] using hq)
  by_cases hu : b = .unweighted
  · subst hu
    simp only [Holds, Unweighted, ht, hfin]
    by_cases hnew : Props.nontrivialO new = true
    · simp [hnew] at hb
    · have hb' : f.props .unweighted = true := by
        simp only [hnew] at hb
        by_cases hold : Props.nontrivialO (f.finOf s) = true <;> simpa [hold] using hb
      have hf := h _ hb'
      simp only [Holds, Unweighted] at hf
      refine ⟨hf.1, fun q w hq => ?_⟩
      by_cases hqs : q = s
      · simp only [hqs, if_true] at hq
        by_contra hcon
        exact hnew ((hnt _).2 ⟨w, hq, hcon⟩)
      · exact hf.2 q w (by simpa [hqs] using hq)
  have hb' : f.props b = true := by
    by_cases hold : Props.nontrivialO (f.finOf s) = true <;>
      by_cases hnew : Props.nontrivialO new = true <;> simp [hold, hnew, hw, hu] at hb <;> exact hb
  have hf := h b hb'
  cases b <;> first
    | (simp [Props.setFinalMask, Props.of_apply] at hm; done)
    | (simp only [Holds, HasWeightedCycle, ht, hs, hn, e1, e2, e4] at hf ⊢
       exact hf)
    | contradiction

theorem truthful_setFinal {f : Fst W} (h : f.Truthful) {s} (hl : s < f.numStates) (w) : (f.setFinal s w).Truthful := by
  apply truthful_final h s (some w) hl rfl (setFinal_numStates f s w) rfl (setFinal_trsOf f s w)
  intro q
  rw [setFinal_finOf]
  simp [hl]

theorem truthful_delFinal {f : Fst W} (h : f.Truthful) {s} (hl : s < f.numStates) : (f.delFinal s).Truthful :=
  truthful_final h s none hl rfl (delFinal_numStates f s) rfl (delFinal_trsOf f s) (delFinal_finOf f s)

theorem truthful_delTrs {f : Fst W} (h : f.Truthful) (s) : (f.delTrs s).Truthful := by
  intro b hb
  simp only [delTrs, Props.deleteTrs, Props.and_apply, Bool.and_eq_true] at hb
  refine (sub_id (f := f) (g := f.delTrs s) rfl ?_ (delTrs_finOf f s)).holds_id (delTrs_numStates f s) b hb.2 (h b hb.1)
  intro q
  rw [delTrs_trsOf]
  split
  · exact List.nil_sublist _
  · exact List.Sublist.refl _

theorem truthful_delStates {f g : Fst W} {ds} (h : f.Truthful) (hg : f.delStates ds = .ok g) : g.Truthful := by
  intro b hb
  rw [delStates_props hg] at hb
  simp only [Props.deleteStates, Props.and_apply, Bool.and_eq_true] at hb
  exact (sub_delStates hg).holds b hb.2 (h b hb.1)

theorem truthful_delTrsIdSorted {f g : Fst W} {s is} (h : f.Truthful) (hg : f.delTrsIdSorted s is = .ok g) :
    g.Truthful := by
  unfold delTrsIdSorted at hg
  split at hg
  · cases hg; exact h
  · rename_i st hst
    split at hg
    · simp at hg
    · rename_i st' h1
      cases hg
      have hl : s < f.numStates := (List.getElem?_eq_some_iff.1 hst).1
      intro b hb
      have hsub : Sub ({ f with states := f.states.set s st', props := if st'.trs.length = 0 then Props.deleteTrs f.props
                 else f.props.and Props.delTrsIdMask } : Fst W) f id := by
        refine sub_id (by rfl) ?_ ?_
        · intro q
          rw [set_trsOf _ _ _ _ hl]
          split
          · rename_i e; subst e
            rw [trsOf_eq_of_get hst]
            exact (delTrIdx_sublist st is h1).1
          · exact List.Sublist.refl _
        · intro q
          rw [set_finOf _ _ _ _ hl]
          split
          · rename_i e; subst e
            rw [finOf_eq_of_get hst]
            exact (delTrIdx_sublist st is h1).2
          · rfl
      have hb2 : f.props b = true ∧ Props.deleteArcsMask b = true := by
        simp only at hb
        split at hb
        · simpa [Props.deleteTrs] using hb
        · simp only [Props.and_apply, Bool.and_eq_true] at hb
          refine ⟨hb.1, ?_⟩
          have := hb.2
          cases b <;> simp [Props.delTrsIdMask, Props.deleteArcsMask, Props.of_apply] at this ⊢
      exact hsub.holds_id (by simp [numStates]) b hb2.2 (h b hb2.1)

theorem acyclic_of_topSorted {f : Fst W} (h : f.Holds .topSorted) : f.Holds .acyclic := by
  simp only [Holds] at *
  rintro ⟨s, hs⟩
  have : ∀ a b, Relation.TransGen f.Edge a b → a < b := by
    intro a b hab
    induction hab with
    | single e => obtain ⟨t, ht, rfl⟩ := e; exact h _ _ ht
    | tail _ e ih => obtain ⟨t, ht, rfl⟩ := e; have := h _ _ ht; omega
  exact Nat.lt_irrefl _ (this s s hs)

theorem pairwise_append_last (l : List Nat) (x : Nat) (h : l.Pairwise (· ≤ ·)) (hl : ∀ y, l.getLast? = some y → y ≤ x) :
    (l ++ [x]).Pairwise (· ≤ ·) := by
  rw [List.pairwise_append]
  refine ⟨h, by simp, ?_⟩
  intro a ha b hb
  simp only [List.mem_singleton] at hb
  subst hb
  cases hc : l.getLast? with
  | none => simp at hc; simp [hc] at ha
  | some y =>
    have := hl y hc
    obtain ⟨ys, hy⟩ : ∃ ys, l = ys ++ [y] := by
      rw [List.getLast?_eq_some_iff] at hc; exact hc
    subst hy
    rw [List.pairwise_append] at h
    simp only [List.mem_append, List.mem_singleton] at ha
    rcases ha with ha | ha
    · exact Nat.le_trans (h.2.2 a ha y (by simp)) this
    · subst ha; exact this

/-- `add_tr_properties` before its last test. -/
def addTrPre (p : Props) (s : Nat) (t : Tr W) (prev : Option (Tr W)) : Props :=
  let p := Props.flipIf (t.ilabel != t.olabel) p .notAcceptor .acceptor
  let p := Props.flipIf (t.ilabel == EPS) p .iEpsilons .noIEpsilons
  let p := Props.flipIf (t.ilabel == EPS && t.olabel == EPS) p .epsilons .noEpsilons
  let p := Props.flipIf (t.olabel == EPS) p .oEpsilons .noOEpsilons
  let p := match prev with
    | some q =>
      let p := Props.flipIf (decide (q.ilabel > t.ilabel)) p .notILabelSorted .iLabelSorted
      Props.flipIf (decide (q.olabel > t.olabel)) p .notOLabelSorted .oLabelSorted
    | none => p
  let p := Props.flipIf (nontrivialW t.weight) p .weighted .unweighted
  let p := Props.flipIf (decide (t.nextstate ≤ s)) p .notTopSorted .topSorted
  p.and (Props.addArcMask.or (Props.of [.acceptor, .noEpsilons, .noIEpsilons, .noOEpsilons, .iLabelSorted,
    .oLabelSorted, .unweighted, .topSorted]))

theorem addTr_eq_pre (p : Props) (s : Nat) (t : Tr W) (prev) : Props.addTr p s t prev =
    if (addTrPre p s t prev).has .topSorted then (addTrPre p s t prev).or (Props.of [.acyclic, .initialAcyclic])
    else addTrPre p s t prev := rfl

theorem flipIf_iff (c : Bool) (p : Props) (y n x) :
    Props.flipIf c p y n x = true ↔ (p x = true ∨ (c = true ∧ x = y)) ∧ ¬ (c = true ∧ x = n) := by
  rw [Props.flipIf_apply]; cases c <;> simp

theorem truthful_addTr {f : Fst W} (h : f.Truthful) {s} (hl : s < f.numStates) (t : Tr W) : (f.addTr s t).Truthful := by
  have htr : ∀ q, (f.addTr s t).trsOf q = if q = s then f.trsOf s ++ [t] else f.trsOf q := by
    intro q; rw [addTr_trsOf]; simp [hl]
  have hmem : ∀ q x, x ∈ (f.addTr s t).trsOf q ↔ x ∈ f.trsOf q ∨ (q = s ∧ x = t) := by
    intro q x; rw [htr]
    split
    · rename_i e; subst e; simp
    · rename_i e; simp [e]
  have hsub : Sub f (f.addTr s t) id := sub_id rfl (fun q => by
      rw [htr]; split
      · rename_i e; subst e; exact List.sublist_append_left _ _
      · exact List.Sublist.refl _) (fun q => (addTr_finOf f s t q).symm)
  have hr : ∀ {a b}, f.Reach a b → (f.addTr s t).Reach a b := fun e => hsub.reach e
  have ht : t ∈ (f.addTr s t).trsOf s := (hmem s t).2 (Or.inr ⟨rfl, rfl⟩)
  have hold : ∀ {q x}, x ∈ f.trsOf q → x ∈ (f.addTr s t).trsOf q := fun hx => (hmem _ _).2 (Or.inl hx)
  have hlast : ∀ (sel : Tr W → Nat) y, ((f.trsOf s).map sel).getLast? = some y →
      ∃ q, (f.trsOf s).getLast? = some q ∧ sel q = y := by
    intro sel y hy
    simpa [List.getLast?_map] using hy
  -- the sortedness part
  have hsort : ∀ (sel : Tr W → Nat), (∀ q, ((f.trsOf q).map sel).Pairwise (· ≤ ·)) →
      (∀ q, (f.trsOf s).getLast? = some q → sel q ≤ sel t) →
      ∀ q, (((f.addTr s t).trsOf q).map sel).Pairwise (· ≤ ·) := by
    intro sel h1 h2 q
    rw [htr]
    split
    · rw [List.map_append, List.map_singleton]
      apply pairwise_append_last _ _ (h1 s)
      intro y hy
      obtain ⟨q', hq', rfl⟩ := hlast sel y hy
      exact h2 q' hq'
    · exact h1 q
  have hunsort : ∀ (sel : Tr W → Nat) q', (f.trsOf s).getLast? = some q' → sel q' > sel t →
      ¬ ∀ q, (((f.addTr s t).trsOf q).map sel).Pairwise (· ≤ ·) := by
    intro sel q' hq' hgt hc
    have := hc s
    rw [htr, if_pos rfl, List.map_append, List.map_singleton, List.pairwise_append] at this
    have := this.2.2 (sel q') (List.mem_map.2 ⟨q', List.mem_of_getLast? hq', rfl⟩) (sel t) (by simp)
    omega
  -- first for the flags before the last step
  have main : ∀ b, f.props b = true → (Props.addArcMask.or (Props.of [.acceptor, .noEpsilons, .noIEpsilons,
      .noOEpsilons, .iLabelSorted, .oLabelSorted, .unweighted, .topSorted])) b = true →
      (b = .acceptor → t.ilabel = t.olabel) → (b = .noIEpsilons → t.ilabel ≠ EPS) →
      (b = .noEpsilons → ¬ (t.ilabel = EPS ∧ t.olabel = EPS)) → (b = .noOEpsilons → t.olabel ≠ EPS) →
      (b = .iLabelSorted → ∀ q, (f.trsOf s).getLast? = some q → q.ilabel ≤ t.ilabel) →
      (b = .oLabelSorted → ∀ q, (f.trsOf s).getLast? = some q → q.olabel ≤ t.olabel) →
      (b = .unweighted → TrivialW t.weight) → (b = .topSorted → s < t.nextstate) → (f.addTr s t).Holds b := by
    intro b hb hm c1 c2 c3 c4 c5 c6 c7 c8
    have hf := h b hb
    cases b <;> first
      | (simp [Props.addArcMask, Props.of_apply] at hm; done)
      | simp only [Holds] at hf ⊢
    · intro q x hx
      rcases (hmem q x).1 hx with h1 | ⟨-, rfl⟩
      · exact hf q x h1
      · exact c1 rfl
    · intro hc; exact hf fun q x hx => hc q x (hold hx)
    · intro hc; exact hf fun q => (hc q).sublist (hsub.labels (·.ilabel) (fun _ _ => rfl) q)
    · intro hc; exact hf fun q => (hc q).sublist (hsub.labels (·.olabel) (fun _ _ => rfl) q)
    · obtain ⟨q, x, hx, he⟩ := hf; exact ⟨q, x, hold hx, he⟩
    · rintro ⟨q, x, hx, he⟩
      rcases (hmem q x).1 hx with h1 | ⟨-, rfl⟩
      · exact hf ⟨q, x, h1, he⟩
      · exact c3 rfl he
    · obtain ⟨q, x, hx, he⟩ := hf; exact ⟨q, x, hold hx, he⟩
    · rintro ⟨q, x, hx, he⟩
      rcases (hmem q x).1 hx with h1 | ⟨-, rfl⟩
      · exact hf ⟨q, x, h1, he⟩
      · exact c2 rfl he
    · obtain ⟨q, x, hx, he⟩ := hf; exact ⟨q, x, hold hx, he⟩
    · rintro ⟨q, x, hx, he⟩
      rcases (hmem q x).1 hx with h1 | ⟨-, rfl⟩
      · exact hf ⟨q, x, h1, he⟩
      · exact c4 rfl he
    · exact hsort _ hf (c5 rfl)
    · intro hc; exact hf fun q => (hc q).sublist (hsub.labels (·.ilabel) (fun _ _ => rfl) q)
    · exact hsort _ hf (c6 rfl)
    · intro hc; exact hf fun q => (hc q).sublist (hsub.labels (·.olabel) (fun _ _ => rfl) q)
    · intro hc; apply hf
      exact ⟨fun q x hx => hc.1 q x (hold hx), fun q w hw => hc.2 q w (by simpa using hw)⟩
    · refine ⟨fun q x hx => ?_, fun q w hw => hf.2 q w (by simpa using hw)⟩
      rcases (hmem q x).1 hx with h1 | ⟨-, rfl⟩
      · exact hf.1 q x h1
      · exact c7 rfl
    · obtain ⟨q, hq⟩ := hf; exact ⟨q, hsub.cycle hq⟩
    · obtain ⟨i, hi, hq⟩ := hf; exact ⟨i, hi, hsub.cycle hq⟩
    · intro q x hx
      rcases (hmem q x).1 hx with h1 | ⟨rfl, rfl⟩
      · exact hf q x h1
      · exact c8 rfl
    · intro hc; exact hf fun q x hx => hc q x (hold hx)
    · intro q hq
      obtain ⟨i, hi, hri⟩ := hf q (by simpa using hq)
      exact ⟨i, hi, hr hri⟩
    · intro q hq
      obtain ⟨i, hi, hri⟩ := hf q (by simpa using hq)
      refine ⟨i, hr hi, ?_⟩
      simpa [IsFinal] using hri
    · obtain ⟨q, x, hx, hw, hrx⟩ := hf
      exact ⟨q, x, hold hx, hw, hr hrx⟩
  have hyes : ∀ b, (b = .notAcceptor ∧ t.ilabel ≠ t.olabel) ∨ (b = .iEpsilons ∧ t.ilabel = EPS) ∨
      (b = .epsilons ∧ t.ilabel = EPS ∧ t.olabel = EPS) ∨ (b = .oEpsilons ∧ t.olabel = EPS) ∨
      (b = .notILabelSorted ∧ ∃ q, (f.trsOf s).getLast? = some q ∧ q.ilabel > t.ilabel) ∨
      (b = .notOLabelSorted ∧ ∃ q, (f.trsOf s).getLast? = some q ∧ q.olabel > t.olabel) ∨
      (b = .weighted ∧ ¬ TrivialW t.weight) ∨ (b = .notTopSorted ∧ t.nextstate ≤ s) → (f.addTr s t).Holds b := by
    intro b hb
    rcases hb with ⟨rfl, h1⟩ | ⟨rfl, h1⟩ | ⟨rfl, h1⟩ | ⟨rfl, h1⟩ | ⟨rfl, q, h1, h2⟩ | ⟨rfl, q, h1, h2⟩ | ⟨rfl, h1⟩ | ⟨rfl, h1⟩
    · intro hc; exact h1 (hc s t ht)
    · exact ⟨s, t, ht, h1⟩
    · exact ⟨s, t, ht, h1⟩
    · exact ⟨s, t, ht, h1⟩
    · exact hunsort (·.ilabel) q h1 h2
    · exact hunsort (·.olabel) q h1 h2
    · intro hc; exact h1 (hc.1 s t ht)
    · intro hc; have := hc s t ht; omega
  have pre : ∀ b, (addTrPre f.props s t (f.trsOf s).getLast?) b = true → (f.addTr s t).Holds b := by
    intro b hb
    have hmain := main b
    have hy := hyes b
    generalize (f.addTr s t).Holds b = H at hmain hy ⊢
    clear main hyes hunsort hsort hlast hr hold hmem hsub ht htr
    revert hb
    cases hlst : (f.trsOf s).getLast? with
    | none =>
      rw [hlst] at hmain hy
      intro hb
      simp only [addTrPre, Props.and_apply, Bool.and_eq_true, flipIf_iff] at hb
      cases b <;> simp [nontrivialW_iff, Props.addArcMask, Props.of_apply] at hb hmain hy <;> tauto
    | some q =>
      rw [hlst] at hmain hy
      intro hb
      simp only [addTrPre, Props.and_apply, Bool.and_eq_true, flipIf_iff] at hb
      cases b <;> simp [nontrivialW_iff, Props.addArcMask, Props.of_apply] at hb hmain hy <;> tauto
  intro b hb
  have hb' : (Props.addTr f.props s t (f.trsOf s).getLast?) b = true := hb
  rw [addTr_eq_pre] at hb'
  split at hb'
  · rename_i hts
    simp only [Props.or_apply, Bool.or_eq_true] at hb'
    rcases hb' with hb' | hb'
    · exact pre b hb'
    · have h1 := acyclic_of_topSorted (pre _ hts)
      simp [Props.of_apply] at hb'
      rcases hb' with rfl | rfl
      · exact h1
      · rintro ⟨i, -, hi⟩; exact h1 ⟨i, hi⟩
  · exact pre b hb'

/-- What flags may be set after transition `t` was replaced by `t'`. -/
def UpdOk (p : Props) (t t' : Tr W) : PropBit → Prop
  | .acceptor => p .acceptor = true ∧ t'.ilabel = t'.olabel
  | .notAcceptor => t'.ilabel ≠ t'.olabel ∨ (p .notAcceptor = true ∧ t.ilabel = t.olabel)
  | .epsilons => (t'.ilabel = EPS ∧ t'.olabel = EPS) ∨ (p .epsilons = true ∧ ¬ (t.ilabel = EPS ∧ t.olabel = EPS))
  | .noEpsilons => p .noEpsilons = true ∧ ¬ (t'.ilabel = EPS ∧ t'.olabel = EPS)
  | .iEpsilons => t'.ilabel = EPS ∨ (p .iEpsilons = true ∧ t.ilabel ≠ EPS)
  | .noIEpsilons => p .noIEpsilons = true ∧ t'.ilabel ≠ EPS
  | .oEpsilons => t'.olabel = EPS ∨ (p .oEpsilons = true ∧ t.olabel ≠ EPS)
  | .noOEpsilons => p .noOEpsilons = true ∧ t'.olabel ≠ EPS
  | .weighted => ¬ TrivialW t'.weight ∨ (p .weighted = true ∧ TrivialW t.weight)
  | .unweighted => p .unweighted = true ∧ TrivialW t'.weight
  | _ => False

theorem truthful_replaceTr {f : Fst W} (h : f.Truthful) {s idx t t' gi go p} (ht : (f.trsOf s)[idx]? = some t)
    (hp : ∀ b, p b = true → UpdOk f.props t t' b) : (f.replaceTr s idx t' gi go p).Truthful := by
  have hmem : ∀ q x, x ∈ (f.replaceTr s idx t' gi go p).trsOf q → x ∈ f.trsOf q ∨ x = t' := by
    intro q x hx
    rw [replaceTr_trsOf] at hx
    split at hx
    · rename_i e; subst e
      exact List.mem_or_eq_of_mem_set hx
    · exact Or.inl hx
  have hidx : idx < (f.trsOf s).length := (List.getElem?_eq_some_iff.1 ht).1
  have ht' : t' ∈ (f.replaceTr s idx t' gi go p).trsOf s := by
    rw [replaceTr_trsOf, if_pos rfl]
    exact List.mem_set hidx t'
  have hkeep : ∀ q x, x ∈ f.trsOf q → x ∈ (f.replaceTr s idx t' gi go p).trsOf q ∨ x = t := by
    intro q x hx
    rw [replaceTr_trsOf]
    split
    · rename_i e; subst e
      obtain ⟨i, hi, he⟩ := List.mem_iff_getElem.1 hx
      by_cases hii : idx = i
      · subst hii
        right
        rw [List.getElem?_eq_getElem hi] at ht
        rw [← he]; exact Option.some.inj ht
      · left
        refine List.mem_iff_getElem.2 ⟨i, by simpa using hi, ?_⟩
        rw [List.getElem_set_ne hii]; exact he
    · exact Or.inl hx
  intro b hb
  have hu := hp b hb
  cases b <;> simp only [UpdOk] at hu
  · have hf := h _ hu.1
    intro q x hx
    rcases hmem q x hx with h1 | rfl
    · exact hf q x h1
    · exact hu.2
  · intro hc
    rcases hu with hu | ⟨h1, h2⟩
    · exact hu (hc s t' ht')
    · refine h _ h1 fun q x hx => ?_
      rcases hkeep q x hx with h3 | rfl
      · exact hc q x h3
      · exact h2
  · rcases hu with hu | ⟨h1, h2⟩
    · exact ⟨s, t', ht', hu⟩
    · obtain ⟨q, x, hx, he⟩ := h _ h1
      rcases hkeep q x hx with h3 | rfl
      · exact ⟨q, x, h3, he⟩
      · exact absurd he h2
  · have hf := h _ hu.1
    rintro ⟨q, x, hx, he⟩
    rcases hmem q x hx with h1 | rfl
    · exact hf ⟨q, x, h1, he⟩
    · exact hu.2 he
  · rcases hu with hu | ⟨h1, h2⟩
    · exact ⟨s, t', ht', hu⟩
    · obtain ⟨q, x, hx, he⟩ := h _ h1
      rcases hkeep q x hx with h3 | rfl
      · exact ⟨q, x, h3, he⟩
      · exact absurd he h2
  · have hf := h _ hu.1
    rintro ⟨q, x, hx, he⟩
    rcases hmem q x hx with h1 | rfl
    · exact hf ⟨q, x, h1, he⟩
    · exact hu.2 he
  · rcases hu with hu | ⟨h1, h2⟩
    · exact ⟨s, t', ht', hu⟩
    · obtain ⟨q, x, hx, he⟩ := h _ h1
      rcases hkeep q x hx with h3 | rfl
      · exact ⟨q, x, h3, he⟩
      · exact absurd he h2
  · have hf := h _ hu.1
    rintro ⟨q, x, hx, he⟩
    rcases hmem q x hx with h1 | rfl
    · exact hf ⟨q, x, h1, he⟩
    · exact hu.2 he
  · intro hc
    rcases hu with hu | ⟨h1, h2⟩
    · exact hu (hc.1 s t' ht')
    · refine h _ h1 ⟨fun q x hx => ?_, fun q w hw => hc.2 q w (by simpa using hw)⟩
      rcases hkeep q x hx with h3 | rfl
      · exact hc.1 q x h3
      · exact h2
  · have hf := h _ hu.1
    refine ⟨fun q x hx => ?_, fun q w hw => hf.2 q w (by simpa using hw)⟩
    rcases hmem q x hx with h1 | rfl
    · exact hf.1 q x h1
    · exact hu.2

theorem clearIf_iff (c : Bool) (p : Props) (n x) :
    Props.clearIf c p n x = true ↔ p x = true ∧ ¬ (c = true ∧ x = n) := by
  cases c <;> simp [Props.clearIf]

theorem updOk_newAll (p : Props) (t t' : Tr W) (b) (hb : Props.newAll p t t' b = true) : UpdOk p t t' b := by
  simp only [Props.newAll, Props.keepRelevant, Props.updWeights, Props.updLabels, Props.setArcMask, Props.and_apply,
    Props.or_apply, Props.empty_apply, Bool.false_or, Bool.and_eq_true, flipIf_iff, clearIf_iff] at hb
  cases b <;> simp [nontrivialW_iff, Props.of_apply] at hb <;> simp only [UpdOk] <;> tauto

theorem oldOk {f : Fst W} (h : f.Truthful) {s} {t : Tr W} (ht : t ∈ f.trsOf s) :
    (f.props .acceptor = true → t.ilabel = t.olabel) ∧
    (f.props .noEpsilons = true → ¬ (t.ilabel = EPS ∧ t.olabel = EPS)) ∧
    (f.props .noIEpsilons = true → t.ilabel ≠ EPS) ∧ (f.props .noOEpsilons = true → t.olabel ≠ EPS) ∧
    (f.props .unweighted = true → TrivialW t.weight) :=
  ⟨fun hb => h _ hb s t ht, fun hb he => h _ hb ⟨s, t, ht, he⟩, fun hb he => h _ hb ⟨s, t, ht, he⟩,
   fun hb he => h _ hb ⟨s, t, ht, he⟩, fun hb => (h _ hb).1 s t ht⟩

theorem updOk_newLabels {f : Fst W} (h : f.Truthful) {s} {t : Tr W} (ht : t ∈ f.trsOf s) (il ol b)
    (hb : Props.newLabels f.props t.ilabel t.olabel il ol b = true) :
    UpdOk f.props t { t with ilabel := il, olabel := ol } b := by
  have ho := oldOk h ht
  generalize f.props = p at *
  clear h ht
  simp only [Props.newLabels, Props.keepRelevant, Props.updLabels, Props.setArcMask, Props.and_apply,
    Props.or_apply, Props.empty_apply, Bool.false_or, Bool.and_eq_true, flipIf_iff, clearIf_iff] at hb
  cases b <;> simp [Props.of_apply] at hb <;> simp only [UpdOk] <;>
    (try generalize TrivialW t.weight = A at *) <;> tauto

theorem updOk_newWeights {f : Fst W} (h : f.Truthful) {s} {t : Tr W} (ht : t ∈ f.trsOf s) (w b)
    (hb : Props.newWeights f.props t.weight w b = true) : UpdOk f.props t { t with weight := w } b := by
  have ho := oldOk h ht
  generalize f.props = p at *
  clear h ht
  simp only [Props.newWeights, Props.keepRelevant, Props.updWeights, Props.setArcMask, Props.and_apply,
    Props.or_apply, Props.empty_apply, Bool.false_or, Bool.and_eq_true, flipIf_iff, clearIf_iff] at hb
  cases b <;> simp [nontrivialW_iff, Props.of_apply] at hb <;> simp only [UpdOk] <;> tauto

theorem updOk_keep {f : Fst W} (h : f.Truthful) {s} {t : Tr W} (ht : t ∈ f.trsOf s) (q b)
    (hb : Props.keepRelevant f.props b = true) : UpdOk f.props t { t with nextstate := q } b := by
  have ho := oldOk h ht
  generalize f.props = p at *
  clear h ht
  simp only [Props.keepRelevant, Props.setArcMask, Props.and_apply,
    Props.or_apply, Props.empty_apply, Bool.false_or, Bool.and_eq_true] at hb
  cases b <;> simp [Props.of_apply] at hb <;> simp only [UpdOk] <;>
    (try generalize TrivialW t.weight = A at *) <;> tauto

/-- Adding transitions one by one. -/
def addTrs (f : Fst W) (s : Nat) (ts : List (Tr W)) : Fst W := ts.foldl (fun g t => g.addTr s t) f

theorem addTrs_spec (ts : List (Tr W)) : ∀ (f : Fst W) {s : Nat}, f.Truthful → s < f.numStates →
    (addTrs f s ts).Truthful ∧ (addTrs f s ts).numStates = f.numStates ∧ (addTrs f s ts).start = f.start ∧
    (∀ q, (addTrs f s ts).finOf q = f.finOf q) ∧
    (∀ q, (addTrs f s ts).trsOf q = if q = s then f.trsOf s ++ ts else f.trsOf q) ∧
    (addTrs f s ts).props = foldAddTrProps f.props s (f.trsOf s).getLast? ts := by
  induction ts with
  | nil => intro f s h hl; refine ⟨h, rfl, rfl, fun _ => rfl, fun q => ?_, rfl⟩; split <;> simp_all [addTrs]
  | cons t ts ih =>
    intro f s h hl
    have h1 := ih (f.addTr s t) (truthful_addTr h hl t) (by simpa using hl)
    have e : addTrs f s (t :: ts) = addTrs (f.addTr s t) s ts := rfl
    rw [e]
    have e2 : (f.addTr s t).trsOf s = f.trsOf s ++ [t] := by rw [addTr_trsOf]; simp [hl]
    refine ⟨h1.1, by simpa using h1.2.1, h1.2.2.1, fun q => by rw [h1.2.2.2.1]; simp, fun q => ?_, ?_⟩
    · rw [h1.2.2.2.2.1]
      split
      · rw [e2]; simp
      · rename_i hq; rw [addTr_trsOf]; simp [hq]
    · rw [h1.2.2.2.2.2, e2]
      simp [foldAddTrProps, addTr]

theorem truthful_setTrs {f : Fst W} (h : f.Truthful) {s} (hl : s < f.numStates) (he : f.trsOf s = []) (ts) :
    (f.setTrs s ts).Truthful := by
  obtain ⟨h1, h2, h3, h4, h5, h6⟩ := addTrs_spec ts f h hl
  intro b hb
  have hb' : (addTrs f s ts).props b = true := by rw [h6, he]; exact hb
  refine (holds_congr (f := addTrs f s ts) (g := f.setTrs s ts) ?_ ?_ ?_ ?_ b).2 (h1 b hb')
  · rw [h2]; simp
  · rw [h3]; rfl
  · intro q; rw [h5, setTrs_trsOf]; simp [hl, he]
  · intro q; rw [h4]; simp

end
end Fst
end Verif
