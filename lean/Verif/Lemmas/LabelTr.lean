import Verif.Lemmas.LabelPrefixIn
import Verif.Lemmas.LookTr

/-!
# When `TrLookAheadMatcher` finds a single transition
-/

namespace Verif
universe u

section
variable {W : Type u} [CommMonoidWithZero W] [Add W] [DecidableEq W]

theorem matches_count (fl : LaFlags) (t : Tr W) : ∀ (its : List (IterItem W)) (o : TrLook W), (its.foldl (trLookMatches fl t) o).nprefix = o.nprefix + its.length
  | [], _ => rfl
  | i :: its, o => by rw [List.foldl_cons, matches_count fl t its, List.length_cons]; simp only [trLookMatches]; omega

theorem matches_keep (fl : LaFlags) (t : Tr W) : ∀ (its : List (IterItem W)) (o : TrLook W), 1 ≤ o.nprefix → (its.foldl (trLookMatches fl t) o).data.prefixTr = o.data.prefixTr
  | [], _, _ => rfl
  | i :: its, o, h => by
    rw [List.foldl_cons, matches_keep fl t its _ (by simp only [trLookMatches]; omega)]
    have : o.nprefix ≠ 0 := by omega
    simp only [trLookMatches]
    cases fl.weight <;> simp [this]

theorem matches_first (fl : LaFlags) (hp : fl.prefixLa = true) (t : Tr W) (i : IterItem W) (its : List (IterItem W)) (o : TrLook W) (h : o.nprefix = 0) :
    ((i :: its).foldl (trLookMatches fl t) o).data.prefixTr = t := by
  rw [List.foldl_cons, matches_keep fl t its _ (by simp only [trLookMatches]; omega)]
  simp [trLookMatches, h, hp]

/-- Without both flags nothing is written. -/
theorem trLookLoop_same {fl : LaFlags} {M : Fst W} {input : Bool} (hM : Searchable M input) {s : StateId} (hs : s < M.numStates) (hb : (!(fl.weight && fl.prefixLa)) = true) :
    ∀ (ts : List (Tr W)) {o o' : TrLook W} {b}, trLookLoop fl M input s ts o = .ok (b, o') → o' = o
  | [], o, o', b, h => by simp only [trLookLoop, Except.ok.injEq, Prod.mk.injEq] at h; exact h.2.symm
  | t :: ts, o, o', b, h => by
    simp only [trLookLoop, hM.matchType] at h
    by_cases h0 : (if input = true then t.olabel else t.ilabel) = EPS
    · rw [if_pos h0, if_pos hb] at h
      simp only [Except.ok.injEq, Prod.mk.injEq] at h; exact h.2.symm
    · rw [if_neg h0, sortedIterR_ok hs] at h
      dsimp only at h
      generalize sortedIter input (M.trsOf s) (if input = true then t.olabel else t.ilabel) = its at h
      split at h
      · exact trLookLoop_same hM hs hb ts h
      · simp only [Except.ok.injEq, Prod.mk.injEq] at h; exact h.2.symm

/-- With both flags the loop goes to the end. -/
theorem trLookLoop_false {fl : LaFlags} {M : Fst W} {input : Bool} (hM : Searchable M input) {s : StateId} (hs : s < M.numStates) (hb : (!(fl.weight && fl.prefixLa)) = false) :
    ∀ (ts : List (Tr W)) (o o' : TrLook W), trLookLoop fl M input s ts o ≠ .ok (true, o')
  | [], o, o' => by simp [trLookLoop]
  | t :: ts, o, o' => by
    simp only [trLookLoop, hM.matchType]
    by_cases h0 : (if input = true then t.olabel else t.ilabel) = EPS
    · rw [if_pos h0, if_neg (by rw [hb]; simp)]
      exact trLookLoop_false hM hs hb ts _ _
    · rw [if_neg h0, sortedIterR_ok hs]
      dsimp only
      generalize sortedIter input (M.trsOf s) (if input = true then t.olabel else t.ilabel) = its
      split
      · exact trLookLoop_false hM hs hb ts _ _
      · rw [if_neg (by rw [hb]; simp)]
        exact trLookLoop_false hM hs hb ts _ _

/-- After a first match the count grows with every match and the transition stays. -/
theorem trLookLoop_later {fl : LaFlags} {M : Fst W} {input : Bool} (hM : Searchable M input) {s : StateId} (hs : s < M.numStates) (hb : (!(fl.weight && fl.prefixLa)) = false) :
    ∀ (ts : List (Tr W)) {o o' : TrLook W} {b}, trLookLoop fl M input s ts o = .ok (b, o') → 1 ≤ o.nprefix →
      b = false ∧ o.nprefix ≤ o'.nprefix ∧ o'.data.prefixTr = o.data.prefixTr ∧
      (o'.nprefix = o.nprefix → ∀ t ∈ ts, t.labelOn (!input) = EPS ∨ sortedIter input (M.trsOf s) (t.labelOn (!input)) = [])
  | [], o, o', b, h, _ => by
    simp only [trLookLoop, Except.ok.injEq, Prod.mk.injEq] at h
    obtain ⟨rfl, rfl⟩ := h
    exact ⟨rfl, le_rfl, rfl, fun _ => by simp⟩
  | t :: ts, o, o', b, h, h1 => by
    have el : (if input = true then t.olabel else t.ilabel) = t.labelOn (!input) := by cases input <;> rfl
    simp only [trLookLoop, hM.matchType, el] at h
    by_cases h0 : t.labelOn (!input) = EPS
    · rw [if_pos h0, if_neg (by rw [hb]; simp)] at h
      have hn : o.nprefix ≤ (if !fl.nonEpsPrefix then o.nprefix + 1 else o.nprefix) := by split <;> omega
      obtain ⟨k1, k2, k3, k4⟩ := trLookLoop_later hM hs hb ts h (le_trans h1 hn)
      refine ⟨k1, le_trans hn k2, k3.trans (by dsimp only; split <;> rfl), fun e u hu => ?_⟩
      rcases List.mem_cons.1 hu with rfl | hu
      · exact .inl h0
      · exact k4 (le_antisymm (e ▸ hn) k2) u hu
    · rw [if_neg h0, sortedIterR_ok hs] at h
      dsimp only at h
      by_cases hi : (sortedIter input (M.trsOf s) (t.labelOn (!input))).isEmpty = true
      · rw [if_pos hi] at h
        obtain ⟨k1, k2, k3, k4⟩ := trLookLoop_later hM hs hb ts h h1
        refine ⟨k1, k2, k3, fun e u hu => ?_⟩
        rcases List.mem_cons.1 hu with rfl | hu
        · exact .inr (List.isEmpty_iff.1 hi)
        · exact k4 e u hu
      · rw [if_neg hi, if_neg (by rw [hb]; simp)] at h
        have hl : 1 ≤ (sortedIter input (M.trsOf s) (t.labelOn (!input))).length := by
          rw [List.isEmpty_iff, ← List.length_eq_zero_iff] at hi; omega
        have hc := matches_count fl t (sortedIter input (M.trsOf s) (t.labelOn (!input))) o
        obtain ⟨k1, k2, k3, -⟩ := trLookLoop_later hM hs hb ts h (by dsimp only; omega)
        dsimp only at k2 k3
        exact ⟨k1, by omega, k3.trans (matches_keep fl t _ o h1), fun e => by omega⟩

/-- A single match and its transition. -/
theorem trLookLoop_first {fl : LaFlags} {M : Fst W} {input : Bool} (hM : Searchable M input) {s : StateId} (hs : s < M.numStates) (hb : (!(fl.weight && fl.prefixLa)) = false) :
    ∀ (ts : List (Tr W)) {o o' : TrLook W} {b}, trLookLoop fl M input s ts o = .ok (b, o') → o.nprefix = 0 → o.data.prefixTr.nextstate = NO_STATE_ID → o'.nprefix = 1 →
      o'.data.prefixTr.nextstate ≠ NO_STATE_ID →
      o'.data.prefixTr.labelOn (!input) ≠ EPS ∧
      ∃ x y, ts = x ++ o'.data.prefixTr :: y ∧ ∀ t ∈ x ++ y, t.labelOn (!input) = EPS ∨ sortedIter input (M.trsOf s) (t.labelOn (!input)) = []
  | [], o, o', b, h, h1, h2, h3, h4 => by
    simp only [trLookLoop, Except.ok.injEq, Prod.mk.injEq] at h
    obtain ⟨rfl, rfl⟩ := h
    exact absurd h2 h4
  | t :: ts, o, o', b, h, h1, h2, h3, h4 => by
    have el : (if input = true then t.olabel else t.ilabel) = t.labelOn (!input) := by cases input <;> rfl
    simp only [trLookLoop, hM.matchType, el] at h
    have next : (t.labelOn (!input) = EPS ∨ sortedIter input (M.trsOf s) (t.labelOn (!input)) = []) →
        (∃ x y, ts = x ++ o'.data.prefixTr :: y ∧ ∀ t ∈ x ++ y, t.labelOn (!input) = EPS ∨ sortedIter input (M.trsOf s) (t.labelOn (!input)) = []) →
        ∃ x y, t :: ts = x ++ o'.data.prefixTr :: y ∧ ∀ t ∈ x ++ y, t.labelOn (!input) = EPS ∨ sortedIter input (M.trsOf s) (t.labelOn (!input)) = [] := by
      rintro ht ⟨x, y, e, k⟩
      refine ⟨t :: x, y, by rw [e]; rfl, fun u hu => ?_⟩
      rcases List.mem_cons.1 hu with rfl | hu
      · exact ht
      · exact k u hu
    by_cases h0 : t.labelOn (!input) = EPS
    · rw [if_pos h0, if_neg (by rw [hb]; simp)] at h
      have hd : ∀ w : W, (if fl.weight = true then { o.data with weight := w } else o.data).prefixTr = o.data.prefixTr := fun w => by split <;> rfl
      by_cases hp : (!fl.nonEpsPrefix) = true
      · rw [if_pos hp] at h
        obtain ⟨-, -, k3, -⟩ := trLookLoop_later hM hs hb ts h (by dsimp only; omega)
        rw [k3, hd] at h4
        exact absurd h2 h4
      · rw [if_neg hp] at h
        obtain ⟨k1, k2⟩ := trLookLoop_first hM hs hb ts h h1 (by rw [hd]; exact h2) h3 h4
        exact ⟨k1, next (.inl h0) k2⟩
    · rw [if_neg h0, sortedIterR_ok hs] at h
      dsimp only at h
      by_cases hi : (sortedIter input (M.trsOf s) (t.labelOn (!input))).isEmpty = true
      · rw [if_pos hi] at h
        obtain ⟨k1, k2⟩ := trLookLoop_first hM hs hb ts h h1 h2 h3 h4
        exact ⟨k1, next (.inr (List.isEmpty_iff.1 hi)) k2⟩
      · rw [if_neg hi, if_neg (by rw [hb]; simp)] at h
        have hl : 1 ≤ (sortedIter input (M.trsOf s) (t.labelOn (!input))).length := by
          rw [List.isEmpty_iff, ← List.length_eq_zero_iff] at hi; omega
        have hc := matches_count fl t (sortedIter input (M.trsOf s) (t.labelOn (!input))) o
        obtain ⟨-, k2, k3, k4⟩ := trLookLoop_later hM hs hb ts h (by dsimp only; omega)
        dsimp only at k2 k3 k4
        have e : o'.data.prefixTr = t := by
          rw [k3]
          cases hits : sortedIter input (M.trsOf s) (t.labelOn (!input)) with
          | nil => rw [hits] at hl; simp at hl
          | cons i its => exact matches_first fl (by cases hq : fl.prefixLa; · rw [hq] at hb; simp at hb
                                                     · rfl) t i its o h1
        rw [e]
        exact ⟨h0, [], ts, rfl, k4 (by omega)⟩

theorem trLookRest_prefix {fl : LaFlags} {M L : Fst W} {input : Bool} (hM : Searchable M input) {s ls : StateId} (hs : s < M.numStates) (hls : ls < L.numStates) {o : TrLook W} {d : LaData W}
    (h : trLookRest fl M input s L ls o = .ok (some d)) (ho : o.data.prefixTr.nextstate = NO_STATE_ID) (hd : d.prefixTr.nextstate ≠ NO_STATE_ID) :
    o.nprefix = 0 ∧ d.weight = 1 ∧ d.prefixTr.labelOn (!input) ≠ EPS ∧
      ∃ x y, L.trsOf ls = x ++ d.prefixTr :: y ∧ ∀ t ∈ x ++ y, t.labelOn (!input) = EPS ∨ sortedIter input (M.trsOf s) (t.labelOn (!input)) = [] := by
  have ht : L.getTrsR ls = .ok (L.trsOf ls) := by
    have : L.states[ls]? = some L.states[ls] := List.getElem?_eq_getElem hls
    simp [Fst.getTrsR, Fst.trsOf, this]
  obtain ⟨b, o', e, -⟩ := trLookLoop_spec (fl := fl) hM hs (L.trsOf ls) o
  simp only [trLookRest, ht, e] at h
  by_cases hb : (!(fl.weight && fl.prefixLa)) = true
  · exfalso
    have eo := trLookLoop_same hM hs hb _ e
    subst eo
    cases b with
    | true =>
      simp only [Except.ok.injEq, Option.some.injEq] at h
      exact hd (by rw [← h]; exact ho)
    | false =>
      simp only [Except.ok.injEq] at h
      split at h
      · rw [Option.some.injEq] at h
        apply hd
        rw [← h]
        split
        · split
          · exact ho
          · rfl
        · exact ho
      · cases h
  · have hb : (!(fl.weight && fl.prefixLa)) = false := by simpa using hb
    have hp : fl.prefixLa = true := by cases hq : fl.prefixLa; · rw [hq] at hb; simp at hb
                                       · rfl
    cases b with
    | true =>
      simp only [Except.ok.injEq, Option.some.injEq] at h
      exact absurd e (trLookLoop_false hM hs hb _ _ _)
    | false =>
      simp only [Except.ok.injEq, hp, if_true] at h
      by_cases hn : o'.nprefix = 1
      · rw [if_pos hn] at h
        split at h
        · rw [Option.some.injEq] at h
          subst h
          by_cases h1 : 1 ≤ o.nprefix
          · have := (trLookLoop_later hM hs hb _ e h1).2.2.1
            exact absurd (by rw [← ho, ← this]) hd
          · have h1 : o.nprefix = 0 := by omega
            exact ⟨h1, rfl, trLookLoop_first hM hs hb _ e h1 ho hn hd⟩
        · cases h
      · rw [if_neg hn] at h
        split at h
        · rw [Option.some.injEq] at h
          subst h
          exact absurd rfl hd
        · cases h

/-- A transition found by the look ahead is the only one that matches; the matcher's FST has no ε-transition there and the two do not both end. -/
theorem trLook_prefix {fl : LaFlags} {M L : Fst W} {input : Bool} (hM : Searchable M input) {s ls : StateId} (hs : s < M.numStates) (hls : ls < L.numStates) {d : LaData W}
    (h : trLook fl M input s L ls = .ok (some d)) (hd : d.prefixTr.nextstate ≠ NO_STATE_ID) :
    d.weight = 1 ∧ d.prefixTr.labelOn (!input) ≠ EPS ∧ (∀ t ∈ M.trsOf s, t.labelOn input ≠ EPS) ∧
      (∃ x y, L.trsOf ls = x ++ d.prefixTr :: y ∧ ∀ t ∈ x ++ y, t.labelOn (!input) = EPS ∨ sortedIter input (M.trsOf s) (t.labelOn (!input)) = []) ∧
      ∀ w w', M.finOf s = some w → L.finOf ls = some w' → w = 0 ∨ w' = 0 := by
  obtain ⟨fin, hfin, hf⟩ : ∃ fin, bothFinal M L s ls = .ok fin ∧ (fin = false → ∀ w w', M.finOf s = some w → L.finOf ls = some w' → w = 0 ∨ w' = 0) := by
    have e1 : M.states[s]? = some M.states[s] := List.getElem?_eq_getElem hs
    have e2 : L.states[ls]? = some L.states[ls] := List.getElem?_eq_getElem hls
    simp only [bothFinal, Fst.isFinalR, Fst.finOf, e1, e2, Option.bind_some, Option.map_some]
    cases M.states[s].fin with
    | none => exact ⟨_, rfl, by simp⟩
    | some w =>
      by_cases h0 : w = 0
      · subst h0
        refine ⟨false, by simp [isZeroW], by simp +contextual⟩
      · simp only [isZeroW, h0, decide_false, Bool.not_false]
        refine ⟨_, rfl, ?_⟩
        cases L.states[ls].fin with
        | none => simp
        | some w' => simp +contextual [isZeroW, h0]
  have hdef : ∀ w : W, (if fl.weight = true then { LaData.default with weight := w } else (LaData.default : LaData W)).prefixTr.nextstate = NO_STATE_ID := fun w => by split <;> rfl
  simp only [trLook, hfin, sortedIterR_ok hs] at h
  obtain ⟨o, ho⟩ : ∃ o : TrLook W, o = (if fin = true then ⟨true, 1, if fl.weight then { LaData.default with weight := 1 + ((M.finOf s).getD 0) * ((L.finOf ls).getD 0) } else .default⟩
      else ⟨false, 0, .default⟩) := ⟨_, rfl⟩
  rw [← ho] at h
  have ho' : o.data.prefixTr.nextstate = NO_STATE_ID := by
    rw [ho]; split
    · exact hdef _
    · rfl
  by_cases hret : (fin && !(fl.weight && fl.prefixLa)) = true
  · rw [if_pos hret, Except.ok.injEq, Option.some.injEq] at h
    subst h
    exact absurd rfl hd
  · rw [if_neg hret] at h
    by_cases hi : (sortedIter input (M.trsOf s) NO_LABEL).isEmpty = true
    · rw [if_pos hi] at h
      obtain ⟨k1, k2, k3, k4⟩ := trLookRest_prefix hM hs hls h ho' hd
      refine ⟨k2, k3, fun t ht h0 => ?_, k4, hf ?_⟩
      · rw [List.isEmpty_iff, sortedIter_ideal (hM.sorted s), idealIter_no] at hi
        have : IterItem.tr t ∈ ((M.trsOf s).filter fun t => decide (sideLabel input t = EPS)).map IterItem.tr :=
          List.mem_map_of_mem (List.mem_filter.2 ⟨ht, decide_eq_true h0⟩)
        rw [hi] at this
        cases this
      · cases hfc : fin with
        | false => rfl
        | true => rw [ho, hfc] at k1; simp at k1
    · rw [if_neg hi] at h
      split at h
      · rw [Except.ok.injEq, Option.some.injEq] at h
        subst h
        exact absurd ho' hd
      · have := (trLookRest_prefix hM hs hls h (by dsimp only; split <;> exact ho') hd).1
        simp at this

variable {A B : Fst W}

/-- Then only the paths that begin with it matter. -/
theorem trLook_begins (hM : Searchable A false) (hn : ∀ s, ∀ t ∈ B.trsOf s, t.ilabel ≠ NO_LABEL) {fl : LaFlags} {s1 s2 : StateId}
    (h1 : s1 < A.numStates) (h2 : s2 < B.numStates) {d : LaData W} (h : trLook fl A false s1 B s2 = .ok (some d)) (hd : d.prefixTr.nextstate ≠ NO_STATE_ID) (n m : Nat) :
    nonzero (joinPaths (A.pathsFrom n s1) (pathsC Tr.ilabel B false m s2)) = nonzero (joinPaths (A.pathsFrom n s1) (begins B d.prefixTr m)) := by
  obtain ⟨-, h0, hno, ⟨x, y, hxy, hits⟩, hfin⟩ := trLook_prefix hM h1 h2 h hd
  cases m with
  | zero =>
    have e : nonzero (joinPaths (A.pathsFrom n s1) (pathsC Tr.ilabel B false 0 s2)) = 0 := by
      rw [nonzero_eq_zero]
      intro r hr
      obtain ⟨p, hp, q, hq, e, rfl⟩ := mem_join.1 hr
      simp only [pathsC, Bool.false_eq_true, if_false] at hq
      cases hf : B.finOf s2 with
      | none => rw [hf] at hq; simp [finPath] at hq
      | some w =>
        rw [hf] at hq
        simp [finPath] at hq
        subst hq
        rcases pathsFrom_first hp hno with ⟨-, f1⟩ | ⟨t, -, r, e'⟩
        · rcases hfin _ _ f1 hf with e | e <;> simp [e]
        · exact absurd (e.trans e') (by simp)
    rw [e]
    simp [begins, nz_zero]
  | succ m =>
    have e : pathsC Tr.ilabel B false (m + 1) s2 = begins B d.prefixTr (m + 1) +
        (((x ++ y : List (Tr W)) : Multiset (Tr W)).filter fun t => decide (t.ilabel = EPS) = false).bind fun t => (B.pathsFrom m t.nextstate).map fun p => t.asPath.cat p := by
      have e1 : (B.trsOf s2 : Multiset (Tr W)) = d.prefixTr ::ₘ ((x ++ y : List (Tr W)) : Multiset (Tr W)) := by
        rw [hxy]
        exact Multiset.coe_eq_coe.2 List.perm_middle
      have h0 : d.prefixTr.ilabel ≠ EPS := h0
      simp only [pathsC, clsTrs, e1]
      rw [Multiset.filter_cons_of_pos _ (by simp [h0]), Multiset.cons_bind]
      rfl
    rw [e, join_add_right, nonzero_add]
    have e2 : nonzero (joinPaths (A.pathsFrom n s1) ((((x ++ y : List (Tr W)) : Multiset (Tr W)).filter fun t => decide (t.ilabel = EPS) = false).bind
        fun t => (B.pathsFrom m t.nextstate).map fun p => t.asPath.cat p)) = 0 := by
      rw [nonzero_eq_zero]
      intro r hr
      obtain ⟨p, hp, q, hq, e, rfl⟩ := mem_join.1 hr
      obtain ⟨t, ht, hq⟩ := Multiset.mem_bind.1 hq
      obtain ⟨q', -, rfl⟩ := Multiset.mem_map.1 hq
      obtain ⟨ht, ht0⟩ := Multiset.mem_filter.1 ht
      have ht0 : t.ilabel ≠ EPS := by simpa using ht0
      simp only [PathT.cat, Tr.asPath, strip, if_neg ht0] at e
      rcases pathsFrom_first hp hno with ⟨e', -⟩ | ⟨a, ha, r, e'⟩
      · exact absurd (e.trans e') (by simp)
      · have ea : t.ilabel = a.labelOn false := (List.cons.inj (e.trans e')).1
        have htB : t ∈ B.trsOf s2 := by
          have := Multiset.mem_coe.1 ht
          rw [hxy]; simp only [List.mem_append, List.mem_cons] at this ⊢; tauto
        rcases hits t (Multiset.mem_coe.1 ht) with k | k
        · exact absurd k ht0
        · have k : sortedIter false (A.trsOf s1) t.ilabel = [] := k
          rw [sortedIter_ideal (hM.sorted s1), idealIter_label _ _ ht0 (hn _ t htB)] at k
          have : IterItem.tr a ∈ ((A.trsOf s1).filter fun u => decide (sideLabel false u = t.ilabel)).map IterItem.tr :=
            List.mem_map_of_mem (List.mem_filter.2 ⟨ha, decide_eq_true ea.symm⟩)
          rw [k] at this
          cases this
    rw [e2, add_zero]

/-- The same on the input side. -/
theorem trLook_begins_in (hM : Searchable B true) (hn : ∀ s, ∀ t ∈ A.trsOf s, t.olabel ≠ NO_LABEL) {fl : LaFlags} {s1 s2 : StateId}
    (h1 : s1 < A.numStates) (h2 : s2 < B.numStates) {d : LaData W} (h : trLook fl B true s2 A s1 = .ok (some d)) (hd : d.prefixTr.nextstate ≠ NO_STATE_ID) (n m : Nat) :
    nonzero (joinPaths (pathsC Tr.olabel A false n s1) (B.pathsFrom m s2)) = nonzero (joinPaths (begins A d.prefixTr n) (B.pathsFrom m s2)) := by
  obtain ⟨-, h0, hno, ⟨x, y, hxy, hits⟩, hfin⟩ := trLook_prefix hM h2 h1 h hd
  cases n with
  | zero =>
    have e : nonzero (joinPaths (pathsC Tr.olabel A false 0 s1) (B.pathsFrom m s2)) = 0 := by
      rw [nonzero_eq_zero]
      intro r hr
      obtain ⟨p, hp, q, hq, e, rfl⟩ := mem_join.1 hr
      simp only [pathsC, Bool.false_eq_true, if_false] at hp
      cases hf : A.finOf s1 with
      | none => rw [hf] at hp; simp [finPath] at hp
      | some w =>
        rw [hf] at hp
        simp [finPath] at hp
        subst hp
        rcases pathsFrom_first hq hno with ⟨-, f1⟩ | ⟨t, -, r, e'⟩
        · rcases hfin _ _ f1 hf with e | e <;> simp [e]
        · exact absurd (e.symm.trans e') (by simp)
    rw [e]
    simp [begins, nz_zero]
  | succ n =>
    have e : pathsC Tr.olabel A false (n + 1) s1 = begins A d.prefixTr (n + 1) +
        (((x ++ y : List (Tr W)) : Multiset (Tr W)).filter fun t => decide (t.olabel = EPS) = false).bind fun t => (A.pathsFrom n t.nextstate).map fun p => t.asPath.cat p := by
      have e1 : (A.trsOf s1 : Multiset (Tr W)) = d.prefixTr ::ₘ ((x ++ y : List (Tr W)) : Multiset (Tr W)) := by
        rw [hxy]
        exact Multiset.coe_eq_coe.2 List.perm_middle
      have h0 : d.prefixTr.olabel ≠ EPS := h0
      simp only [pathsC, clsTrs, e1]
      rw [Multiset.filter_cons_of_pos _ (by simp [h0]), Multiset.cons_bind]
      rfl
    rw [e, join_add_left, nonzero_add]
    have e2 : nonzero (joinPaths ((((x ++ y : List (Tr W)) : Multiset (Tr W)).filter fun t => decide (t.olabel = EPS) = false).bind
        fun t => (A.pathsFrom n t.nextstate).map fun p => t.asPath.cat p) (B.pathsFrom m s2)) = 0 := by
      rw [nonzero_eq_zero]
      intro r hr
      obtain ⟨p, hp, q, hq, e, rfl⟩ := mem_join.1 hr
      obtain ⟨t, ht, hp⟩ := Multiset.mem_bind.1 hp
      obtain ⟨q', -, rfl⟩ := Multiset.mem_map.1 hp
      obtain ⟨ht, ht0⟩ := Multiset.mem_filter.1 ht
      have ht0 : t.olabel ≠ EPS := by simpa using ht0
      simp only [PathT.cat, Tr.asPath, strip, if_neg ht0] at e
      rcases pathsFrom_first hq hno with ⟨e', -⟩ | ⟨a, ha, r, e'⟩
      · exact absurd (e.symm.trans e') (by simp)
      · have ea : t.olabel = a.labelOn true := (List.cons.inj (e.symm.trans e')).1
        have htA : t ∈ A.trsOf s1 := by
          have := Multiset.mem_coe.1 ht
          rw [hxy]; simp only [List.mem_append, List.mem_cons] at this ⊢; tauto
        rcases hits t (Multiset.mem_coe.1 ht) with k | k
        · exact absurd k ht0
        · have k : sortedIter true (B.trsOf s2) t.olabel = [] := k
          rw [sortedIter_ideal (hM.sorted s2), idealIter_label _ _ ht0 (hn _ t htA)] at k
          have : IterItem.tr a ∈ ((B.trsOf s2).filter fun u => decide (sideLabel true u = t.olabel)).map IterItem.tr :=
            List.mem_map_of_mem (List.mem_filter.2 ⟨ha, decide_eq_true ea.symm⟩)
          rw [k] at this
          cases this
    rw [e2, add_zero]

/-- With `LOOKAHEAD_NON_EPSILON_PREFIX` nothing is pushed after another label than ε. -/
theorem pushesNow_prefix {c : LaCfg} (hn : c.flags.nonEpsPrefix = true) {a b tr : Tr W} (ha : a.olabel ≠ EPS) : pushesNow c A B a b ≠ some tr := by
  unfold pushesNow
  split
  · cases lookData c A B a b with
    | none => simp
    | some d => simp [ha, hn]
  · simp

theorem pushesNow_prefix_in {c : LaCfg} (hn : c.flags.nonEpsPrefix = true) {a b tr : Tr W} (hb : b.ilabel ≠ EPS) : pushesNowIn c A B a b ≠ some tr := by
  unfold pushesNowIn
  split
  · cases lookData c A B a b with
    | none => simp
    | some d => simp [hb, hn]
  · simp

/-- Labels pushed over the look-ahead filter. -/
theorem lookFilter_pushesTr (hj : Joinable A B) (h2 : B.AllCounters) (hM : Searchable A false) (hn : ∀ s, ∀ t ∈ B.trsOf s, t.ilabel ≠ NO_LABEL) (fl fl' : LaFlags) (hne : fl'.nonEpsilons = false ∨ fl'.nonEpsPrefix = true) :
    PushesLabels ⟨true, .tr fl, fl'⟩ A B altFilter (lookFilter ⟨true, .tr fl, fl'⟩ A B altFilter)
      (fun fs _ e2 => decide (fs ≠ 1) || !e2) id (fun _ => 1) (fun t => t.Ok A B (· ≤ 1)) (fun s _ => ∀ a ∈ A.trsOf s, a.olabel ≠ EPS) where
  out := rfl
  start s1 s2 g1 g2 := ⟨g1, g2, (altFilter_law hj h2).start.1⟩
  set t ht _ s1 s2 g1 g2 := by
    obtain ⟨flt, hf, -⟩ := (altFilter_law hj h2).step s1 s2 t.fs g1 g2 ht.2.2
    exact ⟨⟨_, by simp only [lookFilter, hf]; rfl⟩, fun w1 w2 => ⟨_, rfl⟩⟩
  push t ht flt flt' hf hf' a b hp fs fs' w1 w2 hs hs' tr htr := by
    obtain ⟨d, g1, g2, rfl, g4⟩ := pushesNow_some htr
    have ha0 : a.olabel = EPS := by
      by_contra h0
      rcases hne with hne | hne
      · simp [LaCfg.looks, h0, hne] at g1
      · exact pushesNow_prefix hne h0 htr
    obtain ⟨k1, k2, k3⟩ := altFilter_eps hj h2 ht hf hp hs ha0
    have hbn : b.nextstate = t.s2 := by rw [k2]; rfl
    rw [hbn] at g2
    have hl1 := hj.wf1.next_lt _ _ k1
    have g2' : trLook fl A false a.nextstate B t.s2 = .ok (some d) := g2
    obtain ⟨-, q2, q4, ⟨x, y, q3, -⟩, -⟩ := trLook_prefix hM hl1 ht.2.1 g2' g4
    exact ⟨k1, k2, by rw [q3]; simp, q2, rfl, q4, fun n m => (k3 n m).trans (trLook_begins hM hn hl1 ht.2.1 g2' g4 n m)⟩
  label s l hs h0 _ hq a ha he := absurd he (hq a ha)

/-- The same on the input side. -/
theorem lookFilter_pushesTr_in (hj : Joinable A B) (h2 : A.AllCounters) (hM : Searchable B true) (hn : ∀ s, ∀ t ∈ A.trsOf s, t.olabel ≠ NO_LABEL) (fl fl' : LaFlags) (hne : fl'.nonEpsilons = false ∨ fl'.nonEpsPrefix = true) :
    PushesLabelsIn ⟨false, .tr fl, fl'⟩ A B seqFilter (lookFilter ⟨false, .tr fl, fl'⟩ A B seqFilter)
      (fun fs e1 _ => decide (fs = 0) || !e1) id (fun _ => 1) (fun t => t.Ok A B (· ≤ 1)) (fun s _ => ∀ b ∈ B.trsOf s, b.ilabel ≠ EPS) where
  out := rfl
  start s1 s2 g1 g2 := ⟨g1, g2, (seqFilter_law hj h2).start.1⟩
  set t ht _ s1 s2 g1 g2 := by
    obtain ⟨flt, hf, -⟩ := (seqFilter_law hj h2).step s1 s2 t.fs g1 g2 ht.2.2
    exact ⟨⟨_, by simp only [lookFilter, hf]; rfl⟩, fun w1 w2 => ⟨_, rfl⟩⟩
  push t ht flt flt' hf hf' a b hp fs fs' w1 w2 hs hs' tr htr := by
    obtain ⟨d, g1, g2, rfl, g4⟩ := pushesNow_some_in htr
    have ha0 : b.ilabel = EPS := by
      by_contra h0
      rcases hne with hne | hne
      · simp [LaCfg.looks, h0, hne] at g1
      · exact pushesNow_prefix_in hne h0 htr
    obtain ⟨k1, k2, k3⟩ := seqFilter_eps hj h2 ht hf hp hs ha0
    have hbn : a.nextstate = t.s1 := by rw [k2]; rfl
    rw [hbn] at g2
    have hl1 := hj.wf2.next_lt _ _ k1
    have g2' : trLook fl B true b.nextstate A t.s1 = .ok (some d) := g2
    obtain ⟨-, q2, q4, ⟨x, y, q3, -⟩, -⟩ := trLook_prefix hM hl1 ht.1 g2' g4
    exact ⟨k1, k2, by rw [q3]; simp, q2, rfl, q4, fun n m => (k3 n m).trans (trLook_begins_in hM hn ht.1 hl1 g2' g4 n m)⟩
  label s l hs h0 _ hq a ha he := absurd he (hq a ha)

theorem pushesNow_trivial {fl' : LaFlags} {a b tr : Tr W} : pushesNow ⟨true, .trivial, fl'⟩ A B a b ≠ some tr := by
  intro h
  obtain ⟨d, -, g2, rfl, g4⟩ := pushesNow_some h
  simp only [LaCfg.look, if_true, LaMatcher.look, Except.ok.injEq, Option.some.injEq] at g2
  subst g2
  exact g4 rfl

theorem pushesNow_trivial_in {fl' : LaFlags} {a b tr : Tr W} : pushesNowIn ⟨false, .trivial, fl'⟩ A B a b ≠ some tr := by
  intro h
  obtain ⟨d, -, g2, rfl, g4⟩ := pushesNow_some_in h
  simp only [LaCfg.look, LaMatcher.look] at g2
  simp at g2
  subst g2
  exact g4 rfl

/-- `TrivialLookAheadMatcher` finds no transition. -/
theorem lookFilter_pushesTrivial (hj : Joinable A B) (h2 : B.AllCounters) (fl' : LaFlags) :
    PushesLabels ⟨true, .trivial, fl'⟩ A B altFilter (lookFilter ⟨true, .trivial, fl'⟩ A B altFilter)
      (fun fs _ e2 => decide (fs ≠ 1) || !e2) id (fun _ => 1) (fun t => t.Ok A B (· ≤ 1)) (fun _ _ => False) where
  out := rfl
  start s1 s2 g1 g2 := ⟨g1, g2, (altFilter_law hj h2).start.1⟩
  set t ht _ s1 s2 g1 g2 := by
    obtain ⟨flt, hf, -⟩ := (altFilter_law hj h2).step s1 s2 t.fs g1 g2 ht.2.2
    exact ⟨⟨_, by simp only [lookFilter, hf]; rfl⟩, fun w1 w2 => ⟨_, rfl⟩⟩
  push t ht flt flt' hf hf' a b hp fs fs' w1 w2 hs hs' tr htr := absurd htr pushesNow_trivial
  label s l hs h0 _ hq := hq.elim

theorem lookFilter_pushesTrivial_in (hj : Joinable A B) (h2 : A.AllCounters) (fl' : LaFlags) :
    PushesLabelsIn ⟨false, .trivial, fl'⟩ A B seqFilter (lookFilter ⟨false, .trivial, fl'⟩ A B seqFilter)
      (fun fs e1 _ => decide (fs = 0) || !e1) id (fun _ => 1) (fun t => t.Ok A B (· ≤ 1)) (fun _ _ => False) where
  out := rfl
  start s1 s2 g1 g2 := ⟨g1, g2, (seqFilter_law hj h2).start.1⟩
  set t ht _ s1 s2 g1 g2 := by
    obtain ⟨flt, hf, -⟩ := (seqFilter_law hj h2).step s1 s2 t.fs g1 g2 ht.2.2
    exact ⟨⟨_, by simp only [lookFilter, hf]; rfl⟩, fun w1 w2 => ⟨_, rfl⟩⟩
  push t ht flt flt' hf hf' a b hp fs fs' w1 w2 hs hs' tr htr := absurd htr pushesNow_trivial_in
  label s l hs h0 _ hq := hq.elim

end

section
variable {W : Type} [CommMonoidWithZero W] [Add W] [DecidableEq W] {A B : Fst W}

/-- Labels pushed over the filter that pushes weights. -/
theorem pushFilter_pushesTr {div quant : W → W → R W} {delta : W} (hj : Joinable A B) (h2 : B.AllCounters) (hM : Searchable A false) (hn : ∀ s, ∀ t ∈ B.trsOf s, t.ilabel ≠ NO_LABEL) (fl fl' : LaFlags)
    (hne : fl'.nonEpsilons = false ∨ fl'.nonEpsPrefix = true) (h1 : Pushable div quant delta 1) :
    PushesLabels ⟨true, .tr fl, fl'⟩ A B altFilter (pushFilter div quant delta ⟨true, .tr fl, fl'⟩ A B altFilter)
      (fun fs _ e2 => decide (fs ≠ 1) || !e2) Prod.fst Prod.snd
      (fun t => (⟨t.fs.1, t.s1, t.s2⟩ : CTup Nat).Ok A B (· ≤ 1) ∧ PushedAt ⟨true, .tr fl, fl'⟩ A B t.s1 t.s2 t.fs.2) (fun s _ => ∀ a ∈ A.trsOf s, a.olabel ≠ EPS) where
  out := rfl
  start s1 s2 g1 g2 := ⟨⟨g1, g2, (altFilter_law hj h2).start.1⟩, .inl rfl⟩
  set t ht hg s1 s2 g1 g2 := by
    obtain ⟨flt, hf, -⟩ := (altFilter_law hj h2).step s1 s2 t.fs.1 g1 g2 ht.1.2.2
    refine ⟨⟨_, by simp only [pushFilter, hf]; rfl⟩, fun w1 w2 => ?_⟩
    obtain ⟨q, hq, -⟩ := h1.div w1
    simp only [pushFilter, hg, hq]
    split
    · exact ⟨_, rfl⟩
    · exact ⟨_, rfl⟩
  push t ht flt flt' hf hf' a b hp fs fs' w1 w2 hs hs' tr htr := by
    obtain ⟨d, g1, g2, rfl, g4⟩ := pushesNow_some htr
    have ha0 : a.olabel = EPS := by
      by_contra h0
      rcases hne with hne | hne
      · simp [LaCfg.looks, h0, hne] at g1
      · exact pushesNow_prefix hne h0 htr
    obtain ⟨k1, k2, k3⟩ := altFilter_eps hj h2 (t := ⟨t.fs.1, t.s1, t.s2⟩) ht.1 hf hp hs ha0
    have hbn : b.nextstate = t.s2 := by rw [k2]; rfl
    have hl1 := hj.wf1.next_lt _ _ k1
    have g2' : trLook fl A false a.nextstate B t.s2 = .ok (some d) := by rw [← hbn]; exact g2
    obtain ⟨q1, q2, q4, ⟨x, y, q3, -⟩, -⟩ := trLook_prefix hM hl1 ht.1.2.1 g2' g4
    refine ⟨k1, k2, by rw [q3]; simp, q2, ?_, q4, fun n m => (k3 n m).trans (trLook_begins hM hn hl1 ht.1.2.1 g2' g4 n m)⟩
    simp only [pushFilter, hf, Except.ok.injEq] at hf'
    rw [← hf'] at hs'
    simp only [if_true] at g1
    have hlt : lookFilterTr ⟨true, .tr fl, fl'⟩ A B flt a b = .ok (some (fs, some d)) := by
      simp only [lookFilterTr, hs, g1, if_true, g2]
    simp only [pushFilterTr, hlt, q1, if_neg h1.ne, h1.quant] at hs'
    split at hs'
    · simp only [Except.ok.injEq, Option.some.injEq, Prod.mk.injEq] at hs'
      rw [← hs'.1]
    · split at hs'
      · cases hs'
      · simp only [Except.ok.injEq, Option.some.injEq, Prod.mk.injEq] at hs'
        rw [← hs'.1]
  label s l hs h0 _ hq a ha he := absurd he (hq a ha)

/-- The same on the input side. -/
theorem pushFilter_pushesTr_in {div quant : W → W → R W} {delta : W} (hj : Joinable A B) (h2 : A.AllCounters) (hM : Searchable B true) (hn : ∀ s, ∀ t ∈ A.trsOf s, t.olabel ≠ NO_LABEL) (fl fl' : LaFlags)
    (hne : fl'.nonEpsilons = false ∨ fl'.nonEpsPrefix = true) (h1 : Pushable div quant delta 1) :
    PushesLabelsIn ⟨false, .tr fl, fl'⟩ A B seqFilter (pushFilter div quant delta ⟨false, .tr fl, fl'⟩ A B seqFilter)
      (fun fs e1 _ => decide (fs = 0) || !e1) Prod.fst Prod.snd
      (fun t => (⟨t.fs.1, t.s1, t.s2⟩ : CTup Nat).Ok A B (· ≤ 1) ∧ PushedAt ⟨false, .tr fl, fl'⟩ A B t.s1 t.s2 t.fs.2) (fun s _ => ∀ b ∈ B.trsOf s, b.ilabel ≠ EPS) where
  out := rfl
  start s1 s2 g1 g2 := ⟨⟨g1, g2, (seqFilter_law hj h2).start.1⟩, .inl rfl⟩
  set t ht hg s1 s2 g1 g2 := by
    obtain ⟨flt, hf, -⟩ := (seqFilter_law hj h2).step s1 s2 t.fs.1 g1 g2 ht.1.2.2
    refine ⟨⟨_, by simp only [pushFilter, hf]; rfl⟩, fun w1 w2 => ?_⟩
    obtain ⟨q, hq, -⟩ := h1.div w1
    simp only [pushFilter, hg, hq]
    split
    · exact ⟨_, rfl⟩
    · exact ⟨_, rfl⟩
  push t ht flt flt' hf hf' a b hp fs fs' w1 w2 hs hs' tr htr := by
    obtain ⟨d, g1, g2, rfl, g4⟩ := pushesNow_some_in htr
    have ha0 : b.ilabel = EPS := by
      by_contra h0
      rcases hne with hne | hne
      · simp [LaCfg.looks, h0, hne] at g1
      · exact pushesNow_prefix_in hne h0 htr
    obtain ⟨k1, k2, k3⟩ := seqFilter_eps hj h2 (t := ⟨t.fs.1, t.s1, t.s2⟩) ht.1 hf hp hs ha0
    have hbn : a.nextstate = t.s1 := by rw [k2]; rfl
    have hl1 := hj.wf2.next_lt _ _ k1
    have g2' : trLook fl B true b.nextstate A t.s1 = .ok (some d) := by rw [← hbn]; exact g2
    obtain ⟨q1, q2, q4, ⟨x, y, q3, -⟩, -⟩ := trLook_prefix hM hl1 ht.1.1 g2' g4
    refine ⟨k1, k2, by rw [q3]; simp, q2, ?_, q4, fun n m => (k3 n m).trans (trLook_begins_in hM hn ht.1.1 hl1 g2' g4 n m)⟩
    simp only [pushFilter, hf, Except.ok.injEq] at hf'
    rw [← hf'] at hs'
    simp only [if_true] at g1
    have hlt : lookFilterTr ⟨false, .tr fl, fl'⟩ A B flt a b = .ok (some (fs, some d)) := by
      simp only [lookFilterTr, hs, g1, if_true, g2]
    simp only [pushFilterTr, hlt, q1, if_neg h1.ne, h1.quant] at hs'
    split at hs'
    · simp only [Except.ok.injEq, Option.some.injEq, Prod.mk.injEq] at hs'
      rw [← hs'.1]
    · split at hs'
      · cases hs'
      · simp only [Except.ok.injEq, Option.some.injEq, Prod.mk.injEq] at hs'
        rw [← hs'.1]
  label s l hs h0 _ hq a ha he := absurd he (hq a ha)

theorem pushFilter_pushesTrivial {div quant : W → W → R W} {delta : W} (hj : Joinable A B) (h2 : B.AllCounters) (fl' : LaFlags) (h1 : Pushable div quant delta 1) :
    PushesLabels ⟨true, .trivial, fl'⟩ A B altFilter (pushFilter div quant delta ⟨true, .trivial, fl'⟩ A B altFilter)
      (fun fs _ e2 => decide (fs ≠ 1) || !e2) Prod.fst Prod.snd
      (fun t => (⟨t.fs.1, t.s1, t.s2⟩ : CTup Nat).Ok A B (· ≤ 1) ∧ PushedAt ⟨true, .trivial, fl'⟩ A B t.s1 t.s2 t.fs.2) (fun _ _ => False) where
  out := rfl
  start s1 s2 g1 g2 := ⟨⟨g1, g2, (altFilter_law hj h2).start.1⟩, .inl rfl⟩
  set t ht hg s1 s2 g1 g2 := by
    obtain ⟨flt, hf, -⟩ := (altFilter_law hj h2).step s1 s2 t.fs.1 g1 g2 ht.1.2.2
    refine ⟨⟨_, by simp only [pushFilter, hf]; rfl⟩, fun w1 w2 => ?_⟩
    obtain ⟨q, hq, -⟩ := h1.div w1
    simp only [pushFilter, hg, hq]
    split
    · exact ⟨_, rfl⟩
    · exact ⟨_, rfl⟩
  push t ht flt flt' hf hf' a b hp fs fs' w1 w2 hs hs' tr htr := absurd htr pushesNow_trivial
  label s l hs h0 _ hq := hq.elim

theorem pushFilter_pushesTrivial_in {div quant : W → W → R W} {delta : W} (hj : Joinable A B) (h2 : A.AllCounters) (fl' : LaFlags) (h1 : Pushable div quant delta 1) :
    PushesLabelsIn ⟨false, .trivial, fl'⟩ A B seqFilter (pushFilter div quant delta ⟨false, .trivial, fl'⟩ A B seqFilter)
      (fun fs e1 _ => decide (fs = 0) || !e1) Prod.fst Prod.snd
      (fun t => (⟨t.fs.1, t.s1, t.s2⟩ : CTup Nat).Ok A B (· ≤ 1) ∧ PushedAt ⟨false, .trivial, fl'⟩ A B t.s1 t.s2 t.fs.2) (fun _ _ => False) where
  out := rfl
  start s1 s2 g1 g2 := ⟨⟨g1, g2, (seqFilter_law hj h2).start.1⟩, .inl rfl⟩
  set t ht hg s1 s2 g1 g2 := by
    obtain ⟨flt, hf, -⟩ := (seqFilter_law hj h2).step s1 s2 t.fs.1 g1 g2 ht.1.2.2
    refine ⟨⟨_, by simp only [pushFilter, hf]; rfl⟩, fun w1 w2 => ?_⟩
    obtain ⟨q, hq, -⟩ := h1.div w1
    simp only [pushFilter, hg, hq]
    split
    · exact ⟨_, rfl⟩
    · exact ⟨_, rfl⟩
  push t ht flt flt' hf hf' a b hp fs fs' w1 w2 hs hs' tr htr := absurd htr pushesNow_trivial_in
  label s l hs h0 _ hq := hq.elim

end
end Verif
