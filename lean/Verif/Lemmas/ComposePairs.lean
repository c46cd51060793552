import Verif.Model.Compose
import Verif.Lemmas.JoinPaths

/-! # The pairs of transitions that a composition looks at -/

namespace Verif
universe u
variable {W : Type u} {FS : Type}

/-! ### Sorted matchers -/

theorem sideLabel_true : sideLabel (W := W) true = Tr.ilabel := by funext t; rfl
theorem sideLabel_false : sideLabel (W := W) false = Tr.olabel := by funext t; rfl

/-- On transitions sorted by label, the matcher finds exactly the transitions with the label. -/
theorem sorted_find (input : Bool) (m : Label) : ∀ ts : List (Tr W), (ts.map (sideLabel input)).Pairwise (· ≤ ·) →
    (ts.drop (lowerBound input m ts)).takeWhile (fun t => decide (sideLabel input t = m)) = ts.filter fun t => decide (sideLabel input t = m)
  | [], _ => rfl
  | t :: ts, h => by
    rw [List.map_cons, List.pairwise_cons] at h
    by_cases h1 : sideLabel input t < m
    · have e : lowerBound input m (t :: ts) = lowerBound input m ts + 1 := by simp [lowerBound, List.takeWhile_cons, h1]
      rw [e, List.drop_succ_cons, sorted_find input m ts h.2, List.filter_cons_of_neg (by simp; omega)]
    · have e : lowerBound input m (t :: ts) = 0 := by simp [lowerBound, List.takeWhile_cons, h1]
      rw [e, List.drop_zero]
      by_cases h2 : sideLabel input t = m
      · have hl : lowerBound input m ts = 0 := by
          cases ts with
          | nil => rfl
          | cons u us =>
            have : sideLabel input t ≤ sideLabel input u := h.1 _ (by simp)
            simp [lowerBound, List.takeWhile_cons]; omega
        rw [List.takeWhile_cons_of_pos (by simpa using h2), List.filter_cons_of_pos (by simpa using h2), ← sorted_find input m ts h.2, hl, List.drop_zero]
      · rw [List.takeWhile_cons_of_neg (by simpa using h2), List.filter_cons_of_neg (by simpa using h2)]
        symm
        rw [List.filter_eq_nil_iff]
        intro u hu
        have : sideLabel input t ≤ sideLabel input u := h.1 _ (List.mem_map_of_mem hu)
        simp; omega

theorem sorted_find_zero (input : Bool) (ts : List (Tr W)) (h : (ts.map (sideLabel input)).Pairwise (· ≤ ·)) :
    ts.takeWhile (fun t => decide (sideLabel input t = EPS)) = ts.filter fun t => decide (sideLabel input t = EPS) := by
  have e : lowerBound input EPS ts = 0 := by
    cases ts <;> simp [lowerBound, List.takeWhile_cons]
  have := sorted_find input EPS ts h
  rwa [e, List.drop_zero] at this

theorem sortedIter_eps (input : Bool) (ts : List (Tr W)) (h : (ts.map (sideLabel input)).Pairwise (· ≤ ·)) :
    sortedIter input ts EPS = .epsLoop :: (ts.filter fun t => decide (sideLabel input t = EPS)).map .tr := by
  unfold sortedIter
  rw [← sorted_find_zero input ts h]
  simp [NO_LABEL]

theorem sortedIter_no (input : Bool) (ts : List (Tr W)) (h : (ts.map (sideLabel input)).Pairwise (· ≤ ·)) :
    sortedIter input ts NO_LABEL = (ts.filter fun t => decide (sideLabel input t = EPS)).map .tr := by
  unfold sortedIter
  rw [← sorted_find input EPS ts h]
  simp [NO_LABEL]

theorem sortedIter_label (input : Bool) (ts : List (Tr W)) (h : (ts.map (sideLabel input)).Pairwise (· ≤ ·)) {l : Label} (h0 : l ≠ EPS) (h1 : l ≠ NO_LABEL) :
    sortedIter input ts l = (ts.filter fun t => decide (sideLabel input t = l)).map .tr := by
  unfold sortedIter
  rw [← sorted_find input l ts h]
  simp [h0, h1]

/-- What a matcher should yield: the transitions with the label, and the loop for ε. -/
def idealIter (input : Bool) (ts : List (Tr W)) (l : Label) : List (IterItem W) :=
  (if l = EPS then [.epsLoop] else []) ++ (ts.filter fun t => decide (sideLabel input t = if l = NO_LABEL then EPS else l)).map .tr

theorem sortedIter_ideal {input : Bool} {ts : List (Tr W)} (h : (ts.map (sideLabel input)).Pairwise (· ≤ ·)) (l : Label) : sortedIter input ts l = idealIter input ts l := by
  unfold idealIter
  by_cases h0 : l = EPS
  · subst h0
    rw [sortedIter_eps input ts h]; simp [NO_LABEL]
  · by_cases h1 : l = NO_LABEL
    · subst h1
      rw [sortedIter_no input ts h]; simp [NO_LABEL]
    · rw [sortedIter_label input ts h h0 h1]; simp [h0, h1]

theorem idealIter_eps (input : Bool) (ts : List (Tr W)) :
    idealIter input ts EPS = .epsLoop :: (ts.filter fun t => decide (sideLabel input t = EPS)).map .tr := by
  simp [idealIter, NO_LABEL]

theorem idealIter_no (input : Bool) (ts : List (Tr W)) : idealIter input ts NO_LABEL = (ts.filter fun t => decide (sideLabel input t = EPS)).map .tr := by
  simp [idealIter, NO_LABEL]

theorem idealIter_label (input : Bool) (ts : List (Tr W)) {l : Label} (h0 : l ≠ EPS) (h1 : l ≠ NO_LABEL) :
    idealIter input ts l = (ts.filter fun t => decide (sideLabel input t = l)).map .tr := by
  simp [idealIter, h0, h1]

/-! ### Pairs -/

section
variable [One W] [Mul W]

/-- The first FST stays. -/
def loop1 (s : StateId) : Tr W := ⟨EPS, NO_LABEL, 1, s⟩
/-- The second FST stays. -/
def loop2 (s : StateId) : Tr W := ⟨NO_LABEL, EPS, 1, s⟩

variable (A B : Fst W)

/-- The pairs that a filter is asked about. -/
def pairsU (s1 s2 : StateId) : Multiset (Tr W × Tr W) :=
  (clsTrs Tr.ilabel B true s2).map (fun b => (loop1 s1, b)) + (clsTrs Tr.olabel A true s1).map (fun a => (a, loop2 s2)) +
  (clsTrs Tr.olabel A true s1).bind (fun a => (clsTrs Tr.ilabel B true s2).map fun b => (a, b)) +
  (clsTrs Tr.olabel A false s1).bind (fun a => ((clsTrs Tr.ilabel B false s2).filter fun b => b.ilabel = a.olabel).map fun b => (a, b))

/-- The pairs in the order of the code, matching in the second FST. -/
def pairsIn (it : Label → List (IterItem W)) (s1 s2 : StateId) (ta : List (Tr W)) : List (Tr W × Tr W) :=
  (loop1 s1 :: ta).flatMap fun a => (it a.olabel).map fun i => (a, i.intoTr s2 true)

/-- The pairs in the order of the code, matching in the first FST. -/
def pairsOut (it : Label → List (IterItem W)) (s1 s2 : StateId) (tb : List (Tr W)) : List (Tr W × Tr W) :=
  (loop2 s2 :: tb).flatMap fun b => (it b.ilabel).map fun i => (i.intoTr s1 false, b)

/-- What becomes of a pair. -/
def pairTr (flt : Tr W → Tr W → Option FS) (x : Tr W × Tr W) : Option (MTr (CTup FS) W) := (flt x.1 x.2).map (addTr x.1 x.2)

theorem expand_in (flt : Tr W → Tr W → Option FS) (s1 s2 : StateId) (h1 : s1 < A.numStates) (h2 : s2 < B.numStates) :
    orderedExpand A B true flt s2 s1 = .ok ((pairsIn (sortedIter true (B.trsOf s2)) s1 s2 (A.trsOf s1)).filterMap (pairTr flt)) := by
  have g1 : A.states[s1]? = some A.states[s1] := List.getElem?_eq_getElem h1
  have g2 : B.states[s2]? = some B.states[s2] := List.getElem?_eq_getElem h2
  simp only [orderedExpand, if_true, Fst.getTrsR, g1, g2, Fst.trsOf, pairsIn, List.filterMap_flatMap]
  congr 2
  funext a
  simp [matchTr, matchTrSelected, List.filterMap_map, Function.comp_def, pairTr]

theorem expand_out (flt : Tr W → Tr W → Option FS) (s1 s2 : StateId) (h1 : s1 < A.numStates) (h2 : s2 < B.numStates) :
    orderedExpand A B false flt s1 s2 = .ok ((pairsOut (sortedIter false (A.trsOf s1)) s1 s2 (B.trsOf s2)).filterMap (pairTr flt)) := by
  have g1 : A.states[s1]? = some A.states[s1] := List.getElem?_eq_getElem h1
  have g2 : B.states[s2]? = some B.states[s2] := List.getElem?_eq_getElem h2
  simp only [orderedExpand, Fst.getTrsR, g1, g2, Fst.trsOf, pairsOut, List.filterMap_flatMap, Bool.false_eq_true, if_false]
  congr 2
  funext a
  simp [matchTr, matchTrSelected, List.filterMap_map, Function.comp_def, pairTr]

variable {A B}

theorem cls_list (sel : Tr W → Label) (f : Fst W) (s : StateId) :
    ((f.trsOf s).filter fun t => decide (sel t = EPS) : List (Tr W)) = clsTrs sel f true s := by
  simp [clsTrs]

theorem bind_singleton_add {α β : Type*} (S : Multiset α) (f : α → β) (g : α → Multiset β) :
    (S.bind fun a => {f a} + g a) = S.map f + S.bind g := by
  rw [Multiset.bind_add, Multiset.bind_singleton]

/-- The code looks at exactly these pairs, each once, with a matcher on the second FST that yields what it should. -/
theorem pairsIn_eq {s1 s2 : StateId} (hl : ∀ a ∈ A.trsOf s1, a.olabel ≠ NO_LABEL) :
    (pairsIn (idealIter true (B.trsOf s2)) s1 s2 (A.trsOf s1) : Multiset (Tr W × Tr W)) = pairsU A B s1 s2 := by
  unfold pairsIn pairsU
  rw [List.flatMap_cons, ← Multiset.coe_add]
  have e0 : (loop1 s1 : Tr W).olabel = NO_LABEL := rfl
  rw [e0, idealIter_no true _]
  have e1 : ((((B.trsOf s2).filter fun t => decide (sideLabel true t = EPS)).map IterItem.tr).map (fun i => ((loop1 s1 : Tr W), IterItem.intoTr i s2 true)) : Multiset (Tr W × Tr W)) =
      (clsTrs Tr.ilabel B true s2).map (fun b => (loop1 s1, b)) := by
    rw [← cls_list, Multiset.map_coe, List.map_map]; rfl
  rw [e1, add_assoc, add_assoc]
  congr 1
  rw [← Multiset.coe_bind, clsTrs_add Tr.olabel, Multiset.add_bind, ← add_assoc]
  congr 1
  · rw [← bind_singleton_add]
    refine Multiset.bind_congr fun a ha => ?_
    have h0 : a.olabel = EPS := by simpa [clsTrs] using (Multiset.mem_filter.1 ha).2
    rw [h0, idealIter_eps true _, ← cls_list, Multiset.map_coe, List.map_cons, List.map_map, ← Multiset.cons_coe]
    rfl
  · refine Multiset.bind_congr fun a ha => ?_
    have h0 : a.olabel ≠ EPS := by simpa [clsTrs] using (Multiset.mem_filter.1 ha).2
    have hA : a ∈ A.trsOf s1 := Multiset.mem_coe.1 (Multiset.mem_filter.1 ha).1
    rw [idealIter_label true _ h0 (hl a hA), List.map_map, sideLabel_true]
    unfold clsTrs
    rw [Multiset.filter_filter, ← Multiset.map_coe, ← Multiset.filter_coe]
    refine congrArg₂ _ rfl ?_
    refine Multiset.filter_congr fun b _ => ?_
    simp only [decide_eq_true_eq, decide_eq_false_iff_not]
    exact ⟨fun h => ⟨h, fun h' => h0 (h ▸ h')⟩, fun h => h.1⟩

theorem map_filter_bind {α β : Type*} (S : Multiset α) (p : α → Prop) [DecidablePred p] (f : α → β) :
    (S.filter p).map f = S.bind fun x => if p x then {f x} else 0 := by
  induction S using Multiset.induction_on with
  | empty => simp
  | cons a S ih =>
    rw [Multiset.cons_bind, ← ih]
    by_cases h : p a
    · rw [Multiset.filter_cons_of_pos _ h, Multiset.map_cons, if_pos h, Multiset.singleton_add]
    · rw [Multiset.filter_cons_of_neg _ h, if_neg h, zero_add]

/-- The same with a matcher on the first FST. -/
theorem pairsOut_eq {s1 s2 : StateId} (hl : ∀ b ∈ B.trsOf s2, b.ilabel ≠ NO_LABEL) :
    (pairsOut (idealIter false (A.trsOf s1)) s1 s2 (B.trsOf s2) : Multiset (Tr W × Tr W)) = pairsU A B s1 s2 := by
  unfold pairsOut pairsU
  rw [List.flatMap_cons, ← Multiset.coe_add]
  have e0 : (loop2 s2 : Tr W).ilabel = NO_LABEL := rfl
  rw [e0, idealIter_no false _]
  have e1 : ((((A.trsOf s1).filter fun t => decide (sideLabel false t = EPS)).map IterItem.tr).map (fun i => (IterItem.intoTr i s1 false, (loop2 s2 : Tr W))) : Multiset (Tr W × Tr W)) =
      (clsTrs Tr.olabel A true s1).map (fun a => (a, loop2 s2)) := by
    rw [← cls_list, Multiset.map_coe, List.map_map]; rfl
  have e2 : (clsTrs Tr.olabel A true s1).bind (fun a => (clsTrs Tr.ilabel B true s2).map fun b => (a, b)) =
      (clsTrs Tr.ilabel B true s2).bind (fun b => (clsTrs Tr.olabel A true s1).map fun a => (a, b)) := Multiset.bind_map_comm _ _
  rw [e1, e2, add_comm ((clsTrs Tr.ilabel B true s2).map _), add_assoc, add_assoc]
  congr 1
  rw [← Multiset.coe_bind, clsTrs_add Tr.ilabel, Multiset.add_bind, ← add_assoc]
  congr 1
  · rw [← bind_singleton_add]
    refine Multiset.bind_congr fun b hb => ?_
    have h0 : b.ilabel = EPS := by simpa [clsTrs] using (Multiset.mem_filter.1 hb).2
    rw [h0, idealIter_eps false _, ← cls_list, Multiset.map_coe, List.map_cons, List.map_map, ← Multiset.cons_coe]
    rfl
  · have key : ∀ b ∈ clsTrs Tr.ilabel B false s2, (((idealIter false (A.trsOf s1) b.ilabel).map fun i => (IterItem.intoTr i s1 false, b) : List (Tr W × Tr W)) : Multiset (Tr W × Tr W)) =
        (clsTrs Tr.olabel A false s1).bind fun a => if b.ilabel = a.olabel then {(a, b)} else 0 := by
      intro b hb
      have h0 : b.ilabel ≠ EPS := by simpa [clsTrs] using (Multiset.mem_filter.1 hb).2
      have hB : b ∈ B.trsOf s2 := Multiset.mem_coe.1 (Multiset.mem_filter.1 hb).1
      rw [idealIter_label false _ h0 (hl b hB), List.map_map, sideLabel_false, ← map_filter_bind]
      unfold clsTrs
      rw [Multiset.filter_filter, ← Multiset.map_coe, ← Multiset.filter_coe]
      refine congrArg₂ _ rfl ?_
      refine Multiset.filter_congr fun a _ => ?_
      simp only [decide_eq_true_eq, decide_eq_false_iff_not]
      exact ⟨fun h => ⟨h.symm, fun h' => h0 (h ▸ h')⟩, fun h => h.1.symm⟩
    rw [Multiset.bind_congr key, Multiset.bind_bind]
    refine Multiset.bind_congr fun a _ => ?_
    rw [map_filter_bind]

omit [Mul W] in
theorem mem_pairsU {s1 s2 : StateId} {x : Tr W × Tr W} (h : x ∈ pairsU A B s1 s2) :
    (x.1 = loop1 s1 ∧ x.2 ∈ B.trsOf s2) ∨ (x.1 ∈ A.trsOf s1 ∧ x.2 = loop2 s2) ∨ (x.1 ∈ A.trsOf s1 ∧ x.2 ∈ B.trsOf s2 ∧ x.1.olabel = x.2.ilabel) := by
  simp only [pairsU, Multiset.mem_add, Multiset.mem_map, Multiset.mem_bind, clsTrs, Multiset.mem_filter, Multiset.mem_coe] at h
  rcases h with ((⟨b, hb, rfl⟩ | ⟨a, ha, rfl⟩) | ⟨a, ha, b, hb, rfl⟩) | ⟨a, ha, b, hb, rfl⟩
  · exact .inl ⟨rfl, hb.1⟩
  · exact .inr (.inl ⟨ha.1, rfl⟩)
  · refine .inr (.inr ⟨ha.1, hb.1, ?_⟩)
    have h1 := ha.2; have h2 := hb.2
    simp only [decide_eq_true_eq] at h1 h2
    rw [h1, h2]
  · exact .inr (.inr ⟨ha.1, hb.1.1, hb.2.symm⟩)

end
end Verif
