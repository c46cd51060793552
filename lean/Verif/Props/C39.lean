import Verif.Lemmas.ComposeStatic
import Mathlib.Algebra.Ring.Defs
import Mathlib.Algebra.Ring.Nat
import Mathlib.Algebra.GroupWithZero.Nat
import Mathlib.Algebra.BigOperators.Ring.Multiset

/-! # C39: compose is relational composition without path duplication -/

namespace Verif
universe u
variable {W : Type u}

/-- What `compose` may be called with: well-formed FSTs with exact counters, whose sort flags are true where they are set, one of which is set;
no label on the middle tape is the reserved `NO_LABEL = u32::MAX`. -/
structure Operands (A B : Fst W) : Prop where
  wf1 : A.WF
  wf2 : B.WF
  counters1 : A.AllCounters
  counters2 : B.AllCounters
  noLabel1 : ∀ s, ∀ a ∈ A.trsOf s, a.olabel ≠ NO_LABEL
  noLabel2 : ∀ s, ∀ b ∈ B.trsOf s, b.ilabel ≠ NO_LABEL
  true1 : A.props .oLabelSorted = true → ∀ s, ((A.trsOf s).map (·.olabel)).Pairwise (· ≤ ·)
  true2 : B.props .iLabelSorted = true → ∀ s, ((B.trsOf s).map (·.ilabel)).Pairwise (· ≤ ·)
  sorted : A.props .oLabelSorted = true ∨ B.props .iLabelSorted = true

theorem matchType_ok (A B : Fst W) (h : A.props .oLabelSorted = true ∨ B.props .iLabelSorted = true) :
    ∃ mt, composeMatchType A B = .ok mt ∧ (mt ≠ .input → A.props .oLabelSorted = true) ∧ (mt ≠ .output → B.props .iLabelSorted = true) := by
  cases h1 : A.props .oLabelSorted with
  | true =>
    cases h2 : B.props .iLabelSorted with
    | true => exact ⟨.both, by simp [composeMatchType, sortedMatchType, h1, h2], by simp, by simp⟩
    | false =>
      refine ⟨.output, ?_, by simp, by simp⟩
      cases h3 : B.props .notILabelSorted <;> simp [composeMatchType, sortedMatchType, h1, h2, h3]
  | false =>
    have h2 : B.props .iLabelSorted = true := by simpa [h1] using h
    refine ⟨.input, ?_, by simp, by simp [h2]⟩
    cases h3 : A.props .notOLabelSorted <;> simp [composeMatchType, sortedMatchType, h1, h2, h3]

theorem sortedMatchType_no (f : Fst W) (input test : Bool) (h : f.props (if input then .iLabelSorted else .oLabelSorted) = false) :
    (test = true ∧ sortedMatchType f input test = .error .err) ∨ sortedMatchType f input test = .ok .none ∨ sortedMatchType f input test = .ok .unknown := by
  cases hk : (test && !f.props.knows (Props.of [if input then .iLabelSorted else .oLabelSorted, if input then .notILabelSorted else .notOLabelSorted])) with
  | true => simp only [Bool.and_eq_true] at hk; exact .inl ⟨hk.1, by simp [sortedMatchType, hk]⟩
  | false =>
    cases hn : f.props (if input then .notILabelSorted else .notOLabelSorted) with
    | true => exact .inr (.inl (by simp only [sortedMatchType, hk, h, hn]; rfl))
    | false => exact .inr (.inr (by simp only [sortedMatchType, hk, h, hn]; rfl))

theorem matchType_err (A B : Fst W) (h1 : A.props .oLabelSorted = false) (h2 : B.props .iLabelSorted = false) : composeMatchType A B = .error .err := by
  have key : matchTypeTested A B = .error .err := by
    unfold matchTypeTested
    rcases sortedMatchType_no A false true h1 with ⟨_, e⟩ | e | e <;> rw [e] <;>
      rcases sortedMatchType_no B true true h2 with ⟨_, e⟩ | e | e <;> simp only [e]
  unfold composeMatchType
  rw [key]
  rcases sortedMatchType_no A false false h1 with ⟨e, _⟩ | e | e
  · cases e
  all_goals
    rcases sortedMatchType_no B true false h2 with ⟨e', _⟩ | e' | e'
    · cases e'
    · simp only [e, e']
    · simp only [e, e']

theorem Operands.composable {A B : Fst W} (h : Operands A B) : ∃ mt, composeMatchType A B = .ok mt ∧ Composable A B mt := by
  obtain ⟨mt, h1, h2, h3⟩ := matchType_ok A B h.sorted
  exact ⟨mt, h1, ⟨h.wf1, h.wf2, h.noLabel1, h.noLabel2⟩, fun hm => h.true1 (h2 hm), fun hm => h.true2 (h3 hm)⟩

section
variable [CommMonoidWithZero W] [DecidableEq W]

/-- C39: over commutative weights `compose` ends without error, and its result is the relational composition: paths correspond one to one
to pairs of a path of the first FST and a path of the second whose middle tapes agree, with the product weight, whatever ε there are
on the middle tape, paths of weight zero aside. Every state of the result is on an accepting path. -/
theorem C39_compose {A B : Fst W} (h : Operands A B) :
    ∃ C, EndsWith (compose A B) (.ok C) ∧ C.WF ∧ C.AllCounters ∧ IsComposition A B C ∧ ∀ q, q < C.numStates → C.Accessible q ∧ C.Coaccessible q := by
  obtain ⟨mt, h1, hc⟩ := h.composable
  obtain ⟨C, hC, hw, hct, hi⟩ := compose_static hc (seqFilter_law hc.toJoinable h.counters1) (Set.finite_Iic 1) h1 true
  refine ⟨C, hC, hw, hct, hi, ?_⟩
  obtain ⟨D, z, ⟨N, hN⟩, h2, h3, h4⟩ := compose_lazy hc (seqFilter_law hc.toJoinable h.counters1) (Set.finite_Iic 1)
  obtain ⟨N', hN'⟩ := hC
  have a := hN (max N N') (le_max_left _ _)
  have b := hN' (max N N') (le_max_right _ _)
  simp only [composeWith, composeNew, h1, a, if_true, Option.some.injEq] at b
  exact C18_trim D C h2 b

/-- C39 for every filter that takes care of ε: the sequence, the alternative sequence and the match filter, with or without `connect`. -/
theorem C39_filters {A B : Fst W} (h : Operands A B) (connect : Bool) (F : ComposeFilter Nat W) (hF : F = seqFilter ∨ F = altFilter ∨ F = matchFilter) :
    ∃ C, EndsWith (composeWith F connect A B) (.ok C) ∧ C.WF ∧ C.AllCounters ∧ IsComposition A B C := by
  obtain ⟨mt, h1, hc⟩ := h.composable
  rcases hF with rfl | rfl | rfl
  · exact compose_static hc (seqFilter_law hc.toJoinable h.counters1) (Set.finite_Iic 1) h1 connect
  · exact compose_static hc (altFilter_law hc.toJoinable h.counters2) (Set.finite_Iic 1) h1 connect
  · exact compose_static hc (matchFilter_law hc.toJoinable h.counters1 h.counters2) (Set.finite_Iic 2) h1 connect

/-- C39 for the filters that do not: the trivial and the no-match filter give the composition when one side has no ε on the middle tape, the
null filter when neither has. -/
theorem C39_plain_filters {A B : Fst W} (h : Operands A B) (connect : Bool) (F : ComposeFilter Unit W)
    (hF : (F = nullFilter ∧ NoEps Tr.olabel A ∧ NoEps Tr.ilabel B) ∨ ((F = trivialFilter ∨ F = noMatchFilter) ∧ (NoEps Tr.olabel A ∨ NoEps Tr.ilabel B))) :
    ∃ C, EndsWith (composeWith F connect A B) (.ok C) ∧ C.WF ∧ C.AllCounters ∧ IsComposition A B C := by
  obtain ⟨mt, h1, hc⟩ := h.composable
  rcases hF with ⟨rfl, ha, hb⟩ | ⟨rfl | rfl, hab⟩
  · exact compose_static hc (nullFilter_law hc.toJoinable ha hb) (Set.toFinite _) h1 connect
  · exact compose_static hc (trivialFilter_law hab) (Set.toFinite _) h1 connect
  · exact compose_static hc (noMatchFilter_law hab) (Set.toFinite _) h1 connect

/-- C39: without a sorted operand `compose` is an error, whatever the filter. -/
theorem C39_unsorted {FS : Type} [DecidableEq FS] (F : ComposeFilter FS W) (connect : Bool) (A B : Fst W) (n : Nat) (h1 : A.props .oLabelSorted = false) (h2 : B.props .iLabelSorted = false) :
    composeWith F connect A B n = some (.error .err) := by
  simp only [composeWith, composeNew, matchType_err A B h1 h2]

/-! ### What being the composition means for strings and weights -/

/-- C39 as a relation: the composition accepts `x`, `z` with weight `w ≠ 0` exactly if there is a `y` such that the first FST accepts `x`, `y`, the second `y`, `z`, and the
product of the weights is `w`. -/
theorem C39_relation {A B C : Fst W} (h : IsComposition A B C) (x z : List Label) (w : W) (hw : w ≠ 0) :
    C.Accepts x z w ↔ ∃ y w1 w2, A.Accepts x y w1 ∧ B.Accepts y z w2 ∧ w = w1 * w2 := by
  obtain ⟨part, p1, p2, p3⟩ := h
  constructor
  · rintro ⟨N, hN⟩
    rw [p1, mem_sum_range] at hN
    obtain ⟨n, _, hn⟩ := hN
    obtain ⟨m, _, hm⟩ := mem_sum_range.1 hn
    have hle : N ≤ n + m := (p2 N n m fun e => Multiset.notMem_zero _ (e ▸ hm)).2.2
    have : (x, z, w) ∈ nonzero (∑ N ∈ Finset.range (n + m + 1), part N n m) :=
      mem_nonzero.2 ⟨mem_sum_range.2 ⟨N, by omega, hm⟩, hw⟩
    rw [p3] at this
    obtain ⟨p, hp, q, hq, e, e'⟩ := mem_join.1 (mem_nonzero.1 this).1
    simp only [Prod.mk.injEq] at e'
    obtain ⟨rfl, rfl, rfl⟩ := e'
    exact ⟨p.2.1, p.2.2, q.2.2, ⟨n, hp⟩, ⟨m, e ▸ hq⟩, rfl⟩
  · rintro ⟨y, w1, w2, ⟨n, hn⟩, ⟨m, hm⟩, rfl⟩
    have : (x, z, w1 * w2) ∈ nonzero (joinPaths (A.accPaths n) (B.accPaths m)) :=
      mem_nonzero.2 ⟨mem_join.2 ⟨_, hn, _, hm, rfl, rfl⟩, hw⟩
    rw [← p3] at this
    obtain ⟨N, _, hN⟩ := mem_sum_range.1 (mem_nonzero.1 this).1
    refine ⟨N, ?_⟩
    rw [p1, mem_sum_range]
    obtain ⟨hn, hm, _⟩ := p2 N n m fun e => Multiset.notMem_zero _ (e ▸ hN)
    exact ⟨n, by omega, mem_sum_range.2 ⟨m, by omega, hN⟩⟩

end

section
variable [CommSemiring W] [DecidableEq W]

theorem sumOf_cons (p : PathT W) (P : Multiset (PathT W)) (x y : List Label) :
    sumOf (p ::ₘ P) x y = (if p.1 = x ∧ p.2.1 = y then p.2.2 else 0) + sumOf P x y := by
  unfold sumOf
  rw [Multiset.filter_cons]
  by_cases h : p.1 = x ∧ p.2.1 = y <;> simp [h]

theorem sumOf_nonzero (P : Multiset (PathT W)) (x y : List Label) : sumOf (nonzero P) x y = sumOf P x y := by
  induction P using Multiset.induction_on with
  | empty => rfl
  | cons p P ih =>
    rw [sumOf_cons, ← ih]
    unfold nonzero
    by_cases h : p.2.2 = 0
    · rw [Multiset.filter_cons_of_neg (p := fun p : PathT W => p.2.2 ≠ 0) (a := p) _ (by simpa using h)]
      simp [h]
    · rw [Multiset.filter_cons_of_pos (p := fun p : PathT W => p.2.2 ≠ 0) (a := p) _ h, sumOf_cons]

theorem sumOf_join (P Q : Multiset (PathT W)) (x z : List Label) :
    sumOf (joinPaths P Q) x z = ((P.filter fun p => p.1 = x).map fun p => p.2.2 * sumOf Q p.2.1 z).sum := by
  induction P using Multiset.induction_on with
  | empty => simp [sumOf]
  | cons p P ih =>
    rw [join_cons]
    have e : sumOf (joinPaths {p} Q + joinPaths P Q) x z = sumOf (joinPaths {p} Q) x z + sumOf (joinPaths P Q) x z := by
      simp [sumOf, Multiset.filter_add]
    rw [e, ih]
    have e1 : sumOf (joinPaths {p} Q) x z = if p.1 = x then p.2.2 * sumOf Q p.2.1 z else 0 := by
      rw [join_singleton]
      unfold sumOf
      rw [Multiset.filter_map, Multiset.map_map, Multiset.filter_filter]
      by_cases h : p.1 = x
      · rw [if_pos h, ← Multiset.sum_map_mul_left]
        simp [Function.comp_def, h, and_comm]
      · rw [if_neg h]
        simp [Function.comp_def, h]
    rw [e1]
    by_cases h : p.1 = x
    · rw [if_pos h, Multiset.filter_cons_of_pos (p := fun p : PathT W => p.1 = x) (a := p) _ h, Multiset.map_cons, Multiset.sum_cons]
    · rw [if_neg h, Multiset.filter_cons_of_neg (p := fun p : PathT W => p.1 = x) (a := p) _ h, zero_add]

/-- C39 for weights: in a commutative semiring, the paths of the composition that use `n` and `m` transitions of the operands and transduce `x` to `z` have as sum of weights the
sum, over the paths of the first FST that read `x`, of the weight of the path times the weight with which the second transduces its output to `z`. -/
theorem C39_weights {A B C : Fst W} (h : IsComposition A B C) : ∃ part : Nat → Nat → Nat → Multiset (PathT W),
    (∀ N, C.accPaths N = ∑ n ∈ Finset.range (N + 1), ∑ m ∈ Finset.range (N + 1), part N n m) ∧ (∀ N n m, part N n m ≠ 0 → n ≤ N ∧ m ≤ N ∧ N ≤ n + m) ∧
    ∀ n m x z, sumOf (∑ N ∈ Finset.range (n + m + 1), part N n m) x z =
      (((A.accPaths n).filter fun p => p.1 = x).map fun p => p.2.2 * B.weightOf m p.2.1 z).sum := by
  obtain ⟨part, p1, p2, p3⟩ := h
  refine ⟨part, p1, p2, fun n m x z => ?_⟩
  rw [← sumOf_nonzero, p3, sumOf_nonzero, sumOf_join]
  rfl

end

/-! ### Concrete cases -/

/-- Deletes `1` and rewrites `2` to `5`. -/
def exFirst : Fst Nat := ⟨[⟨none, [⟨1, 0, 2, 1⟩], 0, 1⟩, ⟨none, [⟨2, 5, 3, 2⟩], 0, 0⟩, ⟨some 1, [], 0, 0⟩], some 0, Props.of [.oLabelSorted]⟩

/-- Inserts `7` and rewrites `5` to `8`. -/
def exSecond : Fst Nat := ⟨[⟨none, [⟨0, 7, 5, 1⟩], 1, 0⟩, ⟨none, [⟨5, 8, 7, 2⟩], 0, 0⟩, ⟨some 1, [], 0, 0⟩], some 0, Props.of [.iLabelSorted]⟩

theorem exOperands : Operands exFirst exSecond := by
  have h1 : ∀ s, exFirst.trsOf s = [⟨1, 0, 2, 1⟩] ∨ exFirst.trsOf s = [⟨2, 5, 3, 2⟩] ∨ exFirst.trsOf s = [] := by
    intro s; rcases s with _ | _ | _ | s <;> simp [exFirst, Fst.trsOf]
  have h2 : ∀ s, exSecond.trsOf s = [⟨0, 7, 5, 1⟩] ∨ exSecond.trsOf s = [⟨5, 8, 7, 2⟩] ∨ exSecond.trsOf s = [] := by
    intro s; rcases s with _ | _ | _ | s <;> simp [exSecond, Fst.trsOf]
  have n1 : exFirst.numStates = 3 := rfl
  have n2 : exSecond.numStates = 3 := rfl
  refine ⟨⟨?_, ?_⟩, ⟨?_, ?_⟩, ?_, ?_, ?_, ?_, ?_, ?_, .inl rfl⟩
  · intro s hs; cases hs; decide
  · intro s t ht; rcases h1 s with e | e | e <;> simp [e] at ht <;> subst ht <;> simp [n1]
  · intro s hs; cases hs; decide
  · intro s t ht; rcases h2 s with e | e | e <;> simp [e] at ht <;> subst ht <;> simp [n2]
  · intro s st hst
    rcases s with _ | _ | _ | s <;> simp [exFirst] at hst <;> subst hst <;> exact ⟨rfl, rfl⟩
  · intro s st hst
    rcases s with _ | _ | _ | s <;> simp [exSecond] at hst <;> subst hst <;> exact ⟨rfl, rfl⟩
  · intro s t ht; rcases h1 s with e | e | e <;> simp [e] at ht <;> subst ht <;> simp [NO_LABEL]
  · intro s t ht; rcases h2 s with e | e | e <;> simp [e] at ht <;> subst ht <;> simp [NO_LABEL]
  · intro _ s; rcases h1 s with e | e | e <;> simp [e]
  · intro _ s; rcases h2 s with e | e | e <;> simp [e]

/-- First the first FST reads ε, then the second: one path, not three. -/
example : (compose exFirst exSecond 10).map (fun r => r.toOption.map fun C => (C.states, C.start)) = some (some (
    [⟨none, [⟨1, 0, 2, 1⟩], 0, 1⟩, ⟨none, [⟨0, 7, 5, 2⟩], 1, 0⟩, ⟨none, [⟨2, 8, 21, 3⟩], 0, 0⟩, ⟨some 1, [], 0, 0⟩], some 0)) := by rfl

/-- It takes `1 2` to `7 8`. -/
example : ∃ C, EndsWith (compose exFirst exSecond) (.ok C) ∧ C.Accepts [1, 2] [7, 8] 210 := by
  obtain ⟨C, h1, _, _, h2, _⟩ := C39_compose exOperands
  refine ⟨C, h1, (C39_relation h2 _ _ _ (by decide)).2 ⟨[5], 6, 35, ⟨2, ?_⟩, ⟨2, ?_⟩, rfl⟩⟩
  · exact Multiset.mem_singleton.2 rfl
  · exact Multiset.mem_singleton.2 rfl

/-- With ε on both sides the trivial filter lets the same pair of paths through three times. -/
theorem C39_trivial_duplicates : ∃ C, composeWith trivialFilter false exFirst exSecond 10 = some (.ok C) ∧
    C.accPaths 2 + C.accPaths 3 = Multiset.replicate 3 ([1, 2], [7, 8], 210) ∧
    (exFirst.accPaths 2).card = 1 ∧ (exSecond.accPaths 2).card = 1 := by
  refine ⟨_, rfl, ?_, ?_, ?_⟩ <;> decide

/-- The no-match filter lets it through twice. -/
theorem C39_noMatch_duplicates : ∃ C, composeWith noMatchFilter false exFirst exSecond 10 = some (.ok C) ∧
    C.accPaths 2 + C.accPaths 3 = Multiset.replicate 2 ([1, 2], [7, 8], 210) := by
  refine ⟨_, rfl, ?_⟩; decide

/-- The null filter only lets both FSTs read ε together: with ε on one side alone the pair is lost. -/
theorem C39_null_loses : ∃ C, composeWith nullFilter false exFirst ⟨[⟨none, [⟨5, 8, 7, 1⟩], 0, 0⟩, ⟨some 1, [], 0, 0⟩], some 0, Props.of [.iLabelSorted]⟩ 10 = some (.ok C) ∧
    C.numStates = 1 ∧ exFirst.Accepts [1, 2] [5] 6 := by
  refine ⟨_, rfl, by rfl, 2, ?_⟩
  exact Multiset.mem_singleton.2 rfl

/-- One transition with output `u32::MAX`, which is a legal label, and one that reads it. -/
def exMaxLabel : Fst Nat := ⟨[⟨none, [⟨1, 4294967295, 1, 1⟩], 0, 0⟩, ⟨some 1, [], 0, 0⟩], some 0, Props.of [.oLabelSorted]⟩
def exMaxLabel2 : Fst Nat := ⟨[⟨none, [⟨4294967295, 2, 1, 1⟩], 0, 0⟩, ⟨some 1, [], 0, 0⟩], some 0, Props.of [.iLabelSorted]⟩

/-- The hypothesis about `NO_LABEL` is needed: a transition with this label on the middle tape is not matched. -/
theorem C39_noLabel_defect : exMaxLabel.Accepts [1] [4294967295] 1 ∧ exMaxLabel2.Accepts [4294967295] [2] 1 ∧
    ∃ C, compose exMaxLabel exMaxLabel2 10 = some (.ok C) ∧ C.numStates = 0 := by
  refine ⟨⟨1, Multiset.mem_singleton.2 rfl⟩, ⟨1, Multiset.mem_singleton.2 rfl⟩, _, rfl, by rfl⟩

end Verif
