import Verif.Model.LookAhead
import Verif.Lemmas.Sigma
import Verif.Lemmas.ComposeStatic

/-!
# Composition with a filter that cuts off dead ends and moves weights

The filter `F'` follows a filter `F`: it lets through the same pairs, except some that lead nowhere, and its state carries a weight that has already been given.
-/

namespace Verif
universe u
variable {W : Type u} {FS FS' : Type}

section
variable [One W] [Mul W] (A B : Fst W)

/-- What becomes of a pair. -/
def pairTrL (flt : Tr W → Tr W → R (Option (FS × W × W))) (x : Tr W × Tr W) : Option (MTr (CTup FS) W) :=
  match flt x.1 x.2 with
  | .ok (some (fs, w1, w2)) => some ⟨x.1.ilabel, x.2.olabel, w1 * w2, ⟨fs, x.1.nextstate, x.2.nextstate⟩⟩
  | _ => none

theorem selectedL_ok (input : Bool) (flt : Tr W → Tr W → R (Option (FS × W × W))) (sa : StateId) (tr : Tr W) (it : List (IterItem W))
    (h : ∀ i ∈ it, ∃ r, flt (if input then tr else i.intoTr sa input) (if input then i.intoTr sa input else tr) = .ok r) :
    matchTrSelectedL input flt sa tr it = .ok ((it.map fun i => ((if input then tr else i.intoTr sa input), if input then i.intoTr sa input else tr)).filterMap (pairTrL flt)) := by
  unfold matchTrSelectedL
  rw [collectR_ok (g := fun i => (pairTrL flt ((if input then tr else i.intoTr sa input), if input then i.intoTr sa input else tr)).toList)]
  · congr 1
    rw [List.filterMap_map]
    induction it with
    | nil => rfl
    | cons i it ih =>
      rw [List.flatMap_cons, ih fun j hj => h j (List.mem_cons_of_mem _ hj), List.filterMap_cons]
      simp only [Function.comp_apply]
      cases pairTrL flt (if input = true then tr else i.intoTr sa input, if input = true then i.intoTr sa input else tr) <;> rfl
  · intro i hi
    obtain ⟨r, hr⟩ := h i hi
    simp only [hr, pairTrL]
    cases r with
    | none => rfl
    | some r => rfl

theorem expandL_in (flt : Tr W → Tr W → R (Option (FS × W × W))) {s1 s2 : StateId} (h1 : s1 < A.numStates) (h2 : s2 < B.numStates)
    (h : ∀ x ∈ pairsIn (sortedIter true (B.trsOf s2)) s1 s2 (A.trsOf s1), ∃ r, flt x.1 x.2 = .ok r) :
    orderedExpandL A B true flt s2 s1 = .ok ((pairsIn (sortedIter true (B.trsOf s2)) s1 s2 (A.trsOf s1)).filterMap (pairTrL flt)) := by
  have g1 : A.getTrsR s1 = .ok (A.trsOf s1) := by
    have : A.states[s1]? = some A.states[s1] := List.getElem?_eq_getElem h1
    simp [Fst.getTrsR, Fst.trsOf, this]
  have step : ∀ a ∈ loop1 s1 :: A.trsOf s1, matchTrL B true flt s2 a = .ok (((sortedIter true (B.trsOf s2) a.olabel).map fun i => (a, i.intoTr s2 true)).filterMap (pairTrL flt)) := by
    intro a ha
    simp only [matchTrL, if_true, sortedIterR_ok h2]
    rw [selectedL_ok]
    · simp only [if_true]
    · intro i hi
      exact h (a, i.intoTr s2 true) (List.mem_flatMap.2 ⟨a, ha, List.mem_map_of_mem hi⟩)
  simp only [orderedExpandL, if_true, g1]
  have := step (loop1 s1) (by simp)
  simp only [loop1] at this
  rw [this, collectR_ok fun a ha => step a (List.mem_cons_of_mem _ ha)]
  simp only [pairsIn, List.flatMap_cons, List.filterMap_append, List.filterMap_flatMap]
  rfl

theorem expandL_out (flt : Tr W → Tr W → R (Option (FS × W × W))) {s1 s2 : StateId} (h1 : s1 < A.numStates) (h2 : s2 < B.numStates)
    (h : ∀ x ∈ pairsOut (sortedIter false (A.trsOf s1)) s1 s2 (B.trsOf s2), ∃ r, flt x.1 x.2 = .ok r) :
    orderedExpandL A B false flt s1 s2 = .ok ((pairsOut (sortedIter false (A.trsOf s1)) s1 s2 (B.trsOf s2)).filterMap (pairTrL flt)) := by
  have g2 : B.getTrsR s2 = .ok (B.trsOf s2) := by
    have : B.states[s2]? = some B.states[s2] := List.getElem?_eq_getElem h2
    simp [Fst.getTrsR, Fst.trsOf, this]
  have step : ∀ b ∈ loop2 s2 :: B.trsOf s2, matchTrL A false flt s1 b = .ok (((sortedIter false (A.trsOf s1) b.ilabel).map fun i => (i.intoTr s1 false, b)).filterMap (pairTrL flt)) := by
    intro b hb
    simp only [matchTrL, Bool.false_eq_true, if_false, sortedIterR_ok h1]
    rw [selectedL_ok]
    · simp only [Bool.false_eq_true, if_false]
    · intro i hi
      exact h (i.intoTr s1 false, b) (List.mem_flatMap.2 ⟨b, hb, List.mem_map_of_mem hi⟩)
  simp only [orderedExpandL, Bool.false_eq_true, if_false, g2]
  have := step (loop2 s2) (by simp)
  simp only [loop2] at this
  rw [this, collectR_ok fun a ha => step a (List.mem_cons_of_mem _ ha)]
  simp only [pairsOut, List.flatMap_cons, List.filterMap_append, List.filterMap_flatMap]
  rfl

/-- The transitions of a tuple, with how far they get in each operand. -/
def laTag (F : LaFilter FS W) (t : CTup FS) : Multiset (MTr (CTup FS) W × Nat × Nat) :=
  match F.filter t.s1 t.s2 t.fs with
  | .error _ => 0
  | .ok flt => (pairsU A B t.s1 t.s2).filterMap fun x => (pairTrL flt x).map fun tr =>
      (tr, (if x.1.olabel = NO_LABEL then 0 else 1), (if x.2.ilabel = NO_LABEL then 0 else 1))

variable {A B} {F : LaFilter FS W}

theorem laTag_le (t : CTup FS) : ∀ x ∈ laTag A B F t, x.2.1 ≤ 1 ∧ x.2.2 ≤ 1 := by
  intro x hx
  unfold laTag at hx
  split at hx
  · simp at hx
  · obtain ⟨p, _, h⟩ := (Multiset.mem_filterMap _ _).1 hx
    rw [Option.map_eq_some_iff] at h
    obtain ⟨fs, _, rfl⟩ := h
    constructor <;> dsimp <;> split <;> omega

theorem laTag_pos (h : Joinable A B) (t : CTup FS) : ∀ x ∈ laTag A B F t, 1 ≤ x.2.1 + x.2.2 := by
  intro x hx
  unfold laTag at hx
  split at hx
  · simp at hx
  · obtain ⟨p, hp, hq⟩ := (Multiset.mem_filterMap _ _).1 hx
    rw [Option.map_eq_some_iff] at hq
    obtain ⟨fs, _, rfl⟩ := hq
    dsimp
    rcases mem_pairsU hp with ⟨_, h2⟩ | ⟨h1, _⟩ | ⟨h1, _⟩
    · rw [if_neg (h.noLabel2 _ _ h2)]; omega
    · rw [if_neg (h.noLabel1 _ _ h1)]; omega
    · rw [if_neg (h.noLabel1 _ _ h1)]; omega

theorem composeTrsL_eq {mt : MatchT} (h : Composable A B mt) (t : CTup FS) (h1 : t.s1 < A.numStates) (h2 : t.s2 < B.numStates) {flt}
    (hf : F.filter t.s1 t.s2 t.fs = .ok flt) (hok : ∀ x ∈ pairsU A B t.s1 t.s2, ∃ r, flt x.1 x.2 = .ok r) :
    ∃ l, composeTrsL A B F mt t = .ok l ∧ (l : Multiset (MTr (CTup FS) W)) = (laTag A B F t).map (·.1) := by
  have g1 : A.states[t.s1]? = some A.states[t.s1] := List.getElem?_eq_getElem h1
  have g2 : B.states[t.s2]? = some B.states[t.s2] := List.getElem?_eq_getElem h2
  have e : (laTag A B F t).map (·.1) = (pairsU A B t.s1 t.s2).filterMap (pairTrL flt) := by
    unfold laTag
    rw [hf]
    dsimp only
    rw [Multiset.map_filterMap]
    congr 1
    funext x
    simp [Function.comp_def]
  have hin : mt ≠ .output → ∃ l, orderedExpandL A B true flt t.s2 t.s1 = .ok l ∧ (l : Multiset (MTr (CTup FS) W)) = (laTag A B F t).map (·.1) := by
    intro hm
    have hs : sortedIter true (B.trsOf t.s2) = idealIter true (B.trsOf t.s2) := funext (sortedIter_ideal (by rw [sideLabel_true]; exact h.sorted2 hm _))
    refine ⟨_, expandL_in A B flt h1 h2 ?_, ?_⟩
    · intro x hx
      rw [hs, ← Multiset.mem_coe, pairsIn_eq (h.noLabel1 _)] at hx
      exact hok x hx
    · rw [e, ← pairsIn_eq (h.noLabel1 _), Multiset.filterMap_coe, hs]
  have hout : mt ≠ .input → ∃ l, orderedExpandL A B false flt t.s1 t.s2 = .ok l ∧ (l : Multiset (MTr (CTup FS) W)) = (laTag A B F t).map (·.1) := by
    intro hm
    have hs : sortedIter false (A.trsOf t.s1) = idealIter false (A.trsOf t.s1) := funext (sortedIter_ideal (by rw [sideLabel_false]; exact h.sorted1 hm _))
    refine ⟨_, expandL_out A B flt h1 h2 ?_, ?_⟩
    · intro x hx
      rw [hs, ← Multiset.mem_coe, pairsOut_eq (h.noLabel2 _)] at hx
      exact hok x hx
    · rw [e, ← pairsOut_eq (h.noLabel2 _), Multiset.filterMap_coe, hs]
  unfold composeTrsL
  rw [hf]
  cases mt with
  | input => exact hin (by simp)
  | output => exact hout (by simp)
  | both =>
    simp only [matchInput, Fst.numTrsR, g1, g2]
    by_cases hc : A.states[t.s1].trs.length ≤ B.states[t.s2].trs.length
    · simp only [hc, decide_true]; exact hin (by simp)
    · simp only [hc, decide_false]; exact hout (by simp)

end

/-! ### The paths -/

section
variable [CommMonoidWithZero W] [DecidableEq W]

/-- No pair of paths that a tuple stands for has a weight. -/
def Dead (A B : Fst W) (ok : FS → Bool → Bool → Bool) (t : CTup FS) : Prop := ∀ n m, nonzero (blocks A B (ok t.fs) n m t.s1 t.s2) = 0

/-- The filter `F'` follows `F`: `base` is the state of `F`, `given` the weight already given, `P` what the tuples have in common. -/
structure Follows (A B : Fst W) (F : ComposeFilter FS W) (F' : LaFilter FS' W) (ok : FS → Bool → Bool → Bool) (Valid : FS → Prop)
    (base : FS' → FS) (given : FS' → W) (P : CTup FS' → Prop) : Prop where
  start : base F'.start = F.start ∧ given F'.start = 1 ∧ ∀ s1 s2, A.start = some s1 → B.start = some s2 → P ⟨F'.start, s1, s2⟩
  lt : ∀ t, P t → (⟨base t.fs, t.s1, t.s2⟩ : CTup FS).Ok A B Valid
  step : ∀ t, P t → ∃ flt flt', F.filter A B t.s1 t.s2 (base t.fs) = .ok flt ∧ F'.filter t.s1 t.s2 t.fs = .ok flt' ∧
    ∀ a b, (a, b) ∈ pairsU A B t.s1 t.s2 →
      (flt a b = none → flt' a b = .ok none) ∧
      ∀ fs, flt a b = some fs → (flt' a b = .ok none ∧ Dead A B ok ⟨fs, a.nextstate, b.nextstate⟩) ∨
        ∃ fs' w1 w2, flt' a b = .ok (some (fs', w1, w2)) ∧ base fs' = fs ∧ given t.fs * (w1 * w2) = a.weight * b.weight * given fs' ∧
          P ⟨fs', a.nextstate, b.nextstate⟩
  final : ∀ t, P t → ∀ w1 w2, A.finOf t.s1 = some w1 → B.finOf t.s2 = some w2 → ∃ v1 v2, F'.final t.fs w1 w2 = .ok (v1, v2) ∧ given t.fs * (v1 * v2) = w1 * w2

/-- A path with a further weight. -/
def scalePath (w : W) (p : PathT W) : PathT W := (p.1, p.2.1, w * p.2.2)

section
variable {A B : Fst W} {F : ComposeFilter FS W} {F' : LaFilter FS' W} {ok : FS → Bool → Bool → Bool} {Valid : FS → Prop} {base : FS' → FS} {given : FS' → W}
  {P : CTup FS' → Prop} (hj : Joinable A B) (hF : FilterLaw A B F ok Valid) (hG : Follows A B F F' ok Valid base given P)

/-- The final weight of a tuple. -/
def laFinOf (A B : Fst W) (F : LaFilter FS' W) (t : CTup FS') : Option W :=
  match composeFinL A B F t with
  | .ok w => w
  | .error _ => none

include hG

theorem Follows.fin {t : CTup FS'} (ht : P t) : composeFinL A B F' t = .ok (laFinOf A B F' t) ∧
    nonzero ((finPath (laFinOf A B F' t)).map (scalePath (given t.fs))) = nonzero (finPath (composeFinOf A B (⟨base t.fs, t.s1, t.s2⟩ : CTup FS))) := by
  obtain ⟨h1, h2, -⟩ := hG.lt t ht
  obtain ⟨flt, flt', -, hf, -⟩ := hG.step t ht
  have g1 : A.finalWeightR t.s1 = .ok (A.finOf t.s1) := by
    have : A.states[t.s1]? = some A.states[t.s1] := List.getElem?_eq_getElem h1
    simp [Fst.finalWeightR, Fst.finOf, this]
  have g2 : B.finalWeightR t.s2 = .ok (B.finOf t.s2) := by
    have : B.states[t.s2]? = some B.states[t.s2] := List.getElem?_eq_getElem h2
    simp [Fst.finalWeightR, Fst.finOf, this]
  have hn := hG.final t ht
  unfold laFinOf composeFinL composeFinOf
  rw [g1, g2, hf]
  dsimp only
  cases e1 : A.finOf t.s1 with
  | none => exact ⟨rfl, rfl⟩
  | some w1 =>
    cases e2 : B.finOf t.s2 with
    | none => exact ⟨rfl, rfl⟩
    | some w2 =>
      obtain ⟨v1, v2, hv, hw⟩ := hn w1 w2 e1 e2
      simp only [hv, true_and]
      by_cases hz : v1 * v2 = 0
      · rw [if_pos hz, if_pos (by rw [← hw, hz, mul_zero])]; rfl
      · rw [if_neg hz]
        by_cases hz' : w1 * w2 = 0
        · rw [if_pos hz']
          simp [finPath, scalePath, hw, hz', nonzero, Multiset.filter_singleton]
        · rw [if_neg hz']
          simp [finPath, scalePath, hw]

include hj hF

/-- With the weight already given, the paths from a tuple are the paths the filter `F` would leave. -/
theorem Follows.graded : ∀ k n m : Nat, n + m = k → ∀ t : CTup FS', P t →
    nonzero ((gradedAll (laFinOf A B F') (laTag A B F') n m t).map (scalePath (given t.fs))) =
      nonzero (gradedAll (composeFinOf A B) (composeTag A B F) n m ⟨base t.fs, t.s1, t.s2⟩) := by
  intro k
  induction k using Nat.strong_induction_on with
  | _ k ih =>
  rintro n m rfl t ht
  obtain ⟨flt, flt', hf, hf', hx⟩ := hG.step t ht
  have hlt := hG.lt t ht
  rw [gradedAll_rec (laTag_pos hj), gradedAll_rec (tag_pos hj), Multiset.map_add]
  refine nz_add ?_ ?_
  · by_cases h0 : n = 0 ∧ m = 0
    · rw [if_pos h0, if_pos h0]; exact (hG.fin ht).2
    · rw [if_neg h0, if_neg h0]; rfl
  · have hnext := tag_next hF hj hlt
    have eT : composeTag A B F ⟨base t.fs, t.s1, t.s2⟩ = (pairsU A B t.s1 t.s2).filterMap fun x => (flt x.1 x.2).map fun fs =>
        (addTr x.1 x.2 fs, (if x.1.olabel = NO_LABEL then 0 else 1), (if x.2.ilabel = NO_LABEL then 0 else 1)) := by
      unfold composeTag; dsimp only at hf ⊢; rw [hf]
    have eT' : laTag A B F' t = (pairsU A B t.s1 t.s2).filterMap fun x => (pairTrL flt' x).map fun tr =>
        (tr, (if x.1.olabel = NO_LABEL then 0 else 1), (if x.2.ilabel = NO_LABEL then 0 else 1)) := by
      unfold laTag; rw [hf']
    have hpos := tag_pos (F := F) hj ⟨base t.fs, t.s1, t.s2⟩
    rw [eT] at hnext hpos
    rw [eT, eT', bind_filterMap, bind_filterMap, Multiset.map_bind]
    refine nz_bindM _ fun x hmem => ?_
    obtain ⟨hx1, hx2⟩ := hx x.1 x.2 hmem
    cases hflt : flt x.1 x.2 with
    | none => simp [pairTrL, hx1 hflt]
    | some fs =>
      have hin := (Multiset.mem_filterMap (fun x : Tr W × Tr W => (flt x.1 x.2).map fun fs => (addTr x.1 x.2 fs, (if x.1.olabel = NO_LABEL then 0 else 1), (if x.2.ilabel = NO_LABEL then 0 else 1))) (pairsU A B t.s1 t.s2) (b := (addTr x.1 x.2 fs, (if x.1.olabel = NO_LABEL then 0 else 1), (if x.2.ilabel = NO_LABEL then 0 else 1)))).2 ⟨x, hmem, by rw [hflt]; rfl⟩
      have hok := hnext _ hin
      have hp := hpos _ hin
      simp only [Option.map_some, Option.elim_some]
      dsimp only at hp hok
      generalize (if x.1.olabel = NO_LABEL then 0 else 1) = i at hp ⊢
      generalize (if x.2.ilabel = NO_LABEL then 0 else 1) = j at hp ⊢
      rcases hx2 fs hflt with ⟨hnone, hdead⟩ | ⟨fs', w1, w2, hsome, hb, hw, hP⟩
      · have e : pairTrL flt' x = none := by simp [pairTrL, hnone]
        rw [e]
        simp only [Option.map_none, Option.elim_none, Multiset.map_zero]
        split
        · rename_i hc
          have : nonzero (gradedAll (composeFinOf A B) (composeTag A B F) (n - i) (m - j) (addTr x.1 x.2 fs).next) = nonzero 0 := by
            rw [compose_blocks hj hF _ _ _ rfl _ hok]
            exact hdead _ _
          exact (nz_map this _).symm
        · rfl
      · have e : pairTrL flt' x = some ⟨x.1.ilabel, x.2.olabel, w1 * w2, ⟨fs', x.1.nextstate, x.2.nextstate⟩⟩ := by simp [pairTrL, hsome]
        rw [e]
        simp only [Option.map_some, Option.elim_some]
        split
        · rename_i hc
          rw [Multiset.map_map]
          have := nz_map (ih _ (show n - i + (m - j) < n + m by omega) _ _ rfl _ hP) (addTr x.1 x.2 fs).asPath
          rw [Multiset.map_map] at this
          refine Eq.trans ?_ (this.trans ?_)
          · congr 1
            refine Multiset.map_congr rfl fun p _ => ?_
            simp only [Function.comp_apply, scalePath, MTr.asPath, addTr, PathT.cat]
            rw [← mul_assoc, hw, mul_assoc]
          · rw [hb]; rfl
        · rfl

/-- What the operation does on the tuples that can arise. -/
theorem Follows.tag_next {t : CTup FS'} (ht : P t) : ∀ x ∈ laTag A B F' t, P x.1.next := by
  intro x hx
  obtain ⟨flt, flt', hf, hf', hs⟩ := hG.step t ht
  unfold laTag at hx
  rw [hf'] at hx
  obtain ⟨p, hp, hq⟩ := (Multiset.mem_filterMap _ _).1 hx
  rw [Option.map_eq_some_iff] at hq
  obtain ⟨tr, htr, rfl⟩ := hq
  obtain ⟨h1, h2⟩ := hs p.1 p.2 hp
  cases hflt : flt p.1 p.2 with
  | none => simp [pairTrL, h1 hflt] at htr
  | some fs =>
    rcases h2 fs hflt with ⟨hnone, -⟩ | ⟨fs', w1, w2, hsome, -, -, hP⟩
    · simp [pairTrL, hnone] at htr
    · simp only [pairTrL, hsome, Option.some.injEq] at htr
      subst htr
      exact hP

omit hj hF in
theorem Follows.pairs_ok {t : CTup FS'} (ht : P t) : ∃ flt', F'.filter t.s1 t.s2 t.fs = .ok flt' ∧ ∀ x ∈ pairsU A B t.s1 t.s2, ∃ r, flt' x.1 x.2 = .ok r := by
  obtain ⟨flt, flt', hf, hf', hs⟩ := hG.step t ht
  refine ⟨flt', hf', fun x hx => ?_⟩
  obtain ⟨h1, h2⟩ := hs x.1 x.2 hx
  cases hflt : flt x.1 x.2 with
  | none => exact ⟨_, h1 hflt⟩
  | some fs =>
    rcases h2 fs hflt with ⟨hnone, -⟩ | ⟨fs', w1, w2, hsome, -⟩
    · exact ⟨_, hnone⟩
    · exact ⟨_, hsome⟩

end

section
variable {A B : Fst W} {F : ComposeFilter FS W} {F' : LaFilter FS' W} {ok : FS → Bool → Bool → Bool} {Valid : FS → Prop} {base : FS' → FS} {given : FS' → W}
  {P : CTup FS' → Prop} {mt : MatchT} (hc : Composable A B mt) (hF : FilterLaw A B F ok Valid) (hG : Follows A B F F' ok Valid base given P)
include hc hF hG

/-- The tuples and transitions of the composition. -/
theorem Follows.machine_trs {t : CTup FS'} (ht : P t) : composeTrsL A B F' mt t = .ok ((composeOpL A B F' mt).machine.trs t) ∧
    ((composeOpL A B F' mt).machine.trs t : Multiset (MTr (CTup FS') W)) = (laTag A B F' t).map (·.1) := by
  obtain ⟨flt', hf', hok⟩ := hG.pairs_ok ht
  obtain ⟨h1, h2, -⟩ := hG.lt t ht
  obtain ⟨l, e1, e2⟩ := composeTrsL_eq hc t h1 h2 hf' hok
  have : (composeOpL A B F' mt).machine.trs t = l := by simp only [TupleOp.machine, composeOpL, e1]
  rw [this]
  exact ⟨e1, e2⟩

theorem Follows.machine_fin {t : CTup FS'} (ht : P t) : composeFinL A B F' t = .ok ((composeOpL A B F' mt).machine.fin t) ∧
    (composeOpL A B F' mt).machine.fin t = laFinOf A B F' t := by
  have h := (hG.fin ht).1
  have : (composeOpL A B F' mt).machine.fin t = laFinOf A B F' t := by simp only [TupleOp.machine, composeOpL, h]
  rw [this]
  exact ⟨h, rfl⟩

theorem Follows.next {t : CTup FS'} (ht : P t) : ∀ a ∈ (composeOpL A B F' mt).machine.trs t, P a.next := by
  intro a ha
  have := (hG.machine_trs hc hF ht).2 ▸ Multiset.mem_coe.2 ha
  obtain ⟨x, hx, rfl⟩ := Multiset.mem_map.1 this
  exact hG.tag_next hc.toJoinable hF ht x hx

omit hc hF in
theorem Follows.start_ok {t : CTup FS'} (h : composeStartL A B F' = some t) : P t ∧ base t.fs = F.start ∧ given t.fs = 1 ∧ A.start = some t.s1 ∧ B.start = some t.s2 := by
  simp only [composeStartL] at h
  cases h1 : A.start with
  | none => simp [h1] at h
  | some i =>
    cases h2 : B.start with
    | none => simp [h1, h2] at h
    | some j =>
      simp only [h1, h2, Option.some.injEq] at h
      subst h
      exact ⟨hG.start.2.2 _ _ h1 h2, hG.start.1, hG.start.2.1, rfl, rfl⟩

theorem Follows.reach {t : CTup FS'} (h : (composeOpL A B F' mt).machine.Reach t) : P t := by
  induction h with
  | start h => exact (hG.start_ok h).1
  | step _ ha ih => exact hG.next hc hF ih _ ha

/-- The whole of the composition, grouped. -/
theorem Follows.machine : ∃ part : Nat → Nat → Nat → Multiset (PathT W),
    (∀ N, (composeOpL A B F' mt).machine.accPaths N = ∑ n ∈ Finset.range (N + 1), ∑ m ∈ Finset.range (N + 1), part N n m) ∧
    (∀ N n m, part N n m ≠ 0 → n ≤ N ∧ m ≤ N ∧ N ≤ n + m) ∧
    ∀ n m, nonzero (∑ N ∈ Finset.range (n + m + 1), part N n m) = nonzero (joinPaths (A.accPaths n) (B.accPaths m)) := by
  have es : (composeOpL A B F' mt).machine.start = composeStartL A B F' := rfl
  cases hs : composeStartL A B F' with
  | none =>
    refine ⟨fun _ _ _ => 0, fun N => by simp [Machine.accPaths, es, hs], fun _ _ _ h => absurd rfl h, fun n m => ?_⟩
    have : A.accPaths n = 0 ∨ B.accPaths m = 0 := by
      simp only [composeStartL] at hs
      cases h1 : A.start with
      | none => left; simp [Fst.accPaths, h1]
      | some i =>
        cases h2 : B.start with
        | none => right; simp [Fst.accPaths, h2]
        | some j => simp [h1, h2] at hs
    rcases this with h | h <;> simp [h]
  | some t =>
    obtain ⟨ht, hb, hg, h1, h2⟩ := hG.start_ok hs
    refine ⟨fun N n m => Verif.graded (composeOpL A B F' mt).machine.fin (laTag A B F') N n m t, fun N => ?_, fun N n m h => ?_, fun n m => ?_⟩
    · have := graded_sum (composeOpL A B F' mt).machine (P := P) (fun t ht => hG.next hc hF ht) (fun t ht => (hG.machine_trs hc hF ht).2) laTag_le N t ht
      simp only [Machine.accPaths, es, hs]
      exact this
    · refine ⟨?_, ?_, ?_⟩ <;> by_contra hlt
      · exact h (graded_big laTag_le N n m t (by omega))
      · exact h (graded_big laTag_le N n m t (by omega))
      · exact h (graded_long (laTag_pos hc.toJoinable) N n m t (by omega))
    · have hgr : ∀ N n m (t : CTup FS'), P t → Verif.graded (composeOpL A B F' mt).machine.fin (laTag A B F') N n m t = Verif.graded (laFinOf A B F') (laTag A B F') N n m t := by
        intro N
        induction N with
        | zero => intro n m t ht; simp only [Verif.graded, (hG.machine_fin (mt := mt) hc hF ht).2]
        | succ N ih =>
          intro n m t ht
          simp only [Verif.graded]
          refine Multiset.bind_congr fun x hx => ?_
          rw [ih _ _ _ (hG.tag_next hc.toJoinable hF ht x hx)]
      have key := hG.graded hc.toJoinable hF _ n m rfl t ht
      have e : ∑ N ∈ Finset.range (n + m + 1), Verif.graded (composeOpL A B F' mt).machine.fin (laTag A B F') N n m t = gradedAll (laFinOf A B F') (laTag A B F') n m t :=
        Finset.sum_congr rfl fun N _ => hgr N n m t ht
      have eid : (scalePath (1 : W)) = id := by funext p; simp [scalePath]
      rw [hg, eid, Multiset.map_id] at key
      rw [e, key, compose_blocks hc.toJoinable hF _ n m rfl _ ⟨(hG.lt t ht).1, (hG.lt t ht).2.1, (hG.lt t ht).2.2⟩, hb, blocks_all hF.start.2,
        Fst.accPaths_some h1, Fst.accPaths_some h2]

variable [DecidableEq FS']

/-- The composition ends, and its result holds the joined pairs of paths. -/
theorem Follows.static (hfin : {t | P t}.Finite) (hm : composeMatchType A B = .ok mt) :
    ∃ C, EndsWith (composeLook F' A B) (.ok C) ∧ C.WF ∧ C.AllCounters ∧ IsComposition A B C := by
  have hr : {t | (composeOpL A B F' mt).machine.Reach t}.Finite := hfin.subset fun t ht => hG.reach hc hF ht
  obtain ⟨inv, OL, h0⟩ := C36_table_op (composeOpL A B F' mt) (composeOpL A B F' mt).machine rfl (fun t ht => (hG.machine_trs hc hF (hG.reach hc hF ht)).1)
    (fun t ht => (hG.machine_fin hc hF (hG.reach hc hF ht)).1)
  obtain ⟨C, z, ⟨N, hN⟩, h2, h3⟩ := C38_paths vecCache_law OL h0 [] trivial hr
  obtain ⟨C', z', ⟨N', hN'⟩, h2', h3', _⟩ := C38_compute vecCache_law OL h0 [] trivial hr
  have e : (Except.ok C, z) = ((Except.ok C' : R (Fst W)), z') := by
    have a := hN (max N N') (le_max_left _ _)
    have b := hN' (max N N') (le_max_right _ _)
    rw [a] at b; injection b
  injection e with e _
  injection e with e
  subst e
  obtain ⟨part, p1, p2, p3⟩ := hG.machine hc hF
  refine ⟨C, ⟨N, fun n hn => ?_⟩, h2, h3', part, fun N => by rw [h3, p1], p2, p3⟩
  have := hN n hn
  simp only [Lz.run] at this
  simp only [composeLook, hm, this]

end
end
end Verif
