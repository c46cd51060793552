import Verif.Lemmas.ComposePairs
import Verif.Lemmas.Counters

/-!
# Why a composition filter lets through every pair of paths exactly once

A pair of paths is classified by whether each begins with ε. A state of a filter stands for a set of classes. The moves of
a filter in a state must split the pairs of these classes among themselves.
-/

namespace Verif
universe u
variable {W : Type u} {FS : Type}

theorem bind_filterMap {α β γ : Type*} (S : Multiset α) (f : α → Option β) (g : β → Multiset γ) :
    (S.filterMap f).bind g = S.bind fun x => (f x).elim 0 g := by
  induction S using Multiset.induction_on with
  | empty => simp
  | cons a S ih =>
    rw [Multiset.cons_bind, ← ih]
    cases h : f a with
    | none => rw [Multiset.filterMap_cons_none _ _ h]; simp
    | some y => rw [Multiset.filterMap_cons_some _ _ _ h, Multiset.cons_bind]; rfl

/-- Two well-formed FSTs that do not use the reserved label between them. -/
structure Joinable (A B : Fst W) : Prop where
  wf1 : A.WF
  wf2 : B.WF
  noLabel1 : ∀ s, ∀ a ∈ A.trsOf s, a.olabel ≠ NO_LABEL
  noLabel2 : ∀ s, ∀ b ∈ B.trsOf s, b.ilabel ≠ NO_LABEL

/-- The match type fits the operands: the side that is searched is sorted. -/
structure Composable (A B : Fst W) (mt : MatchT) : Prop extends Joinable A B where
  sorted1 : mt ≠ .input → ∀ s, ((A.trsOf s).map (·.olabel)).Pairwise (· ≤ ·)
  sorted2 : mt ≠ .output → ∀ s, ((B.trsOf s).map (·.ilabel)).Pairwise (· ≤ ·)

section
variable [One W] [Mul W] (A B : Fst W) (F : ComposeFilter FS W)

/-- The transitions of a tuple, with how far they get in each operand. -/
def composeTag (t : CTup FS) : Multiset (MTr (CTup FS) W × Nat × Nat) :=
  match F.filter A B t.s1 t.s2 t.fs with
  | .error _ => 0
  | .ok flt => (pairsU A B t.s1 t.s2).filterMap fun x => (flt x.1 x.2).map fun fs =>
      (addTr x.1 x.2 fs, (if x.1.olabel = NO_LABEL then 0 else 1), (if x.2.ilabel = NO_LABEL then 0 else 1))

variable {A B F}

theorem tag_le (t : CTup FS) : ∀ x ∈ composeTag A B F t, x.2.1 ≤ 1 ∧ x.2.2 ≤ 1 := by
  intro x hx
  unfold composeTag at hx
  split at hx
  · simp at hx
  · obtain ⟨p, _, h⟩ := (Multiset.mem_filterMap _ _).1 hx
    rw [Option.map_eq_some_iff] at h
    obtain ⟨fs, _, rfl⟩ := h
    constructor <;> dsimp <;> split <;> omega

theorem tag_pos (h : Joinable A B) (t : CTup FS) : ∀ x ∈ composeTag A B F t, 1 ≤ x.2.1 + x.2.2 := by
  intro x hx
  unfold composeTag at hx
  split at hx
  · simp at hx
  · obtain ⟨p, hp, hq⟩ := (Multiset.mem_filterMap _ _).1 hx
    rw [Option.map_eq_some_iff] at hq
    obtain ⟨fs, _, rfl⟩ := hq
    dsimp
    rcases mem_pairsU hp with ⟨_, h2⟩ | ⟨h1, _⟩ | ⟨h1, _⟩
    · rw [if_neg (h.noLabel2 _ _ h2)]; omega
    · rw [if_neg (h.noLabel1 _ _ h1)]; omega
    · rw [if_neg (h.noLabel1 _ _ h1)]; omega

end

section
variable [Zero W] [One W] [Mul W] [DecidableEq W] (A B : Fst W) (F : ComposeFilter FS W) {mt : MatchT}

/-- `compute_trs` on a pair of states: the pairs that pass the filter, in some order. -/
theorem composeTrs_eq (h : Composable A B mt) (t : CTup FS) (h1 : t.s1 < A.numStates) (h2 : t.s2 < B.numStates) {flt}
    (hf : F.filter A B t.s1 t.s2 t.fs = .ok flt) :
    ∃ l, composeTrs A B F mt t = .ok l ∧ (l : Multiset (MTr (CTup FS) W)) = (composeTag A B F t).map (·.1) := by
  have g1 : A.states[t.s1]? = some A.states[t.s1] := List.getElem?_eq_getElem h1
  have g2 : B.states[t.s2]? = some B.states[t.s2] := List.getElem?_eq_getElem h2
  have e : (composeTag A B F t).map (·.1) = (pairsU A B t.s1 t.s2).filterMap (pairTr flt) := by
    unfold composeTag
    rw [hf]
    dsimp only
    rw [Multiset.map_filterMap]
    congr 1
    funext x
    simp [pairTr, Function.comp_def]
  have hin : mt ≠ .output → ∃ l, orderedExpand A B true flt t.s2 t.s1 = .ok l ∧ (l : Multiset (MTr (CTup FS) W)) = (composeTag A B F t).map (·.1) := by
    intro hm
    refine ⟨_, expand_in A B flt _ _ h1 h2, ?_⟩
    have hs : sortedIter true (B.trsOf t.s2) = idealIter true (B.trsOf t.s2) := funext (sortedIter_ideal (by rw [sideLabel_true]; exact h.sorted2 hm _))
    rw [e, ← pairsIn_eq (h.noLabel1 _), Multiset.filterMap_coe, hs]
  have hout : mt ≠ .input → ∃ l, orderedExpand A B false flt t.s1 t.s2 = .ok l ∧ (l : Multiset (MTr (CTup FS) W)) = (composeTag A B F t).map (·.1) := by
    intro hm
    refine ⟨_, expand_out A B flt _ _ h1 h2, ?_⟩
    have hs : sortedIter false (A.trsOf t.s1) = idealIter false (A.trsOf t.s1) := funext (sortedIter_ideal (by rw [sideLabel_false]; exact h.sorted1 hm _))
    rw [e, ← pairsOut_eq (h.noLabel2 _), Multiset.filterMap_coe, hs]
  unfold composeTrs
  rw [hf]
  cases mt with
  | input => exact hin (by simp)
  | output => exact hout (by simp)
  | both =>
    simp only [matchInput, Fst.numTrsR, g1, g2]
    by_cases hc : A.states[t.s1].trs.length ≤ B.states[t.s2].trs.length
    · simp only [hc, decide_true]; exact hin (by simp)
    · simp only [hc, decide_false]; exact hout (by simp)

omit [One W] in
theorem composeFin_eq (t : CTup FS) (h1 : t.s1 < A.numStates) (h2 : t.s2 < B.numStates) {flt}
    (hf : F.filter A B t.s1 t.s2 t.fs = .ok flt) :
    composeFin A B F t = .ok (match A.finOf t.s1, B.finOf t.s2 with
      | some w1, some w2 => if w1 * w2 = 0 then none else some (w1 * w2)
      | _, _ => none) := by
  have g1 : A.states[t.s1]? = some A.states[t.s1] := List.getElem?_eq_getElem h1
  have g2 : B.states[t.s2]? = some B.states[t.s2] := List.getElem?_eq_getElem h2
  simp only [composeFin, Fst.finalWeightR, g1, g2, Fst.finOf, hf]
  cases A.states[t.s1].fin <;> cases B.states[t.s2].fin <;> rfl

end

/-! ### Filters -/

section
variable [MonoidWithZero W] [DecidableEq W]

/-- No path of this class from `s` has a weight. -/
def Vanishes (sel : Tr W → Label) (f : Fst W) (e : Bool) (s : StateId) : Prop := ∀ n, nonzero (pathsC sel f e n s) = 0

/-- The law of filters that lose no pair and repeat none. `ok fs e1 e2`: in state `fs` the pairs of class `e1`, `e2` are still to be let through.
The moves in a state: `am` the first FST reads ε alone, `bm` the second does, `ep` both do, and the match of a label. -/
structure FilterMoves (A B : Fst W) (ok : FS → Bool → Bool → Bool) (Valid : FS → Prop) (s1 s2 : StateId) (fs : FS)
    (flt : Tr W → Tr W → Option FS) (am bm ep : Option FS) (f0 : FS) (SA SB : Bool → Bool) : Prop where
  onA : ∀ a ∈ clsTrs Tr.olabel A true s1, flt a (loop2 s2) = am
  onB : ∀ b ∈ clsTrs Tr.ilabel B true s2, flt (loop1 s1) b = bm
  onEps : ∀ a ∈ clsTrs Tr.olabel A true s1, ∀ b ∈ clsTrs Tr.ilabel B true s2, flt a b = ep
  onMatch : ∀ a ∈ clsTrs Tr.olabel A false s1, ∀ b ∈ clsTrs Tr.ilabel B false s2, flt a b = some f0
  afterMatch : Valid f0 ∧ ∀ e1 e2, ok f0 e1 e2 = true
  afterEps : ∀ f, ep = some f → Valid f ∧ ∀ e1 e2, ok f e1 e2 = true
  afterB : ∀ f, bm = some f → Valid f ∧ ∀ e1 e2, Vanishes Tr.olabel A e1 s1 ∨ ok f e1 e2 = SA e1
  noB : bm = none → ∀ e1, SA e1 = true → Vanishes Tr.olabel A e1 s1
  afterA : ∀ f, am = some f → Valid f ∧ ∀ e1 e2, Vanishes Tr.ilabel B e2 s2 ∨ ok f e1 e2 = SB e2
  noA : am = none → ∀ e2, SB e2 = true → Vanishes Tr.ilabel B e2 s2
  both : (ok fs true true).toNat = (SA true).toNat + (SB true).toNat + ep.isSome.toNat
  first : ok fs true false = SB false
  second : ok fs false true = SA false
  neither : ok fs false false = true

structure FilterLaw (A B : Fst W) (F : ComposeFilter FS W) (ok : FS → Bool → Bool → Bool) (Valid : FS → Prop) : Prop where
  start : Valid F.start ∧ ∀ e1 e2, ok F.start e1 e2 = true
  step : ∀ s1 s2 fs, s1 < A.numStates → s2 < B.numStates → Valid fs → ∃ flt, F.filter A B s1 s2 fs = .ok flt ∧
    ∃ am bm ep f0 SA SB, FilterMoves A B ok Valid s1 s2 fs flt am bm ep f0 SA SB

/-- A collection that is there or not. -/
def sel (c : Bool) (A : Multiset (PathT W)) : Multiset (PathT W) := if c then A else 0

/-- The pairs of paths of a class. -/
def block (A B : Fst W) (e1 e2 : Bool) (n m : Nat) (s1 s2 : StateId) : Multiset (PathT W) :=
  joinPaths (pathsC Tr.olabel A e1 n s1) (pathsC Tr.ilabel B e2 m s2)

/-- The pairs of paths of the classes of a filter state. -/
def blocks (A B : Fst W) (ok : Bool → Bool → Bool) (n m : Nat) (s1 s2 : StateId) : Multiset (PathT W) :=
  sel (ok true true) (block A B true true n m s1 s2) + sel (ok true false) (block A B true false n m s1 s2) +
  sel (ok false true) (block A B false true n m s1 s2) + sel (ok false false) (block A B false false n m s1 s2)

theorem blocks_all {A B : Fst W} {ok : Bool → Bool → Bool} (h : ∀ e1 e2, ok e1 e2 = true) (n m s1 s2) :
    blocks A B ok n m s1 s2 = joinPaths (A.pathsFrom n s1) (B.pathsFrom m s2) := by
  rw [paths_cls Tr.olabel A, paths_cls Tr.ilabel B]
  simp only [blocks, sel, h, if_true, join_add_left, join_add_right, block]
  ac_rfl

theorem nz_sel {A B : Multiset (PathT W)} {c d : Bool} (h : nonzero A = nonzero B) (hc : nonzero A = 0 ∨ c = d) : nonzero (sel c A) = nonzero (sel d B) := by
  have h0 : nonzero (0 : Multiset (PathT W)) = 0 := rfl
  rcases hc with hc | rfl
  · have hB : nonzero B = 0 := h ▸ hc
    cases c <;> cases d <;> simp [sel, hc, hB, h0]
  · cases c <;> simp [sel, h]

/-- What is left after the second FST has moved. -/
theorem blocks_afterB {A B : Fst W} {ok : Bool → Bool → Bool} {SA : Bool → Bool} {s1 : StateId}
    (h : ∀ e1 e2, Vanishes Tr.olabel A e1 s1 ∨ ok e1 e2 = SA e1) (n m s2) :
    nonzero (blocks A B ok n m s1 s2) = nonzero (sel (SA true) (joinPaths (pathsC Tr.olabel A true n s1) (B.pathsFrom m s2)) +
      sel (SA false) (joinPaths (pathsC Tr.olabel A false n s1) (B.pathsFrom m s2))) := by
  have e : ∀ e1, sel (SA e1) (joinPaths (pathsC Tr.olabel A e1 n s1) (B.pathsFrom m s2)) =
      sel (SA e1) (block A B e1 true n m s1 s2) + sel (SA e1) (block A B e1 false n m s1 s2) := by
    intro e1
    rw [paths_cls Tr.ilabel B, join_add_right]
    cases SA e1 <;> simp [sel, block]
  rw [e, e, ← add_assoc]
  have hv : ∀ e1 e2, nonzero (sel (ok e1 e2) (block A B e1 e2 n m s1 s2)) = nonzero (sel (SA e1) (block A B e1 e2 n m s1 s2)) := by
    intro e1 e2
    refine nz_sel rfl ?_
    rcases h e1 e2 with h | h
    · exact .inl (join_vanish_left (h n) _)
    · exact .inr h
  unfold blocks
  simp only [nonzero_add, hv]

/-- What is left after the first FST has moved. -/
theorem blocks_afterA {A B : Fst W} {ok : Bool → Bool → Bool} {SB : Bool → Bool} {s2 : StateId}
    (h : ∀ e1 e2, Vanishes Tr.ilabel B e2 s2 ∨ ok e1 e2 = SB e2) (n m s1) :
    nonzero (blocks A B ok n m s1 s2) = nonzero (sel (SB true) (joinPaths (A.pathsFrom n s1) (pathsC Tr.ilabel B true m s2)) +
      sel (SB false) (joinPaths (A.pathsFrom n s1) (pathsC Tr.ilabel B false m s2))) := by
  have e : ∀ e2, sel (SB e2) (joinPaths (A.pathsFrom n s1) (pathsC Tr.ilabel B e2 m s2)) =
      sel (SB e2) (block A B true e2 n m s1 s2) + sel (SB e2) (block A B false e2 n m s1 s2) := by
    intro e2
    rw [paths_cls Tr.olabel A, join_add_left]
    cases SB e2 <;> simp [sel, block]
  rw [e, e]
  have hv : ∀ e1 e2, nonzero (sel (ok e1 e2) (block A B e1 e2 n m s1 s2)) = nonzero (sel (SB e2) (block A B e1 e2 n m s1 s2)) := by
    intro e1 e2
    refine nz_sel rfl ?_
    rcases h e1 e2 with h | h
    · exact .inl (join_vanish_right (h m) _)
    · exact .inr h
  unfold blocks
  simp only [nonzero_add, hv]
  ac_rfl

end
end Verif
