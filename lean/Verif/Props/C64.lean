import Verif.Lemmas.LazyRational
import Verif.Props.C40
import Verif.Props.C14

/-!
# C64: the delayed union, concatenation and closure

`NoNames`: the operands do not use the output labels `u32::MAX` and `u32::MAX - 1`, by which the code names them.
-/

namespace Verif
universe u
variable {W : Type u}
open Lz

section
variable [MonoidWithZero W] [DecidableEq W] {f g : Fst W}

/-- The queries of a delayed FST over the list are answered as by one machine whose accepting paths are `P`. -/
def AnswersAs (list : List (Label × Fst W)) (P : Nat → Multiset (PathT W)) : Prop :=
  ∃ G, RGrammar.new list (ROpts.new 0 false) = .ok G ∧ ∃ (T : Type) (M : Machine T W), (∀ n, nonzero (M.accPaths n) = nonzero (P n)) ∧
    ∀ h : List Query, Lz.Fair mapCache G.op (fun _ => False) ⟨mapCache.empty, RTables.new⟩ h →
      ∃ nm, OneName nm ∧ ∀ p ∈ ((⟨mapCache.empty, RTables.new⟩ : Lz _ _).run mapCache G.op h).1, Correct M nm p.1 p.2

/-- C64: the delayed union. Its paths are those of `f` and of `g`, each with two more ε-transitions, paths of weight zero aside. -/
theorem C64_union (hf : f.WF) (hg : g.WF) (hf' : f.NoNames [NO_LABEL, NO_LABEL - 1]) (hg' : g.NoNames [NO_LABEL, NO_LABEL - 1]) :
    AnswersAs (unionTuples f g) (delay 2 fun m => f.accPaths m + g.accPaths m) ∧
    ∃ F, EndsWith (unionFst f g) (.ok F) ∧ F.WF ∧
      ∀ n, nonzero (F.accPaths n) = nonzero (delay 2 (fun m => f.accPaths m + g.accPaths m) n) := by
  have hwf := three_wf unionRoot_wf hf hg
  have hn : namedBy (unionTuples f g) 0 = some 0 := by unfold unionTuples; rw [named_three]; rfl
  refine ⟨?_, ?_⟩
  · obtain ⟨G, h1, T, M, h2, h3⟩ := C40_lazy (eps := false) hwf hn
    exact ⟨G, h1, T, M, fun n => by rw [h2, ← union_net hf' hg']; rfl, h3⟩
  · obtain ⟨F, h1, h2, -, -, h3⟩ := C40_replace (eps := false) hwf hn (C40_rank _ (not_recursive3 hf' hg') 0)
    exact ⟨F, h1, h2, fun n => by rw [h3, ← union_net hf' hg']; rfl⟩

/-- C64: the delayed concatenation. Its paths are a path of `f` and one of `g`, with four more ε-transitions. -/
theorem C64_concat (hf : f.WF) (hg : g.WF) (hf' : f.NoNames [NO_LABEL, NO_LABEL - 1]) (hg' : g.NoNames [NO_LABEL, NO_LABEL - 1]) :
    AnswersAs (concatTuples f g) (delay 3 (seqPaths f.accPaths g.accPaths)) ∧
    ∃ F, EndsWith (concatFst f g) (.ok F) ∧ F.WF ∧ ∀ n, nonzero (F.accPaths n) = nonzero (delay 3 (seqPaths f.accPaths g.accPaths) n) := by
  have hwf := three_wf concatRoot_wf hf hg
  have hn : namedBy (concatTuples f g) 0 = some 0 := by unfold concatTuples; rw [named_three]; rfl
  refine ⟨?_, ?_⟩
  · obtain ⟨G, h1, T, M, h2, h3⟩ := C40_lazy (eps := false) hwf hn
    exact ⟨G, h1, T, M, fun n => by rw [h2, ← concat_net hf' hg']; rfl, h3⟩
  · obtain ⟨F, h1, h2, -, -, h3⟩ := C40_replace (eps := false) hwf hn (C40_rank _ (not_recursive3 hf' hg') 0)
    exact ⟨F, h1, h2, fun n => by rw [h3, ← concat_net hf' hg']; rfl⟩

/-- The paths of the delayed closure: one or more paths of `A` in sequence, each with two more ε-transitions; for `ClosurePlus` another ε-transition
between any two, for `ClosureStar` the empty path as well. -/
def closurePaths (A : Nat → Multiset (PathT W)) : Fst.ClosureType → Nat → Multiset (PathT W)
  | .star, n => (if n = 0 then {([], [], 1)} else 0) + delay 1 (fun m => ∑ k ∈ Finset.range (m + 1), repeatPaths (delay 1 A) k m) n
  | .plus, n => ∑ k ∈ Finset.range (n + 1), repeatPaths (delay 2 A) k n

theorem closure_net (c : Fst.ClosureType) (hf' : f.NoNames [NO_LABEL]) (n : Nat) :
    (rtnOf (closureTuples c f) false).paths 0 n = closurePaths f.accPaths c n := by
  cases c with
  | star => exact star_net hf' n
  | plus => exact plus_net hf' n

/-- C64: the delayed closure. -/
theorem C64_closure (c : Fst.ClosureType) (hf : f.WF) (hf' : f.NoNames [NO_LABEL]) :
    AnswersAs (closureTuples c f) (closurePaths f.accPaths c) ∧
    ∃ F, EndsWith (closureFst c f) (.ok F) ∧ F.WF ∧ ∀ n, nonzero (F.accPaths n) = nonzero (closurePaths f.accPaths c n) := by
  have hwf := two_wf (closureRoot_wf c) hf
  have hn : namedBy (closureTuples c f) 0 = some 0 := by unfold closureTuples; rw [named_two]; rfl
  refine ⟨?_, ?_⟩
  · obtain ⟨G, h1, T, M, h2, h3⟩ := C40_lazy (eps := false) hwf hn
    exact ⟨G, h1, T, M, fun n => by rw [h2, ← closure_net c hf']; rfl, h3⟩
  · obtain ⟨F, h1, h2, -, -, h3⟩ := C40_replace (eps := false) hwf hn (C40_rank _ (not_recursive2 hf') 0)
    exact ⟨F, h1, h2, fun n => by rw [h3, ← closure_net c hf']; rfl⟩

/-! ### What is accepted -/

theorem accepts_iff_of_nonzero {F : Fst W} {P : Nat → Multiset (PathT W)} (h : ∀ n, nonzero (F.accPaths n) = nonzero (P n)) {x y : List Label} {w : W}
    (hw : w ≠ 0) : F.Accepts x y w ↔ ∃ n, (x, y, w) ∈ P n := by
  have key : ∀ n, (x, y, w) ∈ F.accPaths n ↔ (x, y, w) ∈ P n := by
    intro n
    have := h n
    have e : ∀ A : Multiset (PathT W), (x, y, w) ∈ nonzero A ↔ (x, y, w) ∈ A := fun A => by
      unfold nonzero
      rw [Multiset.mem_filter]
      exact and_iff_left hw
    rw [← e, this, e]
  exact exists_congr key

theorem exists_delay {A : Nat → Multiset (PathT W)} {d : Nat} {p : PathT W} : (∃ n, p ∈ delay d A n) ↔ ∃ n, p ∈ A n := by
  constructor
  · rintro ⟨n, h⟩
    unfold delay at h
    split at h
    · simp at h
    · exact ⟨_, h⟩
  · rintro ⟨n, h⟩
    refine ⟨n + d, ?_⟩
    unfold delay
    rw [if_neg (by omega), Nat.add_sub_cancel]
    exact h

/-- C64: the delayed operations accept exactly what the static ones accept (C14, C15, C16), with weights other than zero. -/
theorem C64_accepts (hf : f.WF) (hg : g.WF) (hf' : f.NoNames [NO_LABEL, NO_LABEL - 1]) (hg' : g.NoNames [NO_LABEL, NO_LABEL - 1])
    (x y : List Label) (w : W) (hw : w ≠ 0) :
    (∃ F, EndsWith (unionFst f g) (.ok F) ∧ (F.Accepts x y w ↔ f.Accepts x y w ∨ g.Accepts x y w)) ∧
    (∃ F, EndsWith (concatFst f g) (.ok F) ∧ (F.Accepts x y w ↔ (f.concat g).Accepts x y w)) ∧
    ∀ c, ∃ F, EndsWith (closureFst c f) (.ok F) ∧ (F.Accepts x y w ↔ (f.closure c).Accepts x y w) := by
  refine ⟨?_, ?_, ?_⟩
  · obtain ⟨-, F, h1, -, h2⟩ := C64_union hf hg hf' hg'
    refine ⟨F, h1, ?_⟩
    rw [accepts_iff_of_nonzero h2 hw, exists_delay]
    simp only [Multiset.mem_add, exists_or]
    rfl
  · obtain ⟨-, F, h1, -, h2⟩ := C64_concat hf hg hf' hg'
    refine ⟨F, h1, ?_⟩
    rw [accepts_iff_of_nonzero h2 hw, exists_delay]
    unfold Fst.Accepts
    simp only [C15_concat_paths f g hf hg]
  · intro c
    have hf2 : f.NoNames [NO_LABEL] := fun s t ht h => hf' s t ht (by simp only [List.mem_singleton] at h; simp [h])
    obtain ⟨-, F, h1, -, h2⟩ := C64_closure c hf hf2
    refine ⟨F, h1, ?_⟩
    rw [accepts_iff_of_nonzero h2 hw]
    have hrep : ∀ (d n0 : Nat), (∃ n k, (x, y, w) ∈ repeatPaths (delay d f.accPaths) k n) ↔ ∃ n k, (x, y, w) ∈ repeatPaths f.accPaths k n := by
      intro d _
      rw [exists_comm]
      conv_rhs => rw [exists_comm]
      refine exists_congr fun k => ?_
      rw [mem_repeatPaths, mem_repeatPaths]
      simp only [exists_delay]
    have hsum : ∀ A : Nat → Multiset (PathT W), (∃ n, (x, y, w) ∈ ∑ k ∈ Finset.range (n + 1), repeatPaths A k n) ↔ ∃ n k, (x, y, w) ∈ repeatPaths A k n := by
      intro A
      refine exists_congr fun n => ?_
      rw [Multiset.mem_sum]
      constructor
      · rintro ⟨k, -, h⟩; exact ⟨k, h⟩
      · rintro ⟨k, h⟩
        refine ⟨k, ?_, h⟩
        by_contra hk
        rw [Finset.mem_range, not_lt] at hk
        rw [repeatPaths_gt _ (by omega)] at h
        simp at h
    cases c with
    | plus =>
      unfold Fst.Accepts closurePaths
      simp only [C16_plus_paths]
      rw [hsum, hsum, hrep 2 0]
    | star =>
      unfold Fst.Accepts closurePaths
      simp only [C16_star_paths f hf, Multiset.mem_add, exists_or]
      rw [exists_delay, exists_delay]
      simp only [C16_plus_paths]
      rw [hsum, hsum, hrep 1 0]

end

/-! ### Examples -/

/-- `1` with weight 2, then final with 3. -/
def exLeft : Fst Nat := ⟨[⟨none, [⟨1, 5, 2, 1⟩], 0, 0⟩, ⟨some 3, [], 0, 0⟩], some 0, Props.nullMask⟩
/-- `4` with weight 7. -/
def exRight : Fst Nat := ⟨[⟨none, [⟨4, 6, 7, 1⟩], 0, 0⟩, ⟨some 1, [], 0, 0⟩], some 0, Props.nullMask⟩

theorem exLeft_names : exLeft.NoNames [NO_LABEL, NO_LABEL - 1] := by
  intro s t ht
  match s, ht with
  | 0, h => simp [exLeft, Fst.trsOf] at h; subst h; decide
  | 1, h => simp [exLeft, Fst.trsOf] at h
  | n + 2, h => simp [exLeft, Fst.trsOf] at h

theorem exRight_names : exRight.NoNames [NO_LABEL, NO_LABEL - 1] := by
  intro s t ht
  match s, ht with
  | 0, h => simp [exRight, Fst.trsOf] at h; subst h; decide
  | 1, h => simp [exRight, Fst.trsOf] at h
  | n + 2, h => simp [exRight, Fst.trsOf] at h

example : ∃ F, EndsWith (unionFst exLeft exRight) (.ok F) ∧ F.WF ∧
    ∀ n, nonzero (F.accPaths n) = nonzero (delay 2 (fun m => exLeft.accPaths m + exRight.accPaths m) n) :=
  (C64_union (Fst.wf_of_wfB (by decide)) (Fst.wf_of_wfB (by decide)) exLeft_names exRight_names).2

/-- The result of a computation that has ended. -/
def gotFst (r : Option (R (Fst Nat))) : Fst Nat := match r with
  | some (.ok F) => F
  | _ => Fst.new

example : (gotFst (unionFst exLeft exRight 20)).accPaths 3 = ↑[(([1], [5], 6) : PathT Nat), ([4], [6], 7)] := by decide +kernel
example : (gotFst (concatFst exLeft exRight 20)).accPaths 6 = ↑[(([1, 4], [5, 6], 42) : PathT Nat)] := by decide +kernel
example : (gotFst (closureFst .star exLeft 20)).accPaths 0 = ↑[(([], [], 1) : PathT Nat)] ∧
    (gotFst (closureFst .star exLeft 20)).accPaths 6 = ↑[(([1, 1], [5, 5], 36) : PathT Nat)] := by decide +kernel
example : (gotFst (closureFst .plus exLeft 20)).accPaths 0 = 0 ∧
    (gotFst (closureFst .plus exLeft 20)).accPaths 7 = ↑[(([1, 1], [5, 5], 36) : PathT Nat)] := by decide +kernel

/-! ### A label that is taken for a name -/

/-- An FST whose transition has the output label `u32::MAX - 1`. -/
def exName : Fst Nat := ⟨[⟨none, [⟨1, NO_LABEL - 1, 2, 1⟩], 0, 0⟩, ⟨some 3, [], 0, 0⟩], some 0, Props.nullMask⟩

/-- The condition on the labels is needed: in the delayed union a transition with the output label `u32::MAX - 1` is replaced by the second operand,
though the static union keeps it. -/
theorem C64_name_defect : exName.accPaths 1 = ↑[(([1], [NO_LABEL - 1], 6) : PathT Nat)] ∧
    ∃ F, unionFst exName exRight 20 = some (.ok F) ∧ F.accPaths 3 = ↑[(([4], [6], 7) : PathT Nat)] ∧
      F.accPaths 5 = ↑[(([1, 4], [6], 42) : PathT Nat)] := by
  refine ⟨by decide +kernel, gotFst (unionFst exName exRight 20), ?_, by decide +kernel, by decide +kernel⟩
  have h : (unionFst exName exRight 20).isSome = true ∧ (∀ e, unionFst exName exRight 20 ≠ some (.error e)) := by
    have hk : (match unionFst exName exRight 20 with | some (.ok _) => true | _ => false) = true := by decide +kernel
    revert hk
    cases unionFst exName exRight 20 with
    | none => simp
    | some r => cases r <;> simp
  unfold gotFst
  cases he : unionFst exName exRight 20 with
  | none => rw [he] at h; exact absurd h.1 (by simp)
  | some r =>
    cases r with
    | ok F => rfl
    | error e => exact absurd he (h.2 e)

end Verif
