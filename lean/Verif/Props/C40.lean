import Verif.Lemmas.ReplaceNew
import Verif.Lemmas.Presents
import Verif.Lemmas.Caches
import Verif.Props.C38

/-! # C40: `replace` expands non-terminals -/

namespace Verif
universe u
variable {W : Type u}
open Lz

section
variable [Zero W] [One W] [DecidableEq W] {list : List (Label × Fst W)} {root : Label} {r : Nat} {eps : Bool}

/-- `replace` runs `compute` on the operation of the grammar. -/
theorem replace_run {g : RGrammar W} (h : RGrammar.new list (ROpts.new root eps) = .ok g) :
    replace list root eps = fun n => (Lz.compute mapCache g.op n ⟨mapCache.empty, RTables.new⟩).map (·.1) := by
  funext n
  unfold replace
  rw [h]

/-- The static result presents the machine of the network. -/
theorem replace_present {g : RGrammar W} (h : RGrammar.new list (ROpts.new root eps) = .ok g) (hg : g.Ok)
    (hf : {c | g.net.machine.Reach c}.Finite ∨ ∃ n, replace list root eps n ≠ none) :
    ∃ F, EndsWith (replace list root eps) (.ok F) ∧ F.WF ∧ F.AllCounters ∧
      F.props = (if g.net.machine.start = none then Props.nullMask else g.props) ∧ ∃ nm, g.net.machine.Presents nm F := by
  have hf' : {c | g.net.machine.Reach c}.Finite ∨ ∃ n, Lz.compute mapCache g.op n ⟨mapCache.empty, RTables.new⟩ ≠ none := by
    refine hf.imp id ?_
    rintro ⟨n, hn⟩
    refine ⟨n, fun e => hn ?_⟩
    rw [replace_run h]
    simp only [e, Option.map_none]
  obtain ⟨F, z', ⟨N, hN⟩, h2, h3, h4, _, _, _, h8, _⟩ := compute_core mapCache_law (RGrammar.op_law hg) (Lz.coh_fresh mapCache_law RGrammar.rinv_new) hf'
  refine ⟨F, ⟨N, fun n hn => ?_⟩, h2, h3, h4, _, h8 (RGrammar.op_tight hg) RGrammar.op_dense RGrammar.name_new mapCache_law.start_empty⟩
  have := hN n hn
  simp only at this
  rw [replace_run h]
  simp only [this, Option.map_some]

/-- C40: `replace` fails if and only if no FST has the root label. It fails with an error, it does not panic. -/
theorem C40_root (hwf : ∀ p ∈ list, p.2.WF) :
    (root ∉ list.map (·.1) → ∀ n, replace list root eps n = some (.error .err)) ∧
    (root ∈ list.map (·.1) → ∀ n e, replace list root eps n ≠ some (.error e)) := by
  constructor
  · intro h n
    unfold replace
    rw [RGrammar.new_none (namedBy_none.2 h)]
  · intro h n e he
    obtain ⟨r, hr⟩ : ∃ r, namedBy list root = some r := by
      cases hn : namedBy list root with
      | none => exact absurd h (namedBy_none.1 hn)
      | some r => exact ⟨r, rfl⟩
    obtain ⟨g, h1, h2, _⟩ := RGrammar.new_net eps hr hwf
    obtain ⟨F, ⟨N, hN⟩, _⟩ := replace_present h1 h2 (.inr ⟨n, by rw [he]; simp⟩)
    have h3 : ∀ m, n ≤ m → replace list root eps m = some (.error e) := by
      intro m hm
      rw [replace_run h1] at he ⊢
      simp only [Option.map_eq_some_iff] at he ⊢
      obtain ⟨⟨a, z⟩, h4, h5⟩ := he
      refine ⟨(a, z), ?_, h5⟩
      induction m, hm using Nat.le_induction with
      | base => exact h4
      | succ m _ ih => exact compute_more _ _ ih
    have h4 := hN (max N n) (Nat.le_max_left _ _)
    rw [h3 _ (Nat.le_max_right _ _)] at h4
    cases h4

/-- C40: `replace` ends if and only if it cannot happen that an FST calls itself, directly or through others. -/
theorem C40_ends (hwf : ∀ p ∈ list, p.2.WF) (hr : namedBy list root = some r) :
    (∃ n, replace list root eps n ≠ none) ↔ ¬ (rtnOf list eps).Recursive r := by
  obtain ⟨g, h1, h2, h3, h4, _⟩ := RGrammar.new_net eps hr hwf
  rw [← h4, ← h3, ← RGrammar.reach_finite h2, ← C38_ends mapCache_law (RGrammar.op_law h2) RGrammar.rinv_new [] trivial, replace_run h1]
  simp only [ne_eq, Option.map_eq_none_iff]
  rfl

end

section
variable [MonoidWithZero W] [DecidableEq W] {list : List (Label × Fst W)} {root : Label} {r : Nat} {eps : Bool}

/-- C40: when no FST calls itself, `replace` ends without an error. The result is well formed with right counters, all its states are
accessible, and its accepting paths are the paths of the network beginning at the root: call by call a successful path of the FST that is called. This
holds step by step (calls and returns are steps) and with multiplicity, paths of weight zero aside. -/
theorem C40_replace (hwf : ∀ p ∈ list, p.2.WF) (hr : namedBy list root = some r) (hn : ¬ (rtnOf list eps).Recursive r) :
    ∃ F, EndsWith (replace list root eps) (.ok F) ∧ F.WF ∧ F.AllCounters ∧ (∀ s, s < F.numStates → F.Accessible s) ∧
      ∀ n, nonzero (F.accPaths n) = nonzero ((rtnOf list eps).paths r n) := by
  obtain ⟨g, h1, h2, h3, h4, _⟩ := RGrammar.new_net eps hr hwf
  obtain ⟨F, e1, e2, e3, _, nm, e5⟩ := replace_present h1 h2 (.inl ((RGrammar.reach_finite h2).2 (by rw [h4, h3]; exact hn)))
  refine ⟨F, e1, e2, e3, e5.accessible, fun n => ?_⟩
  rw [e5.accPaths, RNet.accPaths_nonzero, h4, h3]

/-- C40: when moreover no final weight of an FST in the list is zero, the accepting paths are exactly those of the network. -/
theorem C40_exact (hwf : ∀ p ∈ list, p.2.WF) (hz : ∀ p ∈ list, ∀ s, p.2.finOf s ≠ some 0) (hr : namedBy list root = some r)
    (hn : ¬ (rtnOf list eps).Recursive r) :
    ∃ F, EndsWith (replace list root eps) (.ok F) ∧ F.WF ∧ ∀ n, F.accPaths n = (rtnOf list eps).paths r n := by
  obtain ⟨g, h1, h2, h3, h4, _⟩ := RGrammar.new_net eps hr hwf
  obtain ⟨F, e1, e2, _, _, nm, e5⟩ := replace_present h1 h2 (.inl ((RGrammar.reach_finite h2).2 (by rw [h4, h3]; exact hn)))
  refine ⟨F, e1, e2, fun n => ?_⟩
  rw [e5.accPaths, RNet.accPaths_eq, h4, h3]
  intro i s
  have : g.net.fst i = (rtnOf list eps).fst i := by rw [← h4]; rfl
  rw [this]
  unfold rtnOf
  simp only
  cases hi : list[i]? with
  | none => simp [Fst.finOf]
  | some p => simpa using hz p (List.mem_of_getElem? hi) s

/-- C40: whenever `replace` returns something, it is an FST with the paths of the network. -/
theorem C40_returns (hwf : ∀ p ∈ list, p.2.WF) (hr : namedBy list root = some r) {n : Nat} {x : R (Fst W)} (hx : replace list root eps n = some x) :
    ∃ F, x = .ok F ∧ F.WF ∧ ∀ n, nonzero (F.accPaths n) = nonzero ((rtnOf list eps).paths r n) := by
  have hn : ¬ (rtnOf list eps).Recursive r := (C40_ends hwf hr).1 ⟨n, by rw [hx]; simp⟩
  obtain ⟨F, ⟨N, hN⟩, h2, _, _, h3⟩ := C40_replace hwf hr hn
  obtain ⟨g, h1, _⟩ := RGrammar.new_net eps hr hwf
  have h4 : ∀ m, n ≤ m → replace list root eps m = some x := by
    intro m hm
    rw [replace_run h1] at hx ⊢
    simp only [Option.map_eq_some_iff] at hx ⊢
    obtain ⟨⟨a, z⟩, h4, h5⟩ := hx
    refine ⟨(a, z), ?_, h5⟩
    induction m, hm using Nat.le_induction with
    | base => exact h4
    | succ m _ ih => exact compute_more _ _ ih
  have h5 := hN (max N n) (Nat.le_max_left _ _)
  rw [h4 _ (Nat.le_max_right _ _)] at h5
  exact ⟨F, Option.some.inj h5, h2, h3⟩

/-- C40, recursion or not: the lazy `ReplaceFst` answers every fair history of queries as a fixed machine would, and this machine has the paths of the
network. -/
theorem C40_lazy (hwf : ∀ p ∈ list, p.2.WF) (hr : namedBy list root = some r) :
    ∃ g, RGrammar.new list (ROpts.new root eps) = .ok g ∧ ∃ (T : Type) (M : Machine T W),
      (∀ n, nonzero (M.accPaths n) = nonzero ((rtnOf list eps).paths r n)) ∧
      ∀ h : List Query, Lz.Fair mapCache g.op (fun _ => False) ⟨mapCache.empty, RTables.new⟩ h →
        ∃ nm, OneName nm ∧ ∀ p ∈ ((⟨mapCache.empty, RTables.new⟩ : Lz _ _).run mapCache g.op h).1, Correct M nm p.1 p.2 := by
  obtain ⟨g, h1, h2, h3, h4, _⟩ := RGrammar.new_net eps hr hwf
  refine ⟨g, h1, RCfg, g.net.machine, fun n => ?_, fun h hf => C36_history mapCache_law (RGrammar.op_law h2) RGrammar.rinv_new h hf⟩
  rw [RNet.accPaths_nonzero, h4, h3]

end

/-- C40 in a semiring: the weight of every pair of strings is the sum over the paths of the network. -/
theorem C40_weights [Semiring W] [DecidableEq W] {list : List (Label × Fst W)} {root : Label} {r : Nat} {eps : Bool}
    (hwf : ∀ p ∈ list, p.2.WF) (hr : namedBy list root = some r) (hn : ¬ (rtnOf list eps).Recursive r) :
    ∃ F, EndsWith (replace list root eps) (.ok F) ∧ F.WF ∧ ∀ n x y, F.weightOf n x y = sumOf ((rtnOf list eps).paths r n) x y := by
  obtain ⟨F, h1, h2, _, _, h3⟩ := C40_replace hwf hr hn
  refine ⟨F, h1, h2, fun n x y => ?_⟩
  have key : ∀ A : Multiset (PathT W), sumOf A x y = sumOf (nonzero A) x y := by
    intro A
    induction A using Multiset.induction_on with
    | empty => rfl
    | cons a A ih =>
      unfold sumOf nonzero at ih ⊢
      rw [Multiset.filter_cons (p := fun p : PathT W => p.2.2 ≠ 0)]
      by_cases ha : a.2.2 = 0
      · rw [if_neg (by simpa using ha), zero_add, ← ih, Multiset.filter_cons]
        by_cases hb : a.1 = x ∧ a.2.1 = y
        · simp [hb, ha]
        · simp [hb]
      · rw [if_pos ha, Multiset.singleton_add, Multiset.filter_cons, Multiset.filter_cons, Multiset.map_add, Multiset.map_add, Multiset.sum_add,
          Multiset.sum_add, ih]
  have h4 : F.weightOf n x y = sumOf (F.accPaths n) x y := rfl
  rw [h4, key, h3 n, ← key]

/-- C40: a rank for the FSTs, higher for the one that calls, is enough. -/
theorem C40_rank [Zero W] {N : Rtn W} (rank : Nat → Nat) (h : ∀ i s, ∀ tr ∈ (N.fst i).trsOf s, ∀ j, N.callee tr = some j → rank j < rank i) (r : Nat) :
    ¬ N.Recursive r := by
  rintro ⟨k, _, h2⟩
  have : ∀ i j, Relation.TransGen N.Calls i j → rank j < rank i := by
    intro i j hij
    induction hij with
    | single h1 => obtain ⟨s, tr, _, h3, h4⟩ := h1; exact h i s tr h3 _ h4
    | tail _ h1 ih => obtain ⟨s, tr, _, h3, h4⟩ := h1; exact Nat.lt_trans (h _ s tr h3 _ h4) ih
  exact Nat.lt_irrefl _ (this k k h2)

/-! ### Examples -/

/-- FST 10 reads `1`, calls 20 and reads `2`; FST 20 reads `3` with weight 5 and has final weight 7. -/
def exCall : List (Label × Fst Nat) :=
  [(10, ⟨[⟨none, [⟨1, 1, 1, 1⟩], 0, 0⟩, ⟨none, [⟨4, 20, 2, 2⟩], 0, 0⟩, ⟨none, [⟨2, 2, 3, 3⟩], 0, 0⟩, ⟨some 1, [], 0, 0⟩], some 0, Props.nullMask⟩),
   (20, ⟨[⟨none, [⟨3, 3, 5, 1⟩], 0, 0⟩, ⟨some 7, [], 0, 0⟩], some 0, Props.nullMask⟩)]

theorem exCall_wf : ∀ p ∈ exCall, p.2.WF := by
  intro p hp
  simp only [exCall, List.mem_cons, List.not_mem_nil, or_false] at hp
  rcases hp with rfl | rfl
  · refine ⟨by simp [Fst.numStates], fun s tr h => ?_⟩
    match s, h with
    | 0, h => simp [Fst.trsOf] at h; subst h; simp [Fst.numStates]
    | 1, h => simp [Fst.trsOf] at h; subst h; simp [Fst.numStates]
    | 2, h => simp [Fst.trsOf] at h; subst h; simp [Fst.numStates]
    | 3, h => simp [Fst.trsOf] at h
    | n + 4, h => simp [Fst.trsOf] at h
  · refine ⟨by simp [Fst.numStates], fun s tr h => ?_⟩
    match s, h with
    | 0, h => simp [Fst.trsOf] at h; subst h; simp [Fst.numStates]
    | 1, h => simp [Fst.trsOf] at h
    | n + 2, h => simp [Fst.trsOf] at h

theorem exCall_ranked (eps : Bool) : ¬ (rtnOf exCall eps).Recursive 0 := by
  refine C40_rank (fun i => 1 - i) (fun i s tr htr j hj => ?_) 0
  match i, htr with
  | 0, htr =>
    match s, htr with
    | 0, h => simp [Fst.trsOf, rtnOf, exCall] at h; subst h; exact absurd hj (by cases eps <;> decide +revert)
    | 1, h =>
      simp [Fst.trsOf, rtnOf, exCall] at h
      subst h
      have : (rtnOf exCall eps).callee ⟨4, 20, 2, 2⟩ = some 1 := by cases eps <;> rfl
      rw [this] at hj
      injection hj with hj
      subst hj
      decide
    | 2, h => simp [Fst.trsOf, rtnOf, exCall] at h; subst h; exact absurd hj (by cases eps <;> decide +revert)
    | 3, h => simp [Fst.trsOf, rtnOf, exCall] at h
    | n + 4, h => simp [Fst.trsOf, rtnOf, exCall] at h
  | 1, htr =>
    match s, htr with
    | 0, h => simp [Fst.trsOf, rtnOf, exCall] at h; subst h; exact absurd hj (by cases eps <;> decide +revert)
    | 1, h => simp [Fst.trsOf, rtnOf, exCall] at h
    | n + 2, h => simp [Fst.trsOf, rtnOf, exCall] at h
  | n + 2, htr => simp [Fst.trsOf, rtnOf, exCall] at htr

/-- The hypotheses are met. -/
example : ∃ F, EndsWith (replace exCall 10 true) (.ok F) ∧ F.WF ∧ ∀ n x y, F.weightOf n x y = sumOf ((rtnOf exCall true).paths 0 n) x y :=
  C40_weights exCall_wf rfl (exCall_ranked true)

/-- And the result is as expected. -/
example : (replace exCall 10 true 10).map (fun r => r.toOption.map fun F => (F.states, F.start)) = some (some (
    [⟨none, [⟨1, 1, 1, 1⟩], 0, 0⟩, ⟨none, [⟨0, 0, 2, 2⟩], 1, 1⟩, ⟨none, [⟨3, 3, 5, 3⟩], 0, 0⟩, ⟨none, [⟨0, 0, 7, 4⟩], 1, 1⟩,
     ⟨none, [⟨2, 2, 3, 5⟩], 0, 0⟩, ⟨some 1, [], 0, 0⟩], some 0)) := by decide +kernel

/-- The paths of the network, for comparison: five steps, a call and a return among them. -/
example : (rtnOf exCall true).paths 0 5 = {([1, 3, 2], [1, 3, 2], 210)} ∧ (rtnOf exCall false).paths 0 5 = {([1, 4, 3, 2], [1, 3, 2], 210)} := by
  decide +kernel

/-- FST 10 reads `1` and then calls itself, or ends: a tail recursion for the regular language `1*`. -/
def exTail : List (Label × Fst Nat) := [(10, ⟨[⟨some 1, [⟨1, 1, 1, 1⟩], 0, 0⟩, ⟨none, [⟨0, 10, 1, 2⟩], 0, 0⟩, ⟨some 1, [], 0, 0⟩], some 0, Props.nullMask⟩)]

/-- The static `replace` does not end on it. -/
theorem C40_diverges (eps : Bool) (n : Nat) : replace exTail 10 eps n = none := by
  by_contra h
  refine (C40_ends (W := Nat) (list := exTail) (r := 0) (eps := eps) ?_ rfl).1 ⟨n, h⟩ ⟨0, .refl, .single ⟨1, ⟨0, 10, 1, 2⟩, ?_, ?_, ?_⟩⟩
  · intro p hp
    simp only [exTail, List.mem_cons, List.not_mem_nil, or_false] at hp
    subst hp
    refine ⟨by simp [Fst.numStates], fun s tr h => ?_⟩
    match s, h with
    | 0, h => simp [Fst.trsOf] at h; subst h; simp [Fst.numStates]
    | 1, h => simp [Fst.trsOf] at h; subst h; simp [Fst.numStates]
    | 2, h => simp [Fst.trsOf] at h
    | n + 3, h => simp [Fst.trsOf] at h
  · exact .step (tr := (⟨1, 1, 1, 1⟩ : Tr Nat)) (.start (s := 0) rfl) (by simp [rtnOf, exTail, Fst.trsOf]) (by cases eps <;> rfl)
  · simp [rtnOf, exTail, Fst.trsOf]
  · cases eps <;> rfl

end Verif
