import Verif.Lemmas.Top
import Verif.Lemmas.Trim
import Verif.Props.C20

/-! # C19: `top_sort` sorts acyclic FSTs and leaves cyclic ones -/

namespace Verif
open Fst
universe u
variable {W : Type u} [Zero W] [One W] [DecidableEq W]

/-- The flags set on an acyclic FST. -/
def topMask : Props := Props.of [.acyclic, .initialAcyclic, .topSorted]
/-- The flags set on a cyclic FST. -/
def cycMask : Props := Props.of [.cyclic, .notTopSorted]

theorem topSort_cases (f : Fst W) (hw : f.WF) {i} (hi : f.start = some i) :
    ((¬ ∃ q, f.OnCycle q) ∧ ∃ order g, order.Perm (List.range f.numStates) ∧ f.stateSort order = .ok g ∧
      f.topSort = .ok (g.setPropsMask topMask topMask) ∧
      ∀ a b, f.Edge a b → order[a]?.getD 0 < order[b]?.getD 0) ∨
    ((∃ q, f.OnCycle q) ∧ f.topSort = .ok (f.setPropsMask cycMask cycMask)) := by
  have h := Top.topVisit_spec hw hi (fun _ => true)
  rw [Scc.kEdge_true] at h
  have ht := targetsOk_of_wf hw
  rcases h with ⟨h1, h2, h3, h4⟩ | ⟨h1, h2⟩
  · left
    refine ⟨h2, (f.topVisit fun _ => true).order, ?_⟩
    obtain ⟨g, τ, hg, -⟩ := C20_state_sort f hw _ h3 (by rw [hi]; simp)
    refine ⟨g, h3, hg, ?_, h4⟩
    unfold topSort
    rw [if_neg (by simp [ht])]
    simp only [h1, if_true, hg]
    rfl
  · right
    refine ⟨h2, ?_⟩
    unfold topSort
    rw [if_neg (by simp [ht])]
    simp only [h1, Bool.false_eq_true, if_false]
    rfl

/-- C19: an acyclic FST is renumbered by a permutation of its states (`σ`, with inverse `τ`) so that every transition leads to a
larger number. -/
theorem C19_acyclic (f : Fst W) (hw : f.WF) (hs : f.start ≠ none) (ha : ¬ ∃ q, f.OnCycle q) :
    ∃ g σ τ, f.topSort = .ok g ∧ Fst.Renum f g σ τ ∧ ∀ s, ∀ t ∈ g.trsOf s, s < t.nextstate := by
  obtain ⟨i, hi⟩ := Option.ne_none_iff_exists'.1 hs
  rcases topSort_cases f hw hi with ⟨-, order, g, hp, hg, htop, hE⟩ | ⟨hc, -⟩
  · obtain ⟨g', τ, hg', hr, -⟩ := C20_state_sort f hw order hp hs
    rw [hg] at hg'; cases hg'
    refine ⟨_, _, τ, htop, ⟨hr.num, hr.lt, hr.lt', hr.left, hr.right, hr.trs, hr.fin, hr.start⟩, ?_⟩
    intro s t ht
    have ht : t ∈ g.trsOf s := ht
    have hs' := Scc.trsOf_lt ht
    rw [hr.num] at hs'
    have h1 := hr.trs (τ s) (hr.lt' s hs')
    rw [hr.right s hs'] at h1
    rw [h1] at ht
    obtain ⟨t', ht', rfl⟩ := List.mem_map.1 ht
    have := hE _ _ ⟨t', ht', rfl⟩
    have h2 := hr.right s hs'
    simp only at h2 ⊢
    rw [h2] at this
    exact this
  · exact absurd hc ha

/-- C19: a cyclic FST keeps its states, transitions, final weights and start state. -/
theorem C19_cyclic (f : Fst W) (hw : f.WF) (hs : f.start ≠ none) (hc : ∃ q, f.OnCycle q) :
    ∃ g, f.topSort = .ok g ∧ g.states = f.states ∧ g.start = f.start := by
  obtain ⟨i, hi⟩ := Option.ne_none_iff_exists'.1 hs
  rcases topSort_cases f hw hi with ⟨h, -⟩ | ⟨-, h⟩
  · exact absurd hc h
  · exact ⟨_, h, rfl, rfl⟩

/-- C19: in both cases the accepting paths are unchanged. -/
theorem C19_paths [Mul W] (f : Fst W) (hw : f.WF) (hs : f.start ≠ none) : ∃ g, f.topSort = .ok g ∧
    ∀ n, g.accPaths n = f.accPaths n := by
  by_cases hc : ∃ q, f.OnCycle q
  · obtain ⟨i, hi⟩ := Option.ne_none_iff_exists'.1 hs
    rcases topSort_cases f hw hi with ⟨h, -⟩ | ⟨-, h⟩
    · exact absurd hc h
    · exact ⟨_, h, fun n => accPaths_congr (f := f) (g := f.setPropsMask cycMask cycMask) rfl (fun _ => rfl) (fun _ => rfl) n⟩
  · obtain ⟨g, σ, τ, h1, h2, -⟩ := C19_acyclic f hw hs hc
    exact ⟨g, h1, fun n => h2.accPaths hw n⟩

omit [DecidableEq W] in
theorem holds_props_irrelevant {f : Fst W} {p m : Props} {b} (h : f.Holds b) : (f.setPropsMask p m).Holds b := by
  cases b <;> exact h

omit [DecidableEq W] in
/-- Setting flags that hold keeps the flags truthful. -/
theorem truthful_setMask {f : Fst W} {m : Props} (h : ∀ b, m b = false → f.props b = true → f.Holds b)
    (hm : ∀ b, m b = true → f.Holds b) : (f.setPropsMask m m).Truthful := by
  intro b hb
  refine holds_props_irrelevant ?_
  cases hmb : m b with
  | true => exact hm b hmb
  | false =>
    simp only [setPropsMask, Props.or, Props.and, Props.not, hmb, Bool.not_false, Bool.and_true, Bool.and_false, Bool.or_false] at hb
    exact h b hmb hb

/-- C51 for `top_sort`: the flags it leaves are true. -/
theorem C19_flags (f g : Fst W) (hw : f.WF) (tf : f.Truthful) (hs : f.start ≠ none) (hg : f.topSort = .ok g) : g.Truthful := by
  obtain ⟨i, hi⟩ := Option.ne_none_iff_exists'.1 hs
  rcases topSort_cases f hw hi with ⟨ha, order, g0, hp, hg0, htop, hE⟩ | ⟨hc, htop⟩
  · rw [hg] at htop; cases htop
    obtain ⟨g', σ, τ, h1, hr, h3⟩ := C19_acyclic f hw hs ha
    rw [hg] at h1; cases h1
    have t0 := C20_flags f g0 hw order hp tf hg0
    have hac : ¬ ∃ q, g0.OnCycle q := by
      have key : ∀ a b, Relation.TransGen g0.Edge a b → a < b := by
        intro a b hab
        induction hab with
        | single e => obtain ⟨t, ht, rfl⟩ := e; exact h3 _ t ht
        | tail _ e ih => obtain ⟨t, ht, rfl⟩ := e; exact lt_trans ih (h3 _ t ht)
      rintro ⟨q, hq⟩; exact lt_irrefl _ (key q q hq)
    refine truthful_setMask (fun b _ hb => t0 b hb) ?_
    intro b hb
    cases b <;> simp [topMask, Props.of] at hb
    · exact hac
    · rintro ⟨j, -, hj⟩; exact hac ⟨j, hj⟩
    · exact h3
  · rw [hg] at htop; cases htop
    refine truthful_setMask (fun b _ hb => tf b hb) ?_
    intro b hb
    cases b <;> simp [cycMask, Props.of] at hb
    · exact hc
    · intro h3
      have key : ∀ a b, Relation.TransGen f.Edge a b → a < b := by
        intro a b hab
        induction hab with
        | single e => obtain ⟨t, ht, rfl⟩ := e; exact h3 _ t ht
        | tail _ e ih => obtain ⟨t, ht, rfl⟩ := e; exact lt_trans ih (h3 _ t ht)
      obtain ⟨q, hq⟩ := hc; exact lt_irrefl _ (key q q hq)

/-- Limitation: an FST with states but no start state cannot be sorted. -/
theorem C19_no_start (f : Fst W) (hs : f.start = none) (hn : f.numStates ≠ 0) : f.topSort = .error .err := by
  have hv : f.topVisit (fun _ => true) = ⟨[], true, []⟩ := by
    unfold topVisit Dfs.visit; rw [hs]; rfl
  unfold topSort
  rw [if_neg (by simp [hs]), hv]
  simp only [if_true]
  rw [C20_bad_length f [] (by simpa using Ne.symm hn)]

/-- Non-trivial instances: a diamond with reversed numbers, and a cycle. -/
def exDiamond : Fst Nat :=
  ((((((Fst.new.addStates 4).setStart 3).setFinal 0 7).addTr 3 ⟨1, 1, 2, 1⟩).addTr 3 ⟨2, 2, 3, 2⟩).addTr 1 ⟨3, 3, 1, 0⟩).addTr 2 ⟨4, 4, 1, 0⟩
example : exDiamond.WF := Fst.wf_of_wfB (by decide)
example : ∃ g, exDiamond.topSort = .ok g ∧ g.start = some 0 ∧ g.trsOf 0 = [⟨1, 1, 2, 2⟩, ⟨2, 2, 3, 1⟩] ∧ g.finOf 3 = some 7 :=
  ⟨_, rfl, by decide⟩
example : ∃ g, (exDiamond.addTr 0 ⟨5, 5, 5, 3⟩).topSort = .ok g ∧ g.start = some 3 ∧ g.props .cyclic = true := ⟨_, rfl, by decide⟩

end Verif
