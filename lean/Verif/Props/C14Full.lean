import Verif.Props.C07

/-! # C14 for the complete `union`, including the traversal that decides where the second FST is attached -/

namespace Verif
open Fst
universe u
variable {W : Type u} [Monoid W] [Zero W] [DecidableEq W]

theorem union_unfold (f g : Fst W) (hf : f.WF) (tf : f.Truthful) (hs : f.start = none → f.numStates = 0) :
    ∃ f' ia, f.union g = .ok (unionWith ia f' g) ∧ f'.states = f.states ∧ f'.start = f.start ∧ f'.Truthful ∧
      (ia = true ↔ ¬ ∃ i, f.start = some i ∧ f.OnCycle i) := by
  have hs' : f.start ≠ none ∨ f.numStates = 0 := by
    by_cases h : f.start = none
    · exact .inr (hs h)
    · exact .inl h
  obtain ⟨f', p, h1, h2, h3, h4, h5, -⟩ := C07_update f hf tf hs' (Props.of [.initialAcyclic])
    (fun h => absurd h (by decide))
  refine ⟨f', p .initialAcyclic, by unfold Fst.union; rw [h1], h3, h4, h5, ?_⟩
  rw [h2]
  exact ⟨fun h => h.2, fun h => ⟨by decide, h⟩⟩

/-- C14: for every well-formed `f` and `g` such that `f` carries true flags and has a start state or is empty, `union` succeeds, its
result carries true flags and accepts exactly what `f` or `g` accepts (with the same weights). -/
theorem C14_union_full (f g : Fst W) (hf : f.WF) (hg : g.WF) (tf : f.Truthful) (hs : f.start = none → f.numStates = 0) :
    ∃ h, f.union g = .ok h ∧ (∀ x y w, h.Accepts x y w ↔ f.Accepts x y w ∨ g.Accepts x y w) ∧ (g.Truthful → h.Truthful) := by
  obtain ⟨f', ia, h1, h2, h3, h4, h5⟩ := union_unfold f g hf tf hs
  have e : f' = { f with props := f'.props } := by cases f'; cases f; simp_all
  have hw : f'.WF := by rw [e]; exact ⟨hf.start_lt, hf.next_lt⟩
  have hst : f'.start = none → f'.numStates = 0 := by
    intro h; rw [h3] at h; unfold numStates; rw [h2]; exact hs h
  have hia : ia = true → ∀ i, f'.start = some i → ¬ f'.OnCycle i := by
    intro hia i hi hc
    refine h5.1 hia ⟨i, h3 ▸ hi, ?_⟩
    rw [e] at hc; exact hc
  refine ⟨_, h1, ?_, fun tg => C14_flags f' g ia hw hg h4 tg hst hia⟩
  intro x y w
  rw [C14_union f' g hw hg ia hst hia]
  have : f'.Accepts x y w ↔ f.Accepts x y w := by
    unfold Accepts
    refine exists_congr fun n => ?_
    rw [accPaths_congr (f := f) (g := f') h3 (fun s => by unfold trsOf; rw [h2]) (fun s => by unfold finOf; rw [h2])]
  rw [this]

/-- C14 with multiplicities: the accepting paths of the union, counted by length, are those of `f` (one transition later if the start
state of `f` lies on a cycle) together with those of `g` one transition later. -/
theorem C14_union_paths (f g : Fst W) (hf : f.WF) (hg : g.WF) (tf : f.Truthful) (i : StateId) (hi : f.start = some i) (hj : g.start ≠ none) :
    ∃ h, f.union g = .ok h ∧ ((¬ f.OnCycle i ∧ ∀ n, h.accPaths n = f.accPaths n + delay 1 g.accPaths n) ∨
      (f.OnCycle i ∧ ∀ n, h.accPaths n = delay 1 f.accPaths n + delay 1 g.accPaths n)) := by
  obtain ⟨f', ia, h1, h2, h3, h4, h5⟩ := union_unfold f g hf tf (by simp [hi])
  have e : f' = { f with props := f'.props } := by cases f'; cases f; simp_all
  have hw : f'.WF := by rw [e]; exact ⟨hf.start_lt, hf.next_lt⟩
  have hp : f'.accPaths = f.accPaths := by
    funext n
    exact accPaths_congr (f := f) (g := f') h3 (fun s => by unfold trsOf; rw [h2]) (fun s => by unfold finOf; rw [h2]) n
  have hc : ¬ f.OnCycle i → ¬ f'.OnCycle i := by intro h hc; apply h; rw [e] at hc; exact hc
  refine ⟨_, h1, ?_⟩
  by_cases ho : f.OnCycle i
  · right
    have : ia = false := by
      cases ia with
      | false => rfl
      | true => exact absurd ⟨i, hi, ho⟩ (h5.1 rfl)
    subst this
    refine ⟨ho, fun n => ?_⟩
    rw [C14_union_new_start f' g hw hg (by rw [h3, hi]; simp) hj, hp]
  · left
    have : ia = true := h5.2 (by rintro ⟨k, hk, h⟩; rw [hi] at hk; cases hk; exact ho h)
    subst this
    refine ⟨ho, fun n => ?_⟩
    rw [C14_union_initial_acyclic f' g hw hg i (by rw [h3, hi]) (hc ho), hp]

example : ∃ h, exA.union exB = .ok h ∧ h.numStates = exA.numStates + exB.numStates := ⟨_, rfl, by decide⟩
example : ∃ h, exB.union exA = .ok h ∧ h.numStates = exA.numStates + exB.numStates + 1 := ⟨_, rfl, by decide⟩
example : exA.Truthful :=
  truthful_addTr (truthful_setFinal (truthful_setStart (truthful_addStates truthful_new _) _) (by decide) _) (by decide) _

end Verif
