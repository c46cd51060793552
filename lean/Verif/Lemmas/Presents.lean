import Verif.Lemmas.Lazy
import Verif.Spec.Graph

/-! # FSTs that present a machine -/

namespace Verif
universe u v
variable {W : Type u} {T : Type v} {M : Machine T W} {nm : StateId → Option T} {F : Fst W}

namespace Machine.Presents

theorem trs_of (H : M.Presents nm F) (s : StateId) : ∀ tr ∈ F.trsOf s, ∃ t a, nm s = some t ∧ M.Reach t ∧ a ∈ M.trs t ∧ Names nm tr a := by
  intro tr htr
  by_cases hs : s < F.numStates
  · obtain ⟨t, ht⟩ := (H.states s).1 hs
    obtain ⟨a, ha, hn⟩ := Lz.names_next (H.trs s t ht) tr htr
    exact ⟨t, a, ht, (H.tuples t).2 ⟨s, ht⟩, ha, hn⟩
  · have : F.trsOf s = [] := by
      unfold Fst.trsOf
      rw [List.getElem?_eq_none (by simpa [Fst.numStates] using hs)]
    rw [this] at htr; cases htr

theorem fin_of (H : M.Presents nm F) {s : StateId} {w : W} (h : F.finOf s = some w) :
    ∃ t, nm s = some t ∧ M.Reach t ∧ M.fin t = some w := by
  by_cases hs : s < F.numStates
  · obtain ⟨t, ht⟩ := (H.states s).1 hs
    exact ⟨t, ht, (H.tuples t).2 ⟨s, ht⟩, by rw [← H.fin s t ht, h]⟩
  · have : F.finOf s = none := by
      unfold Fst.finOf
      rw [List.getElem?_eq_none (by simpa [Fst.numStates] using hs)]
    rw [this] at h; cases h

theorem of_trs (H : M.Presents nm F) {s : StateId} {t : T} (ht : nm s = some t) : ∀ a ∈ M.trs t, ∃ tr ∈ F.trsOf s, Names nm tr a := by
  have : ∀ {l : List (Tr W)} {m : List (MTr T W)}, List.Forall₂ (Names nm) l m → ∀ a ∈ m, ∃ tr ∈ l, Names nm tr a := by
    intro l m hl
    induction hl with
    | nil => simp
    | cons hd _ ih =>
      intro a ha
      rcases List.mem_cons.1 ha with rfl | ha
      · exact ⟨_, by simp, hd⟩
      · obtain ⟨tr, htr, h⟩ := ih a ha
        exact ⟨tr, by simp [htr], h⟩
  exact this (H.trs s t ht)

theorem start_some (H : M.Presents nm F) {i : StateId} (hi : F.start = some i) : ∃ t, M.start = some t ∧ nm i = some t := by
  have := H.start
  rw [hi] at this
  generalize M.start = ms at this
  cases this with
  | some e => exact ⟨_, rfl, e⟩

theorem start_of (H : M.Presents nm F) {t : T} (ht : M.start = some t) : ∃ i, F.start = some i ∧ nm i = some t := by
  have := H.start
  rw [ht] at this
  generalize F.start = fs at this
  cases this with
  | some e => exact ⟨_, rfl, e⟩

/-- All states are accessible. -/
theorem accessible (H : M.Presents nm F) : ∀ s, s < F.numStates → F.Accessible s := by
  have key : ∀ t, M.Reach t → ∀ s, nm s = some t → F.Accessible s := by
    intro t ht
    induction ht with
    | start h =>
      intro s hs
      obtain ⟨i, hi, e⟩ := H.start_of h
      rw [H.one s i _ hs e]
      exact ⟨i, hi, .refl⟩
    | @step t a hr ha ih =>
      intro s hs
      obtain ⟨q, hq⟩ := (H.tuples t).1 hr
      obtain ⟨i, hi, hiq⟩ := ih q hq
      obtain ⟨tr, htr, hn⟩ := H.of_trs hq a ha
      rw [H.one s tr.nextstate _ hs hn.2.2.2]
      exact ⟨i, hi, .tail hiq ⟨tr, htr, rfl⟩⟩
  intro s hs
  obtain ⟨t, ht⟩ := (H.states s).1 hs
  exact key t ((H.tuples t).2 ⟨s, ht⟩) s ht

theorem pathsFrom [Mul W] (H : M.Presents nm F) (n : Nat) {s : StateId} {t : T} (h : nm s = some t) : F.pathsFrom n s = M.pathsFrom n t := by
  refine pathsFrom_named (nm := nm) (D := fun s => ∃ t, nm s = some t) ?_ ?_ n s t ⟨t, h⟩ h
  · rintro s ⟨t, hs⟩
    exact ⟨t, hs, H.trs s t hs, H.fin s t hs⟩
  · rintro s _ tr htr
    obtain ⟨_, a, _, _, _, hn⟩ := H.trs_of s tr htr
    exact ⟨_, hn.2.2.2⟩

theorem accPaths [Mul W] (H : M.Presents nm F) (n : Nat) : F.accPaths n = M.accPaths n := by
  unfold Fst.accPaths Machine.accPaths
  have := H.start
  generalize F.start = fs at this
  generalize M.start = ms at this
  cases this with
  | none => rfl
  | some e => exact H.pathsFrom n e

end Machine.Presents
end Verif
