import Verif.Model.NShortest
import Verif.Lemmas.Heap
import Verif.Props.C17
import Mathlib.Algebra.Ring.Defs

/-! # The order in which the search for the `n` shortest paths looks at its states -/

namespace Verif
universe u v
set_option linter.unusedSectionVars false

section
variable {W : Type u} [CommSemiring W] [DecidableEq W]

/-- The laws of the weights: of two weights one is the sum. -/
structure PathWeights (W : Type u) [CommSemiring W] : Prop where
  path : ∀ a b : W, a + b = a ∨ a + b = b
  one : (1 : W) ≠ 0

/-- As a factor `c` is zero or can be cancelled. -/
def Cancels (c : W) : Prop := c = 0 ∨ ∀ a b : W, c * a = c * b → a = b

/-- `a` is at least as good as `b`. -/
def Best (a b : W) : Prop := a + b = a

namespace Best
variable {a b c : W}

theorem refl (h : PathWeights W) (a : W) : Best a a := by rcases h.path a a with e | e <;> exact e
theorem trans (h1 : Best a b) (h2 : Best b c) : Best a c := by
  unfold Best at *
  calc a + c = a + b + c := by rw [h1]
    _ = a + (b + c) := add_assoc _ _ _
    _ = a := by rw [h2, h1]
theorem antisymm (h1 : Best a b) (h2 : Best b a) : a = b := by
  unfold Best at *
  rw [← h1, add_comm, h2]
theorem total (h : PathWeights W) (a b : W) : Best a b ∨ Best b a := by
  rcases h.path a b with e | e
  · exact .inl e
  · exact .inr (by unfold Best; rw [add_comm, e])
theorem mul (h : Best a b) (c : W) : Best (c * a) (c * b) := by
  unfold Best at *
  rw [← mul_add, h]
theorem zero (a : W) : Best a 0 := add_zero a
theorem of_zero (h : Best 0 a) : a = 0 := by
  unfold Best at h; rwa [zero_add] at h
theorem cancel (h : PathWeights W) (hc : Cancels c) (h0 : c ≠ 0) (hb : Best (c * a) (c * b)) : Best a b := by
  rcases total h a b with e | e
  · exact e
  · rw [(hc.resolve_left h0) a b (antisymm hb (e.mul c))]; exact refl h b

end Best

namespace NSp

theorem less_true {a b : W} : less a b = true ↔ Best a b ∧ a ≠ b := by simp [less, Best]

theorem less_false (h : PathWeights W) {a b : W} : less a b = false ↔ Best b a := by
  rw [← Bool.not_eq_true, less_true]
  constructor
  · intro hn
    rcases Best.total h b a with e | e
    · exact e
    · by_cases hab : a = b
      · rw [hab]; exact Best.refl h b
      · exact absurd ⟨e, hab⟩ hn
  · intro hb hn
    exact hn.2 (Best.antisymm hn.1 hb)

variable {eqv : W → W → Bool} {dist : List W}

/-- The second entry is not taken before the first. -/
theorem lessPair_false (h : PathWeights W) (he : ∀ a b, eqv a b = true ↔ b = a) {x y : Option StateId × W} :
    lessPair eqv dist x y = false ↔ Best (key dist x) (key dist y) ∧ (key dist x = key dist y → x.1 = none → y.1 = none) := by
  have he' : ∀ a b, eqv a b = false ↔ b ≠ a := fun a b => by rw [← Bool.not_eq_true, he]
  obtain ⟨x1, x2⟩ := x
  obtain ⟨y1, y2⟩ := y
  generalize hkx : key dist (x1, x2) = kx
  generalize hky : key dist (y1, y2) = ky
  unfold lessPair
  rw [hkx, hky]
  cases x1 with
  | none =>
    cases y1 with
    | none => simp [less_false h]
    | some y1 =>
      simp only [Option.isNone_none, Option.isSome_some, Bool.and_self, if_true, Bool.or_eq_false_iff, less_false h, he']
      exact ⟨fun hh => ⟨hh.1, fun e => absurd e.symm hh.2⟩, fun hh => ⟨hh.1, fun e => by simpa using hh.2 e.symm⟩⟩
  | some x1 =>
    cases y1 with
    | none =>
      simp only [Option.isNone_some, Bool.false_and, Bool.false_eq_true, if_false, Option.isSome_some, Option.isNone_none, Bool.and_self,
        if_true, Bool.and_eq_false_iff, less_false h, Bool.not_eq_false', he]
      constructor
      · rintro (hh | rfl)
        · exact ⟨hh, by simp⟩
        · exact ⟨Best.refl h _, by simp⟩
      · exact fun hh => .inl hh.1
    | some y1 => simp [less_false h]

theorem lessPair_weak (h : PathWeights W) (he : ∀ a b, eqv a b = true ↔ b = a) : Heap.Weak (lessPair eqv dist) where
  asymm x y hxy := by
    rw [lessPair_false h he]
    have hn : ¬ (lessPair eqv dist x y = false) := by simp [hxy]
    rw [lessPair_false h he] at hn
    rcases Best.total h (key dist x) (key dist y) with e | e
    · have hn' : ¬ (key dist x = key dist y → x.1 = none → y.1 = none) := fun hh => hn ⟨e, hh⟩
      push Not at hn'
      obtain ⟨h1, h2, h3⟩ := hn'
      exact ⟨by rw [h1]; exact Best.refl h _, fun _ hy => absurd hy h3⟩
    · refine ⟨e, fun h1 h2 => ?_⟩
      by_contra h3
      exact hn ⟨by rw [h1]; exact Best.refl h _, fun _ _ => h2⟩
  ntrans x y z h1 h2 := by
    rw [lessPair_false h he] at *
    refine ⟨h1.1.trans h2.1, fun hxz hx => ?_⟩
    have hxy : key dist x = key dist y := Best.antisymm h1.1 (by rw [hxz]; exact h2.1)
    exact h2.2 (by rw [← hxy, hxz]) (h1.2 hxy hx)

theorem compare_weak (h : PathWeights W) (he : ∀ a b, eqv a b = true ↔ b = a) (pairs : List (Option StateId × W)) :
    Heap.Weak (compare eqv dist pairs) where
  asymm x y := (lessPair_weak h he).asymm _ _
  ntrans x y z := (lessPair_weak h he).ntrans _ _ _

/-- An additional entry does not change the comparison of the others. -/
theorem compare_append {pairs l : List (Option StateId × W)} {x y : StateId} (hx : x < pairs.length) (hy : y < pairs.length) :
    compare eqv dist (pairs ++ l) x y = compare eqv dist pairs x y := by
  unfold compare
  rw [List.getElem?_append_left hx, List.getElem?_append_left hy]

theorem isHeap_append {pairs l : List (Option StateId × W)} {heap : List StateId} (hlt : ∀ x ∈ heap, x < pairs.length)
    (h : Heap.IsHeap (compare eqv dist pairs) heap) : Heap.IsHeap (compare eqv dist (pairs ++ l)) heap := by
  intro k a b hk hne ha hb
  rw [compare_append (hlt a (List.mem_of_getElem? ha)) (hlt b (List.mem_of_getElem? hb))]
  exact h k a b hk hne ha hb

end NSp
end
end Verif
