import Verif.Props.C28

/-! # C28: the laws that hold are advertised -/

namespace Verif
universe u

theorem C28_boolean_flags : Advertised boolOps := ⟨fun _ => rfl, fun _ => rfl, fun _ => rfl, fun _ => rfl, fun _ => rfl⟩

theorem C28_tropical_flags {K : Type u} [LinearOrder K] [AddCommGroup K] : Advertised (TW.ops (K := K)) :=
  ⟨fun _ => rfl, fun _ => rfl, fun _ => rfl, fun _ => rfl, fun _ => rfl⟩

theorem C28_integer_flags : Advertised intOps where
  left _ := rfl
  right _ := rfl
  commutative _ := rfl
  idempotent h := by have := h 1; cases this
  path h := by rcases h 1 1 with h | h <;> cases h

theorem C28_integer_wrapping_flags : Advertised i32Ops where
  left _ := rfl
  right _ := rfl
  commutative _ := rfl
  idempotent h := by
    have : (1 : BitVec 32) + 1 = 1 := by have := h 1; injection this
    exact absurd this (by decide)
  path h := by
    have : (1 : BitVec 32) + 1 = 1 := by rcases h 1 1 with h | h <;> injection h
    exact absurd this (by decide)

theorem C28_probability_flags {K : Type u} [Field K] : Advertised (probOps (K := K)) where
  left _ := rfl
  right _ := rfl
  commutative _ := rfl
  idempotent h := by
    have : (1 : K) + 1 = 1 := by have := h 1; injection this
    exact absurd (add_eq_left.1 this) one_ne_zero
  path h := by
    have : (1 : K) + 1 = 1 := by rcases h 1 1 with h | h <;> injection h
    exact absurd (add_eq_left.1 this) one_ne_zero

theorem C28_log_flags : Advertised LW.ops where
  left _ := rfl
  right _ := rfl
  commutative _ := rfl
  idempotent h := by
    obtain ⟨z, h1, h2⟩ := C28_log_plus 0 0
    rw [h] at h1
    injection h1 with h1
    injection h1 with h1
    rw [← h1] at h2
    norm_num at h2
  path h := by
    obtain ⟨z, h1, h2⟩ := C28_log_plus 0 0
    have : LW.ops.plus (.fin 0) (.fin 0) = .ok (.fin 0) := (h (.fin 0) (.fin 0)).elim id id
    rw [this] at h1
    injection h1 with h1
    injection h1 with h1
    rw [← h1] at h2
    norm_num at h2

theorem C28_string_left_flags : Advertised StrW.leftOps where
  left _ := rfl
  right h := by have := h (.labels [1]) (.labels [2]) (.labels [3]) _ rfl; revert this; decide
  commutative h := by have := h (.labels [1]) (.labels [2]); revert this; decide
  idempotent _ := rfl
  path h := by have := h (.labels [1]) (.labels [2]); revert this; decide

theorem C28_string_right_flags : Advertised StrW.rightOps where
  left h := by have := h (.labels [1]) (.labels [2]) (.labels [3]) _ rfl; revert this; decide
  right _ := rfl
  commutative h := by have := h (.labels [1]) (.labels [2]); revert this; decide
  idempotent _ := rfl
  path h := by have := h (.labels [1]) (.labels [2]); revert this; decide

theorem C28_string_restrict_flags : Advertised StrW.restrictOps where
  left _ := rfl
  right _ := rfl
  commutative h := by have := h (.labels [1]) (.labels [2]); revert this; decide
  idempotent _ := rfl
  path h := by have := h (.labels [1]) (.labels [2]); revert this; decide

end Verif
