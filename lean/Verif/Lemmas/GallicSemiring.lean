import Verif.Lemmas.Gallic
import Mathlib.Algebra.GroupWithZero.Prod

/-!
# Gallic weights as Mathlib structures

`GallicWeight<W>` on proper values is a semiring, and the products with string weights are monoids with zero, with exactly the operations of the model.
So theorems about all semirings, or all monoids, apply to them.
-/

namespace Verif
universe u

/-- String weights with the multiplication that all three kinds share. -/
instance : MonoidWithZero StrW where
  mul := StrW.times
  one := .labels []
  zero := .inf
  mul_assoc a b c := by
    show StrW.times (StrW.times a b) c = StrW.times a (StrW.times b c)
    cases a <;> cases b <;> cases c <;> simp [StrW.times]
  one_mul a := by
    show StrW.times (.labels []) a = a
    cases a <;> simp [StrW.times]
  mul_one a := by
    show StrW.times a (.labels []) = a
    cases a <;> simp [StrW.times]
  zero_mul a := rfl
  mul_zero a := by
    show StrW.times a .inf = .inf
    cases a <;> rfl

/-- A semiring's flags, as far as the operations are concerned: irrelevant. -/
def anyFlags : SemiringFlags := ⟨true, true, false, false, false⟩

variable {W : Type u} [Semiring W]

/-- The proper values of `GallicWeight<W>`: lists with increasing strings. -/
def GW (W : Type u) [Semiring W] : Type u := {l : List (StrW × W) // GGood l}

namespace GW

instance [DecidableEq W] : DecidableEq (GW W) := inferInstanceAs (DecidableEq {l : List (StrW × W) // GGood l})

theorem ext' {a b : GW W} (h : toAlg a.1 = toAlg b.1) : a = b := Subtype.ext (toAlg_inj a.2 b.2 h)

/-- `plus`. -/
def plus (a b : GW W) : GW W :=
  match h : (gallicOps (semiOps W anyFlags)).plus a.1 b.1 with
  | .ok s => ⟨s, by
      obtain ⟨s', h1, h2, _⟩ := unionPlus_spec anyFlags a.2 b.2
      have : (gallicOps (semiOps W anyFlags)).plus a.1 b.1 = .ok s' := h1
      rw [h] at this; injection this with this; exact this ▸ h2⟩
  | .error _ => ⟨[], by simp, by simp⟩

/-- `times`. -/
def times (a b : GW W) : GW W :=
  match h : (gallicOps (semiOps W anyFlags)).times a.1 b.1 with
  | .ok s => ⟨s, by
      obtain ⟨s', h1, h2, _⟩ := unionTimes_spec anyFlags a.2 b.2
      have : (gallicOps (semiOps W anyFlags)).times a.1 b.1 = .ok s' := h1
      rw [h] at this; injection this with this; exact this ▸ h2⟩
  | .error _ => ⟨[], by simp, by simp⟩

theorem plus_ok (a b : GW W) : (gallicOps (semiOps W anyFlags)).plus a.1 b.1 = .ok (plus a b).1 := by
  obtain ⟨s', h1, h2, _⟩ := unionPlus_spec anyFlags a.2 b.2
  have : (gallicOps (semiOps W anyFlags)).plus a.1 b.1 = .ok s' := h1
  unfold plus
  split
  · assumption
  · rename_i h; rw [h] at this; cases this

theorem times_ok (a b : GW W) : (gallicOps (semiOps W anyFlags)).times a.1 b.1 = .ok (times a b).1 := by
  obtain ⟨s', h1, h2, _⟩ := unionTimes_spec anyFlags a.2 b.2
  have : (gallicOps (semiOps W anyFlags)).times a.1 b.1 = .ok s' := h1
  unfold times
  split
  · assumption
  · rename_i h; rw [h] at this; cases this

theorem toAlg_plus (a b : GW W) : toAlg (plus a b).1 = toAlg a.1 + toAlg b.1 := by
  obtain ⟨s', h1, _, h3⟩ := unionPlus_spec anyFlags a.2 b.2
  have : (gallicOps (semiOps W anyFlags)).plus a.1 b.1 = .ok s' := h1
  rw [plus_ok] at this; injection this with this; rw [this, h3]

theorem toAlg_times (a b : GW W) : toAlg (times a b).1 = toAlg a.1 * toAlg b.1 := by
  obtain ⟨s', h1, _, h3⟩ := unionTimes_spec anyFlags a.2 b.2
  have : (gallicOps (semiOps W anyFlags)).times a.1 b.1 = .ok s' := h1
  rw [times_ok] at this; injection this with this; rw [this, h3]

instance : Zero (GW W) := ⟨⟨(gallicOps (semiOps W anyFlags)).zero, by simp [gallicOps, unionOps, GGood]⟩⟩
instance : One (GW W) := ⟨⟨(gallicOps (semiOps W anyFlags)).one, by
  simp [gallicOps, unionOps, prodOps, StrW.restrictOps, GProper, GGood]⟩⟩

instance : Add (GW W) := ⟨plus⟩
instance : Mul (GW W) := ⟨times⟩

theorem toAlg_zero : toAlg (0 : GW W).1 = 0 := rfl
theorem toAlg_one : toAlg (1 : GW W).1 = 1 := by
  show gterm ((.labels [], 1) : StrW × W) + 0 = 1
  rw [add_zero]; rfl

instance : Semiring (GW W) where
  add_assoc a b c := ext' (by
    show toAlg (plus (plus a b) c).1 = toAlg (plus a (plus b c)).1
    simp only [toAlg_plus, add_assoc])
  zero_add a := ext' (by show toAlg (plus 0 a).1 = _; rw [toAlg_plus, toAlg_zero, zero_add])
  add_zero a := ext' (by show toAlg (plus a 0).1 = _; rw [toAlg_plus, toAlg_zero, add_zero])
  add_comm a b := ext' (by show toAlg (plus a b).1 = toAlg (plus b a).1; rw [toAlg_plus, toAlg_plus, add_comm])
  mul_assoc a b c := ext' (by
    show toAlg (times (times a b) c).1 = toAlg (times a (times b c)).1
    simp only [toAlg_times, mul_assoc])
  one_mul a := ext' (by show toAlg (times 1 a).1 = _; rw [toAlg_times, toAlg_one, one_mul])
  mul_one a := ext' (by show toAlg (times a 1).1 = _; rw [toAlg_times, toAlg_one, mul_one])
  zero_mul a := ext' (by show toAlg (times 0 a).1 = _; rw [toAlg_times, toAlg_zero, zero_mul])
  mul_zero a := ext' (by show toAlg (times a 0).1 = _; rw [toAlg_times, toAlg_zero, mul_zero])
  left_distrib a b c := ext' (by
    show toAlg (times a (plus b c)).1 = toAlg (plus (times a b) (times a c)).1
    simp only [toAlg_times, toAlg_plus, mul_add])
  right_distrib a b c := ext' (by
    show toAlg (times (plus a b) c).1 = toAlg (plus (times a c) (times b c)).1
    simp only [toAlg_times, toAlg_plus, add_mul])
  nsmul := nsmulRec

theorem add_ok (a b : GW W) : (gallicOps (semiOps W anyFlags)).plus a.1 b.1 = .ok (a + b).1 := plus_ok a b
theorem mul_ok (a b : GW W) : (gallicOps (semiOps W anyFlags)).times a.1 b.1 = .ok (a * b).1 := times_ok a b
theorem toAlg_add (a b : GW W) : toAlg (a + b).1 = toAlg a.1 + toAlg b.1 := toAlg_plus a b
theorem toAlg_mul (a b : GW W) : toAlg (a * b).1 = toAlg a.1 * toAlg b.1 := toAlg_times a b

end GW
end Verif
