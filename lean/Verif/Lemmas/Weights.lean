import Verif.Spec.Semiring
import Verif.Model.LogWeight
import Mathlib.Algebra.Order.Group.Defs
import Mathlib.Algebra.Order.Group.MinMax
import Mathlib.Algebra.Ring.Defs
import Mathlib.Tactic.Ring
import Mathlib.Tactic.Linarith

/-!
# Tropical, log and string weights as algebraic structures
-/

namespace Verif
universe u v

theorem lawful_of_semiring {W : Type u} [Semiring W] (fl : SemiringFlags) (hc : fl.commutative = true → ∀ a b : W, a * b = b * a)
    (hi : fl.idempotent = true → ∀ a : W, a + a = a) (hp : fl.path = true → ∀ a b : W, a + b = a ∨ a + b = b) :
    Lawful (totalOps (0 : W) 1 (· + ·) (· * ·) fl) fun _ => True where
  good_zero := trivial
  good_one := trivial
  good_plus _ _ _ _ _ _ := trivial
  good_times _ _ _ _ _ _ := trivial
  plus_assoc a b c _ _ _ := congrArg Except.ok (add_assoc a b c)
  plus_comm a b _ _ := congrArg Except.ok (add_comm a b)
  plus_zero a _ := congrArg Except.ok (add_zero a)
  zero_plus a _ := congrArg Except.ok (zero_add a)
  times_assoc a b c _ _ _ := congrArg Except.ok (mul_assoc a b c)
  times_one a _ := congrArg Except.ok (mul_one a)
  one_times a _ := congrArg Except.ok (one_mul a)
  times_zero a _ := congrArg Except.ok (mul_zero a)
  zero_times a _ := congrArg Except.ok (zero_mul a)
  left _ a b c s _ _ _ h := by cases h; exact congrArg Except.ok (mul_add c a b)
  right _ a b c s _ _ _ h := by cases h; exact congrArg Except.ok (add_mul a b c)
  commutative h a b _ _ := congrArg Except.ok (hc h a b)
  idempotent h a _ := congrArg Except.ok (hi h a)
  path h a b _ _ := (hp h a b).imp (congrArg Except.ok) (congrArg Except.ok)

namespace TW
variable {K : Type u}

section
variable [LinearOrder K]

theorem plus_fin (x y : K) : plus (fin x) (fin y) = fin (min x y) := by
  unfold plus lt
  by_cases h : y < x
  · simp [h, min_eq_right h.le]
  · simp [h, min_eq_left (not_lt.1 h)]

@[simp] theorem plus_inf (a : TW K) : plus a inf = a := by cases a <;> rfl
@[simp] theorem inf_plus (a : TW K) : plus inf a = a := by cases a <;> rfl
@[simp] theorem plus_negInf (a : TW K) : plus a negInf = negInf := by cases a <;> rfl
@[simp] theorem negInf_plus (a : TW K) : plus negInf a = negInf := by cases a <;> rfl

theorem plus_path (a b : TW K) : plus a b = a ∨ plus a b = b := by
  unfold plus; split
  · exact .inr rfl
  · exact .inl rfl

theorem plus_comm (a b : TW K) : plus a b = plus b a := by
  cases a <;> cases b <;> simp [plus_fin, min_comm]

theorem plus_assoc (a b c : TW K) : plus (plus a b) c = plus a (plus b c) := by
  cases a <;> cases b <;> cases c <;> simp [plus_fin, min_assoc]

end

@[simp] theorem inf_times [Add K] (a : TW K) : times inf a = inf := rfl
@[simp] theorem times_inf [Add K] (a : TW K) : times a inf = inf := by cases a <;> rfl
@[simp] theorem negInf_fin [Add K] (x : K) : times negInf (fin x) = negInf := rfl
@[simp] theorem fin_negInf [Add K] (x : K) : times (fin x) negInf = negInf := rfl
@[simp] theorem negInf_negInf [Add K] : times (negInf : TW K) negInf = negInf := rfl
@[simp] theorem fin_fin [Add K] (x y : K) : times (fin x) (fin y) = fin (x + y) := rfl

/-- Tropical weights form a commutative semiring. -/
instance instCommSemiring [LinearOrder K] [AddCommMonoid K] [IsOrderedAddMonoid K] : CommSemiring (TW K) where
  zero := inf
  one := fin 0
  add := plus
  mul := times
  add_assoc := plus_assoc
  add_comm := plus_comm
  zero_add := inf_plus
  add_zero := plus_inf
  nsmul := letI : Zero (TW K) := ⟨inf⟩; letI : Add (TW K) := ⟨plus⟩; nsmulRec
  mul_assoc a b c := by
    change times (times a b) c = times a (times b c)
    cases a <;> cases b <;> cases c <;> simp [add_assoc]
  mul_comm a b := by
    change times a b = times b a
    cases a <;> cases b <;> simp [add_comm]
  one_mul a := by
    change times (fin 0) a = a
    cases a <;> simp
  mul_one a := by
    change times a (fin 0) = a
    cases a <;> simp
  zero_mul := inf_times
  mul_zero := times_inf
  left_distrib a b c := by
    change times a (plus b c) = plus (times a b) (times a c)
    cases a <;> cases b <;> cases c <;> simp [plus_fin, min_add_add_left]
  right_distrib a b c := by
    change times (plus a b) c = plus (times a c) (times b c)
    cases a <;> cases b <;> cases c <;> simp [plus_fin, min_add_add_right]

end TW

namespace LW

/-- The probability a log weight stands for. -/
noncomputable def prob : LW → ℝ
  | inf => 0
  | fin x => Real.exp (-x)

theorem prob_inj {a b : LW} (h : prob a = prob b) : a = b := by
  cases a <;> cases b <;> simp only [prob] at h
  · rw [Real.exp_eq_exp, neg_inj] at h; rw [h]
  · exact absurd h (Real.exp_ne_zero _)
  · exact absurd h.symm (Real.exp_ne_zero _)
  · rfl

theorem exp_lnPosExp (x y : ℝ) : Real.exp (-(y - lnPosExp (x - y))) = Real.exp (-x) + Real.exp (-y) := by
  have hp : 0 < 1 + Real.exp (-(x - y)) := by have := Real.exp_pos (-(x - y)); linarith
  unfold lnPosExp
  rw [neg_sub, sub_eq_add_neg, Real.exp_add, Real.exp_log hp, add_mul, one_mul, ← Real.exp_add]
  rw [add_comm]; congr 2; ring

theorem prob_plus (a b : LW) : prob (plus a b) = prob a + prob b := by
  cases a with
  | inf => simp [plus, prob]
  | fin x =>
    cases b with
    | inf => simp [plus, prob]
    | fin y =>
      simp only [plus]
      split
      · exact exp_lnPosExp x y
      · simp only [prob]; rw [exp_lnPosExp y x, add_comm]

theorem prob_times (a b : LW) : prob (times a b) = prob a * prob b := by
  cases a <;> cases b <;> simp [times, prob, ← Real.exp_add, add_comm]

@[simp] theorem prob_inf : prob inf = 0 := rfl
@[simp] theorem prob_one : prob (fin 0) = 1 := by simp [prob]

/-- Log weights form a commutative semiring. -/
noncomputable instance instCommSemiring : CommSemiring LW where
  zero := inf
  one := fin 0
  add := plus
  mul := times
  add_assoc a b c := prob_inj (by
    change prob (plus (plus a b) c) = prob (plus a (plus b c))
    simp only [prob_plus, add_assoc])
  add_comm a b := prob_inj (by
    change prob (plus a b) = prob (plus b a)
    simp only [prob_plus, add_comm])
  zero_add a := prob_inj (by
    change prob (plus inf a) = prob a
    simp [prob_plus])
  add_zero a := prob_inj (by
    change prob (plus a inf) = prob a
    simp [prob_plus])
  nsmul := letI : Zero LW := ⟨inf⟩; letI : Add LW := ⟨plus⟩; nsmulRec
  mul_assoc a b c := prob_inj (by
    change prob (times (times a b) c) = prob (times a (times b c))
    simp only [prob_times, mul_assoc])
  mul_comm a b := prob_inj (by
    change prob (times a b) = prob (times b a)
    simp only [prob_times, mul_comm])
  one_mul a := prob_inj (by
    change prob (times (fin 0) a) = prob a
    simp [prob_times])
  mul_one a := prob_inj (by
    change prob (times a (fin 0)) = prob a
    simp [prob_times])
  zero_mul a := prob_inj (by
    change prob (times inf a) = prob inf
    simp [prob_times])
  mul_zero a := prob_inj (by
    change prob (times a inf) = prob inf
    simp [prob_times])
  left_distrib a b c := prob_inj (by
    change prob (times a (plus b c)) = prob (plus (times a b) (times a c))
    simp only [prob_times, prob_plus, mul_add])
  right_distrib a b c := prob_inj (by
    change prob (times (plus a b) c) = prob (plus (times a c) (times b c))
    simp only [prob_times, prob_plus, add_mul])

end LW

namespace StrW

/-! ## Common prefixes -/

theorem common_nil_left (b : List Label) : common [] b = [] := rfl
theorem common_nil_right (a : List Label) : common a [] = [] := by cases a <;> rfl
theorem common_cons (x y : Label) (a b : List Label) :
    common (x :: a) (y :: b) = if x = y then x :: common a b else [] := by
  unfold common
  simp only [List.zip_cons_cons, List.takeWhile_cons]
  by_cases h : x = y <;> simp [h]

/-- `p` is the longest common prefix of `a` and `b`. -/
def IsLcp (p a b : List Label) : Prop := p <+: a ∧ p <+: b ∧ ∀ q, q <+: a → q <+: b → q <+: p

theorem isLcp_common : ∀ a b : List Label, IsLcp (common a b) a b
  | [], b => ⟨List.prefix_rfl, List.nil_prefix, fun _ h _ => h⟩
  | a, [] => by rw [common_nil_right]; exact ⟨List.nil_prefix, List.prefix_rfl, fun _ _ h => h⟩
  | x :: a, y :: b => by
    rw [common_cons]
    by_cases h : x = y
    · subst h
      obtain ⟨h1, h2, h3⟩ := isLcp_common a b
      rw [if_pos rfl]
      refine ⟨(List.prefix_cons_inj x).2 h1, (List.prefix_cons_inj x).2 h2, fun q hq hr => ?_⟩
      cases q with
      | nil => exact List.nil_prefix
      | cons z q =>
        obtain ⟨e, hq'⟩ := List.cons_prefix_cons.1 hq
        exact List.cons_prefix_cons.2 ⟨e, h3 q hq' (List.cons_prefix_cons.1 hr).2⟩
    · rw [if_neg h]
      refine ⟨List.nil_prefix, List.nil_prefix, fun q hq hr => ?_⟩
      cases q with
      | nil => exact List.nil_prefix
      | cons z q => exact absurd ((List.cons_prefix_cons.1 hq).1.symm.trans (List.cons_prefix_cons.1 hr).1) h

theorem isLcp_unique {p q a b : List Label} (hp : IsLcp p a b) (hq : IsLcp q a b) : p = q :=
  (hq.2.2 p hp.1 hp.2.1).eq_of_length_le (hp.2.2 q hq.1 hq.2.1).length_le

theorem common_comm (a b : List Label) : common a b = common b a :=
  isLcp_unique (isLcp_common a b) ⟨(isLcp_common b a).2.1, (isLcp_common b a).1, fun q h k => (isLcp_common b a).2.2 q k h⟩

theorem common_self (a : List Label) : common a a = a :=
  isLcp_unique (isLcp_common a a) ⟨List.prefix_rfl, List.prefix_rfl, fun _ h _ => h⟩

theorem common_assoc (a b c : List Label) : common (common a b) c = common a (common b c) := by
  obtain ⟨p1, p2, p3⟩ := isLcp_common a b
  obtain ⟨q1, q2, q3⟩ := isLcp_common b c
  obtain ⟨r1, r2, r3⟩ := isLcp_common a (common b c)
  refine isLcp_unique (isLcp_common _ _) ⟨p3 _ r1 (r2.trans q1), r2.trans q2, fun q h k => ?_⟩
  exact r3 q (h.trans p1) (q3 q (h.trans p2) k)

theorem common_append (c a b : List Label) : common (c ++ a) (c ++ b) = c ++ common a b := by
  induction c with
  | nil => rfl
  | cons x c ih => rw [List.cons_append, List.cons_append, common_cons, if_pos rfl, ih]; rfl

/-! ## Reversal swaps the two string semirings -/

@[simp] theorem reverse_reverse (a : StrW) : a.reverse.reverse = a := by cases a <;> simp [reverse]

theorem plusRight_eq (a b : StrW) : plusRight a b = (plusLeft a.reverse b.reverse).reverse := by
  cases a <;> cases b <;> simp [plusRight, plusLeft, reverse]

theorem reverse_times (a b : StrW) : (times a b).reverse = times b.reverse a.reverse := by
  cases a <;> cases b <;> simp [times, reverse]

theorem plusLeft_comm (a b : StrW) : plusLeft a b = plusLeft b a := by
  cases a <;> cases b <;> simp [plusLeft, common_comm]

theorem plusLeft_assoc (a b c : StrW) : plusLeft (plusLeft a b) c = plusLeft a (plusLeft b c) := by
  cases a <;> cases b <;> cases c <;> simp [plusLeft, common_assoc]

@[simp] theorem plusLeft_inf (a : StrW) : plusLeft a inf = a := by cases a <;> rfl
@[simp] theorem inf_plusLeft (a : StrW) : plusLeft inf a = a := rfl
@[simp] theorem times_inf (a : StrW) : times a inf = inf := by cases a <;> rfl
@[simp] theorem inf_times (a : StrW) : times inf a = inf := rfl

theorem times_assoc (a b c : StrW) : times (times a b) c = times a (times b c) := by
  cases a <;> cases b <;> cases c <;> simp [times]

theorem times_one (a : StrW) : times a (labels []) = a := by cases a <;> simp [times]
theorem one_times (a : StrW) : times (labels []) a = a := by cases a <;> simp [times]

theorem plusLeft_self (a : StrW) : plusLeft a a = a := by cases a <;> simp [plusLeft, common_self]

theorem times_plusLeft (c a b : StrW) : times c (plusLeft a b) = plusLeft (times c a) (times c b) := by
  cases c <;> cases a <;> cases b <;> simp [plusLeft, times, common_append]

end StrW
end Verif
