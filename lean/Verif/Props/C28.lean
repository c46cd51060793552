import Verif.Lemmas.Gallic
import Mathlib.Data.BitVec
import Mathlib.Algebra.Field.Basic
import Mathlib.Algebra.Order.Ring.Int
import Mathlib.Data.Rat.Defs
import Mathlib.Algebra.Order.Ring.Rat
import Mathlib.Algebra.Order.Ring.Int
import Mathlib.Tactic.NormNum

/-!
# C28 Semiring laws

Every weight type satisfies the laws of `Semiring` and those its `properties()` advertise (`Lawful`, in Spec/Semiring), except the
`min` gallic weights, whose `plus` is not commutative.
-/

namespace Verif
universe u v

/-! ## Numbers and booleans -/

theorem C28_boolean : Lawful boolOps fun _ => True where
  good_zero := trivial
  good_one := trivial
  good_plus _ _ _ _ _ _ := trivial
  good_times _ _ _ _ _ _ := trivial
  plus_assoc a b c _ _ _ := by cases a <;> cases b <;> cases c <;> rfl
  plus_comm a b _ _ := by cases a <;> cases b <;> rfl
  plus_zero a _ := by cases a <;> rfl
  zero_plus a _ := by cases a <;> rfl
  times_assoc a b c _ _ _ := by cases a <;> cases b <;> cases c <;> rfl
  times_one a _ := by cases a <;> rfl
  one_times a _ := by cases a <;> rfl
  times_zero a _ := by cases a <;> rfl
  zero_times a _ := by cases a <;> rfl
  left _ a b c s _ _ _ h := by cases h; cases a <;> cases b <;> cases c <;> rfl
  right _ a b c s _ _ _ h := by cases h; cases a <;> cases b <;> cases c <;> rfl
  commutative _ a b _ _ := by cases a <;> cases b <;> rfl
  idempotent _ a _ := by cases a <;> rfl
  path _ a b _ _ := by cases a <;> cases b <;> first | exact .inl rfl | exact .inr rfl

theorem C28_integer : Lawful intOps fun _ => True :=
  lawful_of_semiring _ (fun _ => mul_comm) (fun h => by cases h) fun h => by cases h

/-- Also with 32-bit wrapping. -/
theorem C28_integer_wrapping : Lawful i32Ops fun _ => True :=
  lawful_of_semiring (W := BitVec 32) _ (fun _ => mul_comm) (fun h => by cases h) fun h => by cases h

theorem C28_probability {K : Type u} [Field K] : Lawful (probOps (K := K)) fun _ => True :=
  lawful_of_semiring _ (fun _ => mul_comm) (fun h => by cases h) fun h => by cases h

theorem C28_tropical {K : Type u} [LinearOrder K] [AddCommGroup K] [IsOrderedAddMonoid K] :
    Lawful (TW.ops (K := K)) fun _ => True :=
  lawful_of_semiring (W := TW K) _ (fun _ => mul_comm)
    (fun _ a => by rcases TW.plus_path a a with h | h <;> exact h) fun _ => TW.plus_path

theorem C28_log : Lawful LW.ops fun _ => True :=
  lawful_of_semiring (W := LW) _ (fun _ => mul_comm) (fun h => by cases h) fun h => by cases h

example : TW.ops.plus (.fin (3 : Int)) (.fin 2) = .ok (.fin 2) ∧ TW.ops.times (.fin (3 : Int)) (.fin 2) = .ok (.fin 5) ∧
    TW.ops.times (.negInf : TW Int) .inf = .ok .inf := by decide

/-- What `plus` means on log weights: the probabilities are added. -/
theorem C28_log_plus (x y : ℝ) :
    ∃ z, LW.ops.plus (.fin x) (.fin y) = .ok (.fin z) ∧ Real.exp (-z) = Real.exp (-x) + Real.exp (-y) := by
  have h := LW.prob_plus (.fin x) (.fin y)
  cases hz : LW.plus (.fin x) (.fin y) with
  | inf =>
    rw [hz] at h
    have h1 := Real.exp_pos (-x)
    have h2 := Real.exp_pos (-y)
    simp only [LW.prob] at h
    linarith
  | fin z => rw [hz] at h; exact ⟨z, congrArg Except.ok hz, h⟩

/-! ## Strings -/

theorem C28_string_left : Lawful StrW.leftOps fun _ => True where
  good_zero := trivial
  good_one := trivial
  good_plus _ _ _ _ _ _ := trivial
  good_times _ _ _ _ _ _ := trivial
  plus_assoc a b c _ _ _ := congrArg Except.ok (StrW.plusLeft_assoc a b c)
  plus_comm a b _ _ := congrArg Except.ok (StrW.plusLeft_comm a b)
  plus_zero a _ := congrArg Except.ok (StrW.plusLeft_inf a)
  zero_plus a _ := rfl
  times_assoc a b c _ _ _ := congrArg Except.ok (StrW.times_assoc a b c)
  times_one a _ := congrArg Except.ok (StrW.times_one a)
  one_times a _ := congrArg Except.ok (StrW.one_times a)
  times_zero a _ := congrArg Except.ok (StrW.times_inf a)
  zero_times a _ := rfl
  left _ a b c s _ _ _ h := by cases h; exact congrArg Except.ok (StrW.times_plusLeft c a b)
  right h := by cases h
  commutative h := by cases h
  idempotent _ a _ := congrArg Except.ok (StrW.plusLeft_self a)
  path h := by cases h

theorem C28_string_right : Lawful StrW.rightOps fun _ => True where
  good_zero := trivial
  good_one := trivial
  good_plus _ _ _ _ _ _ := trivial
  good_times _ _ _ _ _ _ := trivial
  plus_assoc a b c _ _ _ := congrArg Except.ok (by simp [StrW.plusRight_eq, StrW.plusLeft_assoc])
  plus_comm a b _ _ := congrArg Except.ok (by simp [StrW.plusRight_eq, StrW.plusLeft_comm])
  plus_zero a _ := by cases a <;> rfl
  zero_plus a _ := rfl
  times_assoc a b c _ _ _ := congrArg Except.ok (StrW.times_assoc a b c)
  times_one a _ := congrArg Except.ok (StrW.times_one a)
  one_times a _ := congrArg Except.ok (StrW.one_times a)
  times_zero a _ := congrArg Except.ok (StrW.times_inf a)
  zero_times a _ := rfl
  left h := by cases h
  right _ a b c s _ _ _ h := by
    cases h
    refine congrArg Except.ok ?_
    change StrW.times (StrW.plusRight a b) c = StrW.plusRight (StrW.times a c) (StrW.times b c)
    rw [StrW.plusRight_eq, StrW.plusRight_eq, StrW.reverse_times, StrW.reverse_times, ← StrW.times_plusLeft, StrW.reverse_times,
      StrW.reverse_reverse]
  commutative h := by cases h
  idempotent _ a _ := congrArg Except.ok (by simp [StrW.plusRight_eq, StrW.plusLeft_self])
  path h := by cases h

theorem C28_string_restrict : Lawful StrW.restrictOps fun _ => True where
  good_zero := trivial
  good_one := trivial
  good_plus _ _ _ _ _ _ := trivial
  good_times _ _ _ _ _ _ := trivial
  plus_assoc a b c _ _ _ := by
    simp only [StrW.restrictOps]
    cases a with
    | inf => cases b <;> cases c <;> simp [StrW.plusRestrict, Bind.bind, Except.bind] <;> split <;> rfl
    | labels a =>
      cases b with
      | inf => cases c <;> simp [StrW.plusRestrict, Bind.bind, Except.bind]
      | labels b =>
        cases c with
        | inf => by_cases h : a = b <;> simp [StrW.plusRestrict, Bind.bind, Except.bind, h]
        | labels c =>
          by_cases h : a = b <;> by_cases k : b = c <;> simp_all [StrW.plusRestrict, Bind.bind, Except.bind]
  plus_comm a b _ _ := by
    cases a <;> cases b <;> simp [StrW.restrictOps, StrW.plusRestrict]
    rename_i l m
    by_cases h : l = m
    · simp [h]
    · simp [h, Ne.symm h, fun e : m = l => h e.symm]
  plus_zero a _ := by cases a <;> rfl
  zero_plus a _ := rfl
  times_assoc a b c _ _ _ := congrArg Except.ok (StrW.times_assoc a b c)
  times_one a _ := congrArg Except.ok (StrW.times_one a)
  one_times a _ := congrArg Except.ok (StrW.one_times a)
  times_zero a _ := congrArg Except.ok (StrW.times_inf a)
  zero_times a _ := rfl
  left _ a b c s _ _ _ h := by
    cases a with
    | inf => cases h; cases b <;> cases c <;> rfl
    | labels a =>
      cases b with
      | inf => cases h; cases c <;> rfl
      | labels b =>
        by_cases hab : a = b
        · subst hab
          simp only [StrW.restrictOps, StrW.plusRestrict, ne_eq, not_true_eq_false, if_false] at h
          cases h
          cases c <;> simp [StrW.restrictOps, StrW.times, Bind.bind, Except.bind, StrW.plusRestrict]
        · simp [StrW.restrictOps, StrW.plusRestrict, hab] at h
  right _ a b c s _ _ _ h := by
    cases a with
    | inf => cases h; cases b <;> cases c <;> rfl
    | labels a =>
      cases b with
      | inf => cases h; cases c <;> rfl
      | labels b =>
        by_cases hab : a = b
        · subst hab
          simp only [StrW.restrictOps, StrW.plusRestrict, ne_eq, not_true_eq_false, if_false] at h
          cases h
          cases c <;> simp [StrW.restrictOps, StrW.times, Bind.bind, Except.bind, StrW.plusRestrict]
        · simp [StrW.restrictOps, StrW.plusRestrict, hab] at h
  commutative h := by cases h
  idempotent _ a _ := by cases a <;> simp [StrW.restrictOps, StrW.plusRestrict]
  path h := by cases h

/-- The sides the string weights do not advertise are really missing. -/
theorem C28_string_sides :
    (∃ a b c, StrW.times (StrW.plusLeft a b) c ≠ StrW.plusLeft (StrW.times a c) (StrW.times b c)) ∧
    (∃ a b c, StrW.times c (StrW.plusRight a b) ≠ StrW.plusRight (StrW.times c a) (StrW.times c b)) :=
  ⟨⟨.labels [], .labels [1], .labels [2], by decide⟩, ⟨.labels [], .labels [1], .labels [2], by decide⟩⟩

/-! ## Products -/

/-- No operation of `o` panics. -/
def NoPanic {W : Type u} (o : WeightOps W) : Prop := ∀ a b, o.plus a b ≠ .error .panic ∧ o.times a b ≠ .error .panic

theorem NoPanic.of_total {W : Type u} (zero one : W) (p t : W → W → W) (fl : SemiringFlags) : NoPanic (totalOps zero one p t fl) :=
  fun _ _ => ⟨nofun, nofun⟩

theorem noPanic_restrict : NoPanic StrW.restrictOps := fun a b => by
  refine ⟨?_, nofun⟩
  cases a <;> cases b <;> simp only [StrW.restrictOps, StrW.plusRestrict, ne_eq, reduceCtorEq, not_false_eq_true]
  split <;> simp

section
variable {A : Type u} {B : Type v}

theorem pairR_bind {f : R A} {g : R B} {h : A → R A} {k : B → R B} (hf : f ≠ .error .panic) (hg : g ≠ .error .panic)
    (hh : ∀ x, h x ≠ .error .panic) (_hk : ∀ x, k x ≠ .error .panic) :
    (do let x ← pairR f g; pairR (h x.1) (k x.2)) = pairR (f >>= h) (g >>= k) := by
  cases f with
  | error e =>
    cases e with
    | panic => exact absurd rfl hf
    | err => cases g <;> rfl
  | ok a =>
    cases g with
    | ok b => rfl
    | error e =>
      cases e with
      | panic => exact absurd rfl hg
      | err =>
        change Except.error Fail.err = pairR (h a) (Except.error Fail.err)
        cases hha : h a with
        | ok x => rfl
        | error e =>
          cases e with
          | err => rfl
          | panic => exact absurd hha (hh a)

theorem pairR_ok {f : R A} {g : R B} {s : A × B} (h : pairR f g = .ok s) : f = .ok s.1 ∧ g = .ok s.2 := by
  cases f <;> cases g <;> simp [pairR] at h
  subst h; exact ⟨rfl, rfl⟩

theorem bind_noPanic {α β : Type _} {f : R α} {h : α → R β} (hf : f ≠ .error .panic) (hh : ∀ x, h x ≠ .error .panic) :
    (f >>= h) ≠ .error .panic := by
  cases f with
  | ok a => exact hh a
  | error e => exact fun he => hf (by cases he; rfl)

/-- Products of weights, hence the left, right and restricted gallic weights. -/
theorem C28_product {o : WeightOps A} {p : WeightOps B} {P : A → Prop} {Q : B → Prop} (ho : Lawful o P) (hp : Lawful p Q)
    (no : NoPanic o) (np : NoPanic p) : Lawful (prodOps o p) fun a => P a.1 ∧ Q a.2 where
  good_zero := ⟨ho.good_zero, hp.good_zero⟩
  good_one := ⟨ho.good_one, hp.good_one⟩
  good_plus a b s ha hb h := ⟨ho.good_plus _ _ _ ha.1 hb.1 (pairR_ok h).1, hp.good_plus _ _ _ ha.2 hb.2 (pairR_ok h).2⟩
  good_times a b s ha hb h := ⟨ho.good_times _ _ _ ha.1 hb.1 (pairR_ok h).1, hp.good_times _ _ _ ha.2 hb.2 (pairR_ok h).2⟩
  plus_assoc a b c ha hb hc := by
    have h1 := pairR_bind (h := fun x => o.plus x c.1) (k := fun x => p.plus x c.2) (no a.1 b.1).1 (np a.2 b.2).1
      (fun x => (no x _).1) (fun x => (np x _).1)
    have h2 := pairR_bind (h := fun x => o.plus a.1 x) (k := fun x => p.plus a.2 x) (no b.1 c.1).1 (np b.2 c.2).1
      (fun x => (no _ x).1) (fun x => (np _ x).1)
    refine h1.trans (Eq.trans ?_ h2.symm)
    exact congrArg₂ pairR (ho.plus_assoc _ _ _ ha.1 hb.1 hc.1) (hp.plus_assoc _ _ _ ha.2 hb.2 hc.2)
  plus_comm a b ha hb := congrArg₂ pairR (ho.plus_comm _ _ ha.1 hb.1) (hp.plus_comm _ _ ha.2 hb.2)
  plus_zero a ha := (congrArg₂ pairR (ho.plus_zero _ ha.1) (hp.plus_zero _ ha.2)).trans rfl
  zero_plus a ha := (congrArg₂ pairR (ho.zero_plus _ ha.1) (hp.zero_plus _ ha.2)).trans rfl
  times_assoc a b c ha hb hc := by
    have h1 := pairR_bind (h := fun x => o.times x c.1) (k := fun x => p.times x c.2) (no a.1 b.1).2 (np a.2 b.2).2
      (fun x => (no x _).2) (fun x => (np x _).2)
    have h2 := pairR_bind (h := fun x => o.times a.1 x) (k := fun x => p.times a.2 x) (no b.1 c.1).2 (np b.2 c.2).2
      (fun x => (no _ x).2) (fun x => (np _ x).2)
    refine h1.trans (Eq.trans ?_ h2.symm)
    exact congrArg₂ pairR (ho.times_assoc _ _ _ ha.1 hb.1 hc.1) (hp.times_assoc _ _ _ ha.2 hb.2 hc.2)
  times_one a ha := (congrArg₂ pairR (ho.times_one _ ha.1) (hp.times_one _ ha.2)).trans rfl
  one_times a ha := (congrArg₂ pairR (ho.one_times _ ha.1) (hp.one_times _ ha.2)).trans rfl
  times_zero a ha := (congrArg₂ pairR (ho.times_zero _ ha.1) (hp.times_zero _ ha.2)).trans rfl
  zero_times a ha := (congrArg₂ pairR (ho.zero_times _ ha.1) (hp.zero_times _ ha.2)).trans rfl
  left h a b c s ha hb hc hs := by
    have hl : o.flags.left = true ∧ p.flags.left = true := by simpa [prodOps, SemiringFlags.prod] using h
    obtain ⟨s1, s2⟩ := pairR_ok hs
    have e1 := ho.left hl.1 _ _ _ _ ha.1 hb.1 hc.1 s1
    have e2 := hp.left hl.2 _ _ _ _ ha.2 hb.2 hc.2 s2
    refine (congrArg₂ pairR e1 e2).trans ?_
    refine (pairR_bind (no _ _).2 (np _ _).2 (fun x => bind_noPanic (no _ _).2 fun y => (no _ _).1)
      (fun x => bind_noPanic (np _ _).2 fun y => (np _ _).1)).symm.trans ?_
    refine congrArg (Bind.bind _) (funext fun x => ?_)
    exact (pairR_bind (no _ _).2 (np _ _).2 (fun y => (no _ _).1) (fun y => (np _ _).1)).symm
  right h a b c s ha hb hc hs := by
    have hl : o.flags.right = true ∧ p.flags.right = true := by simpa [prodOps, SemiringFlags.prod] using h
    obtain ⟨s1, s2⟩ := pairR_ok hs
    have e1 := ho.right hl.1 _ _ _ _ ha.1 hb.1 hc.1 s1
    have e2 := hp.right hl.2 _ _ _ _ ha.2 hb.2 hc.2 s2
    refine (congrArg₂ pairR e1 e2).trans ?_
    refine (pairR_bind (no _ _).2 (np _ _).2 (fun x => bind_noPanic (no _ _).2 fun y => (no _ _).1)
      (fun x => bind_noPanic (np _ _).2 fun y => (np _ _).1)).symm.trans ?_
    refine congrArg (Bind.bind _) (funext fun x => ?_)
    exact (pairR_bind (no _ _).2 (np _ _).2 (fun y => (no _ _).1) (fun y => (np _ _).1)).symm
  commutative h a b ha hb := by
    have hl : o.flags.commutative = true ∧ p.flags.commutative = true := by simpa [prodOps, SemiringFlags.prod] using h
    exact congrArg₂ pairR (ho.commutative hl.1 _ _ ha.1 hb.1) (hp.commutative hl.2 _ _ ha.2 hb.2)
  idempotent h a ha := by
    have hl : o.flags.idempotent = true ∧ p.flags.idempotent = true := by simpa [prodOps, SemiringFlags.prod] using h
    exact (congrArg₂ pairR (ho.idempotent hl.1 _ ha.1) (hp.idempotent hl.2 _ ha.2)).trans rfl
  path h := by cases h

end

/-- Left, right and restricted gallic weights over tropical weights. -/
theorem C28_gallic_products {K : Type u} [LinearOrder K] [AddCommGroup K] [IsOrderedAddMonoid K] :
    Lawful (prodOps StrW.leftOps (TW.ops (K := K))) (fun _ => True ∧ True) ∧
    Lawful (prodOps StrW.rightOps (TW.ops (K := K))) (fun _ => True ∧ True) ∧
    Lawful (prodOps StrW.restrictOps (TW.ops (K := K))) (fun _ => True ∧ True) :=
  ⟨C28_product C28_string_left C28_tropical (fun _ _ => ⟨nofun, nofun⟩) (fun _ _ => ⟨nofun, nofun⟩),
    C28_product C28_string_right C28_tropical (fun _ _ => ⟨nofun, nofun⟩) (fun _ _ => ⟨nofun, nofun⟩),
    C28_product C28_string_restrict C28_tropical noPanic_restrict (fun _ _ => ⟨nofun, nofun⟩)⟩

example : (prodOps StrW.leftOps (TW.ops (K := Int))).plus (.labels [1, 2], .fin 3) (.labels [1, 3], .fin 2) = .ok (.labels [1], .fin 2) := by
  decide

/-! ## Union gallic weights -/

section
variable {W : Type u} [Semiring W]

/-- `GallicWeight`, over any semiring: the lists of strings in increasing order satisfy all the laws. -/
theorem C28_gallic (fl : SemiringFlags) (hi : fl.idempotent = true → ∀ a : W, a + a = a) :
    Lawful (gallicOps (semiOps W fl)) GGood where
  good_zero := ⟨by simp [gallicOps, unionOps], by simp [gallicOps, unionOps]⟩
  good_one := ⟨by simp [gallicOps, unionOps, prodOps, StrW.restrictOps, GProper], by simp [gallicOps, unionOps]⟩
  good_plus a b s ha hb h := by
    obtain ⟨t, h1, h2, _⟩ := unionPlus_spec fl ha hb
    rw [show (gallicOps (semiOps W fl)).plus a b = _ from h1] at h; cases h; exact h2
  good_times a b s ha hb h := by
    obtain ⟨t, h1, h2, _⟩ := unionTimes_spec fl ha hb
    rw [show (gallicOps (semiOps W fl)).times a b = _ from h1] at h; cases h; exact h2
  plus_assoc a b c ha hb hc := by
    simp only [gallicOps, unionOps]
    obtain ⟨s, h1, h2, h3⟩ := unionPlus_spec fl ha hb
    obtain ⟨t, k1, k2, k3⟩ := unionPlus_spec fl hb hc
    obtain ⟨x, l1, l2, l3⟩ := unionPlus_spec fl h2 hc
    obtain ⟨y, m1, m2, m3⟩ := unionPlus_spec fl ha k2
    rw [h1, k1]
    change unionPlus _ s c = unionPlus _ a t
    rw [l1, m1, toAlg_inj l2 m2 (by rw [l3, m3, h3, k3, add_assoc])]
  plus_comm a b ha hb := by
    obtain ⟨s, h1, h2, h3⟩ := unionPlus_spec fl ha hb
    obtain ⟨t, k1, k2, k3⟩ := unionPlus_spec fl hb ha
    simp only [gallicOps, unionOps]
    rw [h1, k1, toAlg_inj h2 k2 (by rw [h3, k3, add_comm])]
  plus_zero a ha := by
    obtain ⟨s, h1, h2, h3⟩ := unionPlus_spec fl ha (b := []) ⟨by simp, by simp⟩
    simp only [gallicOps, unionOps]
    rw [h1, toAlg_inj h2 ha (by rw [h3]; simp [toAlg])]
  zero_plus a ha := by
    obtain ⟨s, h1, h2, h3⟩ := unionPlus_spec fl (a := []) ⟨by simp, by simp⟩ ha
    simp only [gallicOps, unionOps]
    rw [h1, toAlg_inj h2 ha (by rw [h3]; simp [toAlg])]
  times_assoc a b c ha hb hc := by
    simp only [gallicOps, unionOps]
    obtain ⟨s, h1, h2, h3⟩ := unionTimes_spec fl ha hb
    obtain ⟨t, k1, k2, k3⟩ := unionTimes_spec fl hb hc
    obtain ⟨x, l1, l2, l3⟩ := unionTimes_spec fl h2 hc
    obtain ⟨y, m1, m2, m3⟩ := unionTimes_spec fl ha k2
    rw [h1, k1]
    change unionTimes _ _ s c = unionTimes _ _ a t
    rw [l1, m1, toAlg_inj l2 m2 (by rw [l3, m3, h3, k3, mul_assoc])]
  times_one a ha := by
    obtain ⟨s, h1, h2, h3⟩ := unionTimes_spec fl ha (b := [(.labels [], 1)]) ⟨by simp [GProper], by simp⟩
    refine h1.trans (congrArg _ (toAlg_inj h2 ha ?_))
    rw [h3]
    simp only [toAlg, add_zero]
    exact mul_one _
  one_times a ha := by
    obtain ⟨s, h1, h2, h3⟩ := unionTimes_spec fl (a := [(.labels [], 1)]) ⟨by simp [GProper], by simp⟩ ha
    refine h1.trans (congrArg _ (toAlg_inj h2 ha ?_))
    rw [h3]
    simp only [toAlg, add_zero]
    exact one_mul _
  times_zero a ha := by
    simp only [gallicOps, unionOps, unionTimes]; simp
  zero_times a ha := by
    simp only [gallicOps, unionOps, unionTimes]; simp
  left _ a b c s ha hb hc h := by
    simp only [gallicOps, unionOps] at h ⊢
    obtain ⟨s', h1, h2, h3⟩ := unionPlus_spec fl ha hb
    rw [h1] at h; cases h
    obtain ⟨x, k1, k2, k3⟩ := unionTimes_spec fl hc h2
    obtain ⟨y, l1, l2, l3⟩ := unionTimes_spec fl hc ha
    obtain ⟨z, m1, m2, m3⟩ := unionTimes_spec fl hc hb
    obtain ⟨w, n1, n2, n3⟩ := unionPlus_spec fl l2 m2
    rw [k1, l1, m1]
    change _ = unionPlus _ y z
    rw [n1, toAlg_inj k2 n2 (by rw [k3, n3, l3, m3, h3, mul_add])]
  right _ a b c s ha hb hc h := by
    simp only [gallicOps, unionOps] at h ⊢
    obtain ⟨s', h1, h2, h3⟩ := unionPlus_spec fl ha hb
    rw [h1] at h; cases h
    obtain ⟨x, k1, k2, k3⟩ := unionTimes_spec fl h2 hc
    obtain ⟨y, l1, l2, l3⟩ := unionTimes_spec fl ha hc
    obtain ⟨z, m1, m2, m3⟩ := unionTimes_spec fl hb hc
    obtain ⟨w, n1, n2, n3⟩ := unionPlus_spec fl l2 m2
    rw [k1, l1, m1]
    change _ = unionPlus _ y z
    rw [n1, toAlg_inj k2 n2 (by rw [k3, n3, l3, m3, h3, add_mul])]
  commutative h := by simp [gallicOps, unionOps, prodOps, SemiringFlags.prod, StrW.restrictOps] at h
  idempotent h a ha := by
    obtain ⟨s, h1, h2, h3⟩ := unionPlus_spec fl ha ha
    simp only [gallicOps, unionOps]
    have hw : ∀ x : WithZero W, x + x = x := by
      intro x
      cases x with
      | zero => exact add_zero _
      | coe x =>
        rw [← WithZero.coe_add, hi ?_ x]
        simpa [gallicOps, unionOps, prodOps, SemiringFlags.prod, StrW.restrictOps, totalOps] using h
    rw [h1, toAlg_inj h2 ha ?_]
    rw [h3]
    apply MonoidAlgebra.ext
    ext k
    rw [MonoidAlgebra.coeff_add, Finsupp.add_apply]
    exact hw _
  path h := by cases h

end

/-- What the operations mean: the coefficient of a string in a sum is the sum of its coefficients. -/
example : (gallicOps (TW.ops (K := Int))).plus [(.labels [1], .fin 3), (.labels [2], .fin 4)] [(.labels [2], .fin 1), (.labels [1, 1], .fin 0)] =
    .ok [(.labels [1], .fin 3), (.labels [2], .fin 1), (.labels [1, 1], .fin 0)] := by decide +kernel

/-- A gallic list that holds `Infinity` beside the empty string breaks commutativity: the order of strings takes one for the other. -/
theorem C28_gallic_infinity_defect : (gallicOps (TW.ops (K := Int))).plus [(.inf, .fin 3)] [(.labels [], .fin 2)] ≠
    (gallicOps (TW.ops (K := Int))).plus [(.labels [], .fin 2)] [(.inf, .fin 3)] := by decide +kernel

/-! ## `min` gallic weights -/

/-- `plus` of `GallicWeightMin` keeps its second argument on a tie, so it is not commutative. -/
theorem C28_gallic_min_defect :
    (gallicMinOps (TW.ops (K := Int))).plus (.labels [1], .fin 3) (.labels [2], .fin 3) = .ok (.labels [2], .fin 3) ∧
    (gallicMinOps (TW.ops (K := Int))).plus (.labels [2], .fin 3) (.labels [1], .fin 3) = .ok (.labels [1], .fin 3) := by decide

/-- Infinity exactly when the weight is zero; the weight is not `-∞`. -/
def MinGood {K : Type u} (a : StrW × TW K) : Prop := (a.1 = .inf ↔ a.2 = .inf) ∧ a.2 ≠ .negInf

section
variable {K : Type u} [LinearOrder K] [AddCommGroup K]
set_option linter.unusedSectionVars false

theorem gallicMinPlus_ok (a b : StrW × TW K) :
    gallicMinPlus TW.ops a b = .ok (if TW.plus a.2 b.2 = a.2 ∧ a.2 ≠ b.2 then a else b) := by
  unfold gallicMinPlus naturalLess
  simp only [TW.ops, totalOps]
  by_cases h : TW.plus a.2 b.2 = a.2 ∧ a.2 ≠ b.2
  · rw [if_pos h]
    have : (TW.plus a.2 b.2 == a.2 && !(a.2 == b.2)) = true := by simp [h]
    rw [this]
  · rw [if_neg h]
    have : (TW.plus a.2 b.2 == a.2 && !(a.2 == b.2)) = false := by
      simpa [Bool.and_eq_false_iff, or_iff_not_imp_left] using h
    rw [this]

theorem natLess_iff {x y : TW K} : (TW.plus x y = x ∧ x ≠ y) ↔ TW.lt x y = true := by
  cases x <;> cases y <;> simp [TW.lt, TW.plus]
  rename_i x y
  constructor
  · rintro ⟨h, k⟩
    exact lt_of_le_of_ne (not_lt.1 fun hl => k (h hl).symm) k
  · exact fun h => ⟨fun hl => absurd h (not_lt.2 hl.le), h.ne⟩

theorem TW.lt_trans {x y z : TW K} (h : lt x y = true) (k : lt y z = true) : lt x z = true := by
  cases x <;> cases y <;> cases z <;> simp_all [TW.lt]
  exact _root_.lt_trans h k

theorem TW.lt_of_not {x y z : TW K} (h : lt y x = false) (k : lt z y = false) : lt z x = false := by
  cases x <;> cases y <;> cases z <;> simp_all [TW.lt]
  exact h.trans k

/-- All the laws but commutativity hold for `GallicWeightMin` over tropical weights, and `plus` is commutative unless there is a tie
between different strings. -/
theorem C28_gallic_min_partial [IsOrderedAddMonoid K] (a b c : StrW × TW K) (ha : MinGood a) (hb : MinGood b) (hc : MinGood c) :
    let o := gallicMinOps (TW.ops (K := K))
    (do let x ← o.plus a b; o.plus x c) = (do let y ← o.plus b c; o.plus a y) ∧
    (a.2 ≠ b.2 ∨ a = b → o.plus a b = o.plus b a) ∧
    o.plus a o.zero = .ok a ∧ o.plus o.zero a = .ok a ∧
    (do let x ← o.times a b; o.times x c) = (do let y ← o.times b c; o.times a y) ∧
    o.times a o.one = .ok a ∧ o.times o.one a = .ok a ∧ o.times a o.zero = .ok o.zero ∧ o.times o.zero a = .ok o.zero ∧
    (∀ s, o.plus a b = .ok s → o.times c s = (do let x ← o.times c a; let y ← o.times c b; o.plus x y)) ∧
    (∀ s, o.plus a b = .ok s → o.times s c = (do let x ← o.times a c; let y ← o.times b c; o.plus x y)) ∧
    o.plus a a = .ok a := by
  have P := (C28_gallic_products (K := K)).2.2
  have T : ∀ x y, (gallicMinOps (TW.ops (K := K))).times x y = .ok (x.1.times y.1, TW.times x.2 y.2) := fun x y => rfl
  have S : ∀ x y, (gallicMinOps (TW.ops (K := K))).plus x y = .ok (if TW.lt x.2 y.2 = true then x else y) := by
    intro x y
    change gallicMinPlus TW.ops x y = _
    rw [gallicMinPlus_ok]
    simp only [natLess_iff]
  refine ⟨?_, ?_, ?_, ?_, ?_, P.times_one a ⟨trivial, trivial⟩, P.one_times a ⟨trivial, trivial⟩, P.times_zero a ⟨trivial, trivial⟩,
    P.zero_times a ⟨trivial, trivial⟩, ?_, ?_, ?_⟩
  · rw [S a b, S b c]
    change (gallicMinOps _).plus _ c = (gallicMinOps _).plus a _
    rw [S, S]
    congr 1
    by_cases h1 : TW.lt a.2 b.2 = true <;> by_cases h2 : TW.lt b.2 c.2 = true <;> simp [h1, h2]
    · simp [TW.lt_trans h1 h2]
    · intro h3
      have := TW.lt_of_not (Bool.not_eq_true _ ▸ h2 : TW.lt b.2 c.2 = false) (Bool.not_eq_true _ ▸ h1 : TW.lt a.2 b.2 = false)
      rw [h3] at this; cases this
  · intro h
    rw [S, S]
    rcases h with h | rfl
    · congr 1
      revert h
      generalize a.2 = x
      generalize b.2 = y
      intro h
      have tot : TW.lt x y = true ↔ ¬ TW.lt y x = true := by
        revert h
        cases x <;> cases y <;> simp [TW.lt]
        rename_i x y
        intro hne
        exact ⟨le_of_lt, fun hl => lt_of_le_of_ne hl hne⟩
      by_cases hxy : TW.lt y x = true
      · simp [hxy, tot]
      · simp [hxy, tot]
    · rfl
  · rw [S]
    congr 1
    change (if TW.lt a.2 TW.inf = true then a else _) = a
    obtain ⟨⟨s, w⟩, h⟩ : ∃ x : StrW × TW K, x = a := ⟨_, rfl⟩
    subst h
    unfold MinGood at ha
    cases w with
    | negInf => rfl
    | fin x => rfl
    | inf =>
      have : s = .inf := ha.1.2 rfl
      subst this; rfl
  · rw [S]
    change Except.ok (if TW.lt TW.inf a.2 = true then _ else a) = _
    cases a.2 <;> rfl
  · exact P.times_assoc a b c ⟨trivial, trivial⟩ ⟨trivial, trivial⟩ ⟨trivial, trivial⟩
  · intro s hs
    rw [S] at hs
    cases hs
    rw [T, T c a, T c b]
    change _ = (gallicMinOps (TW.ops (K := K))).plus _ _
    rw [S]
    congr 1
    obtain ⟨cs, cw⟩ := c
    cases cw with
    | negInf => exact absurd rfl hc.2
    | inf =>
      have : cs = .inf := hc.1.2 rfl
      subst this
      simp [TW.lt]
    | fin z =>
      have : TW.lt (TW.times (.fin z) a.2) (TW.times (.fin z) b.2) = TW.lt a.2 b.2 := by
        cases a.2 <;> cases b.2 <;> simp [TW.lt]
      simp only [this]
      split <;> rfl
  · intro s hs
    rw [S] at hs
    cases hs
    rw [T, T a c, T b c]
    change _ = (gallicMinOps (TW.ops (K := K))).plus _ _
    rw [S]
    congr 1
    obtain ⟨cs, cw⟩ := c
    cases cw with
    | negInf => exact absurd rfl hc.2
    | inf =>
      have : cs = .inf := hc.1.2 rfl
      subst this
      simp [TW.lt]
    | fin z =>
      have : TW.lt (TW.times a.2 (.fin z)) (TW.times b.2 (.fin z)) = TW.lt a.2 b.2 := by
        cases a.2 <;> cases b.2 <;> simp [TW.lt]
      simp only [this]
      split <;> rfl
  · rw [S]; simp

end

example : MinGood ((.labels [1], .fin 3) : StrW × TW Int) := ⟨by simp, by simp⟩

/-! ## Equality of float weights -/

/-- Equality up to `KDELTA` is not transitive, and equal weights may be hashed differently (the hash is that of the exact value). -/
theorem C28_float_equality_defect (K : Type u) [Field K] [LinearOrder K] [IsStrictOrderedRing K] (delta : K) (hd : 0 < delta) :
    ∃ a b c : K, approxEq delta a b = true ∧ approxEq delta b c = true ∧ approxEq delta a c = false ∧ a ≠ b := by
  refine ⟨0, delta, delta + delta, ?_, ?_, ?_, hd.ne⟩ <;> simp [approxEq]
  · exact hd.le
  · exact hd.le
  · intro _; linarith

end Verif
