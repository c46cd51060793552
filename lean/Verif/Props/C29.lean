import Verif.Props.C28
import Mathlib.Tactic.FieldSimp
import Mathlib.Data.Rat.Floor

/-!
# C29 Division undoes multiplication; C54 closure; C55 reversal; C56 quantisation
-/

namespace Verif
universe u v

/-! ## C29 Division -/

/-- Tropical weights: dividing by a finite weight undoes the product on either side. -/
theorem C29_tropical {K : Type u} [AddCommGroup K] (x : K) (b : TW K) :
    TW.divide (TW.times (.fin x) b) (.fin x) = some b ∧ TW.divide (TW.times b (.fin x)) (.fin x) = some b := by
  cases b <;> simp [TW.times, TW.divide]

/-- Log weights. -/
theorem C29_log (x : ℝ) (b : LW) :
    LW.divide (LW.times (.fin x) b) (.fin x) = some b ∧ LW.divide (LW.times b (.fin x)) (.fin x) = some b := by
  cases b <;> simp [LW.times, LW.divide]

/-- Probability weights: an error exactly when dividing by zero. -/
theorem C29_probability {K : Type u} [Field K] [DecidableEq K] (a b : K) :
    (a ≠ 0 → probDivide (a * b) a = .ok b ∧ probDivide (b * a) a = .ok b) ∧ (a = 0 → probDivide b a = .error .err) := by
  refine ⟨fun h => ?_, fun h => by simp [probDivide, h]⟩
  simp only [probDivide, if_neg h]
  exact ⟨congrArg Except.ok (mul_div_cancel_left₀ b h), congrArg Except.ok (mul_div_cancel_right₀ b h)⟩

/-- Left string division undoes a product on the left; right division one on the right. -/
theorem C29_string (a : List Label) (b : StrW) :
    StrW.divideLeft (StrW.times (.labels a) b) (.labels a) = .ok b ∧
    StrW.divideRight (StrW.times b (.labels a)) (.labels a) = .ok b := by
  cases b with
  | inf => exact ⟨rfl, rfl⟩
  | labels b =>
    have h : (b ++ a).reverse.drop a.length = b.reverse := by
      rw [List.reverse_append, ← List.length_reverse, List.drop_left]
    simp only [StrW.times, StrW.divideLeft, StrW.divideRight]
    rw [h]
    simp

/-- Dividing a string weight by zero panics instead of returning an error. -/
theorem C29_string_zero_panics (a : StrW) :
    StrW.divideLeft a .inf = .error .panic ∧ StrW.divideRight a .inf = .error .panic := by
  cases a <;> exact ⟨rfl, rfl⟩

/-- Division of strings does not look at the labels it removes: a string is "divided" by one that is not its prefix. -/
theorem C29_string_unchecked : StrW.divideLeft (.labels [1, 2]) (.labels [3]) = .ok (.labels [2]) ∧
    ∀ q, StrW.times (.labels [3]) q ≠ .labels [1, 2] := by
  refine ⟨rfl, fun q => ?_⟩
  cases q <;> simp [StrW.times]

/-- Products, hence gallic weights: componentwise. -/
theorem C29_product {A : Type u} {B : Type v} {o : WeightOps A} {p : WeightOps B} {d : A → A → R A} {e : B → B → R B} {a b s : A × B}
    (h : (prodOps o p).times a b = .ok s) (ha : ∀ t, o.times a.1 b.1 = .ok t → d t a.1 = .ok b.1)
    (hb : ∀ t, p.times a.2 b.2 = .ok t → e t a.2 = .ok b.2) : prodDivide d e s a = .ok b := by
  obtain ⟨h1, h2⟩ := pairR_ok h
  simp [prodDivide, ha _ h1, hb _ h2, pairR]

example : prodDivide StrW.divideLeft (fun a b : Rat => probDivide a b) (.labels [1, 2, 3], 6) (.labels [1, 2], 2) = .ok (.labels [3], 3) := by
  decide +kernel

section

theorem pushQuotients_eq {W : Type u} (o : UnionOpt W) : ∀ (ws q : List W), pushQuotients o q (ws.map Except.ok) = pushAll o q ws
  | [], q => rfl
  | w :: ws, q => by
    rw [List.map_cons, pushQuotients, pushAll]
    cases h : pushBack o q w with
    | error e => rfl
    | ok q => exact pushQuotients_eq o ws q

end

section
variable {W : Type u} [Semiring W] (fl : SemiringFlags)

theorem gallic_singleton_times (x : StrW × W) (hx : GProper x) {b : List (StrW × W)} (hb : GGood b) :
    (gallicOps (semiOps W fl)).times [x] b = .ok (b.map (gmul x)) := by
  have hx1 : GGood [x] := ⟨by simpa using hx, by simp⟩
  obtain ⟨s, h1, h2, h3⟩ := unionTimes_spec fl hx1 hb
  refine h1.trans (congrArg _ (toAlg_inj h2 (row_good hx hb) ?_))
  rw [h3, toAlg_row hx hb.1]
  simp [toAlg]

/-- `GallicWeight`: left division by a weight of one string undoes a product on the left. `wdiv` is the division of the weights. -/
theorem C29_gallic (wdiv : W → W → R W) (l : List Label) (x : W) (hx : ∀ y, wdiv (x * y) x = .ok y) {b p : List (StrW × W)}
    (hb : GGood b) (h : (gallicOps (semiOps W fl)).times [(.labels l, x)] b = .ok p) :
    unionDivide (gallicOpt (semiOps W fl)) (prodDivide StrW.divideLeft wdiv) p [(.labels l, x)] = .ok b := by
  have hxp : GProper ((.labels l, x) : StrW × W) := by simp [GProper]
  rw [gallic_singleton_times fl _ hxp hb] at h
  cases h
  have hdiv : ∀ y ∈ b, prodDivide StrW.divideLeft wdiv (gmul (.labels l, x) y) (.labels l, x) = .ok y := by
    intro y hy
    have h1 := (C29_string l y.1).1
    simp only [prodDivide, gmul, h1, hx, pairR]
  have hmap : ((b.map (gmul (.labels l, x))).map fun z => prodDivide StrW.divideLeft wdiv z (.labels l, x)) = b.map Except.ok := by
    rw [List.map_map]
    exact List.map_congr_left hdiv
  have hpush : pushAll (gallicOpt (semiOps W fl)) [] b = .ok b := by
    obtain ⟨s, h1, h2, h3⟩ := pushAll_spec fl b (l := []) ⟨by simp, by simp⟩ hb.weak (fun w _ c hc => by cases hc)
    rw [h1, toAlg_inj h2 hb (by rw [h3]; simp [toAlg])]
  have hfin : pushQuotients (gallicOpt (semiOps W fl)) []
      ((b.map (gmul (.labels l, x))).map fun z => prodDivide StrW.divideLeft wdiv z (.labels l, x)) = .ok b := by
    rw [hmap, pushQuotients_eq, hpush]
  unfold unionDivide
  match b, hb, hfin with
  | [], _, _ => simp [pushQuotients]
  | [y], _, hfin => simpa using hfin
  | y :: z :: b, _, hfin => simpa using hfin

end

example : unionDivide (gallicOpt (W := Rat) (totalOps 0 1 (· + ·) (· * ·) ⟨true, true, true, false, false⟩))
    (prodDivide StrW.divideLeft probDivide) [(.labels [1, 2], 6), (.labels [1, 3], 4)] [(.labels [1], 2)] =
    .ok [(.labels [2], 3), (.labels [3], 2)] := by decide +kernel

/-! ## C54 Closure -/

/-- Boolean weights: `closure(a) = one ⊕ a ⊗ closure(a)`. -/
theorem C54_boolean (a : Bool) : boolStar a = (true || (a && boolStar a)) := by cases a <;> rfl

/-- Probability weights, away from one. -/
theorem C54_probability {K : Type u} [Field K] (a : K) (h : a ≠ 1) : probStar a = 1 + a * probStar a := by
  have : (1 - a) ≠ 0 := sub_ne_zero.2 h.symm
  unfold probStar
  field_simp
  ring

/-- Tropical weights other than `zero`. -/
theorem C54_tropical {K : Type u} [LinearOrder K] [AddCommGroup K] [IsOrderedAddMonoid K] (a : TW K) (h : a ≠ .inf) :
    TW.star a = TW.plus (.fin 0) (TW.times a (TW.star a)) := by
  cases a with
  | inf => exact absurd rfl h
  | negInf => rfl
  | fin x =>
    by_cases hx : 0 ≤ x
    · simp [TW.star, TW.times, TW.plus_fin, hx]
    · simp [TW.star, TW.times, hx]

/-- The closure of tropical `zero` is `-∞`, but it should be `one`: the powers of `zero` add nothing to `one`. -/
theorem C54_tropical_zero_defect : TW.star (.inf : TW Int) = .negInf ∧
    TW.plus (.fin 0) (TW.times .inf (TW.star (.inf : TW Int))) = .fin 0 := by decide

/-- The closure of a log weight `x` in `[0, 1)` is computed as `ln (1 - x)`, as if `x` were a probability: at `1/2` the equation
fails. -/
theorem C54_log_defect : ∃ c, LW.star (.fin (1 / 2)) = some c ∧ c ≠ LW.plus (.fin 0) (LW.times (.fin (1 / 2)) c) := by
  refine ⟨.fin (Real.log (1 - 1 / 2)), by simp only [LW.star]; rw [if_pos (by norm_num)], fun h => ?_⟩
  have hp := congrArg LW.prob h
  rw [LW.prob_plus, LW.prob_times] at hp
  simp only [LW.prob] at hp
  rw [Real.exp_neg (Real.log _), Real.exp_log (by norm_num)] at hp
  norm_num at hp
  have h2 : Real.exp (-(1 / 2 : ℝ)) = 1 / 2 := by norm_num; linarith
  have h3 : (1 / 2 : ℝ) < Real.exp (-(1 / 2 : ℝ)) := by
    have := Real.add_one_lt_exp (x := (-(1 / 2) : ℝ)) (by norm_num)
    linarith
  linarith

/-- The closure of an integer weight other than zero is `i32::MAX`, which does not satisfy the equation: `1 + 2 * MAX` wraps to `-1`. -/
theorem C54_integer_defect : i32Star 0 = 1 + 0 * i32Star 0 ∧ i32Star 2 ≠ 1 + 2 * i32Star 2 := by decide

/-! ## C55 Reversal -/

/-- Reversing a string weight reverses products and exchanges longest common prefixes and suffixes; twice is the identity. -/
theorem C55_string (a b : StrW) :
    a.reverse.reverse = a ∧ (StrW.times a b).reverse = StrW.times b.reverse a.reverse ∧
    (StrW.plusLeft a b).reverse = StrW.plusRight a.reverse b.reverse ∧
    (StrW.plusRight a b).reverse = StrW.plusLeft a.reverse b.reverse ∧
    StrW.plusRestrict a.reverse b.reverse = (StrW.plusRestrict a b).map StrW.reverse := by
  refine ⟨StrW.reverse_reverse a, StrW.reverse_times a b, ?_, ?_, ?_⟩
  · rw [StrW.plusRight_eq, StrW.reverse_reverse, StrW.reverse_reverse]
  · rw [StrW.plusRight_eq, StrW.reverse_reverse]
  · cases a <;> cases b <;> simp [StrW.plusRestrict, StrW.reverse, Except.map]
    split <;> rfl

section
variable {W : Type u} [Semiring W] (fl : SemiringFlags)

/-- The element reversed: the labels are, the weight (of a commutative semiring) is not. -/
def grev (a : StrW × W) : StrW × W := (a.1.reverse, a.2)

omit [Semiring W] in
theorem grev_proper {a : StrW × W} (h : GProper a) : GProper (grev a) := by
  rw [gproper_eq h]; simp [grev, GProper, StrW.reverse]

omit [Semiring W] in
theorem gkey_grev {a : StrW × W} (h : GProper a) : gkey (grev a) = (gkey a).reverse := by
  rw [gproper_eq h]; rfl

omit [Semiring W] in
theorem insertBy_mem {w x : StrW × W} {l : List (StrW × W)} : x ∈ insertBy gallicCompare w l ↔ x = w ∨ x ∈ l := by
  induction l with
  | nil => simp [insertBy]
  | cons y l ih =>
    rw [insertBy]
    split
    · rw [List.mem_cons, ih, List.mem_cons]; tauto
    · simp

theorem insertBy_good {w : StrW × W} {l : List (StrW × W)} (hw : GProper w) (hl : GGood l) (hn : ∀ x ∈ l, gkey x ≠ gkey w) :
    GGood (insertBy gallicCompare w l) ∧ toAlg (insertBy gallicCompare w l) = gterm w + toAlg l := by
  induction l with
  | nil => exact ⟨⟨by simpa [insertBy] using hw, by simp [insertBy]⟩, rfl⟩
  | cons x l ih =>
    have hx := hl.1 x (by simp)
    have hp := List.pairwise_cons.1 hl.2
    obtain ⟨h1, h2⟩ := ih hl.tail (fun y hy => hn y (by simp [hy]))
    rw [insertBy, gallicCompare_eq hx hw]
    by_cases hc : sless (gkey x) (gkey w) = true
    · rw [if_pos hc]
      refine ⟨⟨?_, List.pairwise_cons.2 ⟨?_, h1.2⟩⟩, ?_⟩
      · intro y hy
        rcases List.mem_cons.1 hy with rfl | hy
        · exact hx
        · exact h1.1 y hy
      · intro y hy
        rcases insertBy_mem.1 hy with rfl | hy
        · exact hc
        · exact hp.1 y hy
      · rw [toAlg, h2, toAlg, ← add_assoc, add_comm (gterm x), add_assoc]
    · rw [if_neg hc]
      rw [Bool.not_eq_true] at hc
      have hlt : sless (gkey w) (gkey x) = true := by
        by_contra hs
        rw [Bool.not_eq_true] at hs
        exact hn x (by simp) (sless_total hc hs)
      refine ⟨⟨?_, List.pairwise_cons.2 ⟨?_, hl.2⟩⟩, rfl⟩
      · intro y hy
        rcases List.mem_cons.1 hy with rfl | hy
        · exact hw
        · exact hl.1 y hy
      · intro y hy
        rcases List.mem_cons.1 hy with rfl | hy
        · exact hlt
        · exact sless_trans hlt (hp.1 y hy)

theorem unionReverse_good {l : List (StrW × W)} (hl : GGood l) :
    GGood (unionReverse gallicCompare grev l) ∧ toAlg (unionReverse gallicCompare grev l) = toAlg (l.map grev) ∧
      ∀ x, x ∈ unionReverse gallicCompare grev l ↔ ∃ y ∈ l, x = grev y := by
  induction l with
  | nil => exact ⟨⟨by simp [unionReverse], by simp [unionReverse]⟩, rfl, by simp [unionReverse]⟩
  | cons a l ih =>
    obtain ⟨h1, h2, h3⟩ := ih hl.tail
    have ha := hl.1 a (by simp)
    have e : unionReverse gallicCompare grev (a :: l) = insertBy gallicCompare (grev a) (unionReverse gallicCompare grev l) := rfl
    have hn : ∀ x ∈ unionReverse gallicCompare grev l, gkey x ≠ gkey (grev a) := by
      intro x hx hk
      obtain ⟨y, hy, rfl⟩ := (h3 x).1 hx
      have hpy := hl.1 y (by simp [hy])
      rw [gkey_grev hpy, gkey_grev ha, List.reverse_inj] at hk
      have := (List.pairwise_cons.1 hl.2).1 y hy
      rw [hk, sless_irrefl] at this; cases this
    obtain ⟨k1, k2⟩ := insertBy_good (grev_proper ha) h1 hn
    refine ⟨e ▸ k1, ?_, fun x => ?_⟩
    · rw [e, k2, h2]; rfl
    · rw [e, insertBy_mem, h3]
      simp

/-- Reversing a gallic weight: the strings it holds are the reversed strings with the same weights, again in order; twice is the
identity. -/
theorem C55_gallic {l : List (StrW × W)} (hl : GGood l) :
    GGood (unionReverse gallicCompare grev l) ∧
    (∀ s w, (.labels s, w) ∈ unionReverse gallicCompare grev l ↔ (.labels s.reverse, w) ∈ l) ∧
    unionReverse gallicCompare grev (unionReverse gallicCompare grev l) = l := by
  obtain ⟨h1, h2, h3⟩ := unionReverse_good hl
  obtain ⟨k1, k2, k3⟩ := unionReverse_good h1
  have hmem : ∀ x, x ∈ unionReverse gallicCompare grev (unionReverse gallicCompare grev l) ↔ x ∈ l := by
    intro x
    rw [k3]
    constructor
    · rintro ⟨y, hy, rfl⟩
      obtain ⟨z, hz, rfl⟩ := (h3 y).1 hy
      have : grev (grev z) = z := by simp [grev]
      rwa [this]
    · intro hx
      exact ⟨grev x, (h3 _).2 ⟨x, hx, rfl⟩, by simp [grev]⟩
  refine ⟨h1, fun s w => ?_, ?_⟩
  · rw [h3]
    constructor
    · rintro ⟨⟨t, v⟩, hy, h⟩
      have h' := congrArg grev h
      have : grev ((.labels s, w) : StrW × W) = (.labels s.reverse, w) := rfl
      rw [this] at h'
      have h'' : grev (grev ((t, v) : StrW × W)) = (t, v) := by simp [grev]
      rw [h''] at h'
      rw [h']; exact hy
    · intro h
      exact ⟨_, h, by simp [grev, StrW.reverse]⟩
  · -- two sorted lists with the same elements
    have key : ∀ {a b : List (StrW × W)}, GGood a → GGood b → (∀ x, x ∈ a ↔ x ∈ b) → a = b := by
      intro a b ha hb h
      have hirr : ∀ x : StrW × W, ¬ sless (gkey x) (gkey x) = true := fun x => by simp [sless_irrefl]
      have pa : a.Nodup := ha.2.imp fun {x y} hxy => fun (e : x = y) => hirr x (by subst e; exact hxy)
      have pb : b.Nodup := hb.2.imp fun {x y} hxy => fun (e : x = y) => hirr x (by subst e; exact hxy)
      have hperm : a.Perm b := (List.perm_ext_iff_of_nodup pa pb).2 h
      exact hperm.eq_of_pairwise (fun x y _ _ h1 h2 => absurd (sless_asymm h1) (by simp [h2])) ha.2 hb.2
    exact key k1 hl hmem

end

example : unionReverse gallicCompare grev [(.labels [1, 2], (3 : Int)), (.labels [2, 1], 4), (.labels [2, 3], 5)] =
    [(.labels [1, 2], 4), (.labels [2, 1], 3), (.labels [3, 2], 5)] := by decide +kernel

/-! ## C56 Quantisation -/

/-- Quantising moves a weight by at most half a step, is idempotent, and yields a multiple of the step. -/
theorem C56_quantize {K : Type} [Field K] [LinearOrder K] [IsStrictOrderedRing K] [FloorRing K] (delta v : K) (hd : 0 < delta) :
    v - delta / 2 < quantize delta v ∧ quantize delta v ≤ v + delta / 2 ∧ quantize delta (quantize delta v) = quantize delta v := by
  have h1 := Int.floor_le (v / delta + 1 / 2)
  have h2 := Int.lt_floor_add_one (v / delta + 1 / 2)
  have hv : v / delta * delta = v := div_mul_cancel₀ v hd.ne'
  refine ⟨?_, ?_, ?_⟩
  · unfold quantize
    have := mul_lt_mul_of_pos_right h2 hd
    rw [add_mul, add_mul, hv] at this
    linarith
  · unfold quantize
    have := mul_le_mul_of_nonneg_right h1 hd.le
    rw [add_mul, hv] at this
    linarith
  · unfold quantize
    rw [mul_div_cancel_right₀ _ hd.ne']
    congr 2
    rw [Int.floor_eq_iff]
    constructor <;> linarith

example : quantize (1 / 4 : Rat) (7 / 10) = 3 / 4 := by decide +kernel

end Verif
