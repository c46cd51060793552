import Verif.Lemmas.Weights
import Mathlib.Algebra.MonoidAlgebra.Defs
import Mathlib.Algebra.Ring.WithZero
import Mathlib.Algebra.FreeMonoid.Basic

/-!
# Gallic weights as formal sums

A gallic weight lists the strings it holds in increasing order of length, then of labels. Such lists are the formal sums of strings:
`toAlg` sends a list to the element of the monoid algebra it denotes, is injective on sorted lists, and carries the two operations.
The coefficients have a zero adjoined because a list may mention a string with weight zero.
-/

namespace Verif
universe u

/-! ## The order on strings -/

/-- Shorter, or of the same length and smaller at the first difference. -/
def sless (l m : List Label) : Bool := if l.length < m.length then true else if m.length < l.length then false else lexLess l m

theorem lexLess_irrefl : ∀ l, lexLess l l = false
  | [] => rfl
  | a :: l => by simp [lexLess, lexLess_irrefl l]

theorem lexLess_trans : ∀ l m n, lexLess l m = true → lexLess m n = true → lexLess l n = true
  | [], _, _, h, _ => by simp [lexLess] at h
  | _ :: _, [], _, h, _ => by simp [lexLess] at h
  | _ :: _, _ :: _, [], _, h => by simp [lexLess] at h
  | a :: l, b :: m, c :: n, h, k => by
    have ih := lexLess_trans l m n
    simp only [lexLess] at h k ⊢
    split_ifs at h k ⊢ <;> first | rfl | omega | skip
    exact ih h k

theorem lexLess_total : ∀ l m, l.length = m.length → lexLess l m = false → lexLess m l = false → l = m
  | [], [], _, _, _ => rfl
  | a :: l, b :: m, hn, h, k => by
    have ih := lexLess_total l m (by simpa using hn)
    simp only [lexLess] at h k
    split_ifs at h k
    · obtain rfl : a = b := by omega
      rw [ih h k]

theorem lexLess_append_left (c l m : List Label) : lexLess (c ++ l) (c ++ m) = lexLess l m := by
  induction c with
  | nil => rfl
  | cons a c ih => simp [lexLess, ih]

theorem lexLess_append_right : ∀ (l m c : List Label), l.length = m.length → lexLess (l ++ c) (m ++ c) = lexLess l m
  | [], [], c, _ => by simp [lexLess, lexLess_irrefl]
  | a :: l, b :: m, c, h => by simp [lexLess, lexLess_append_right l m c (by simpa using h)]

theorem sless_irrefl (l) : sless l l = false := by simp [sless, lexLess_irrefl]

theorem sless_trans {l m n} (h : sless l m = true) (k : sless m n = true) : sless l n = true := by
  unfold sless at *
  split_ifs at * <;> first | rfl | omega | skip
  exact lexLess_trans l m n h k

theorem sless_total {l m} (h : sless l m = false) (k : sless m l = false) : l = m := by
  unfold sless at *
  split_ifs at *
  exact lexLess_total l m (by omega) h k

theorem sless_asymm {l m} (h : sless l m = true) : sless m l = false := by
  by_contra k
  rw [Bool.not_eq_false] at k
  have := sless_trans h k
  rw [sless_irrefl] at this; cases this

theorem sless_append_left (c l m) : sless (c ++ l) (c ++ m) = sless l m := by
  simp only [sless, List.length_append, lexLess_append_left, Nat.add_lt_add_iff_left]

theorem sless_append_right (l m c) : sless (l ++ c) (m ++ c) = sless l m := by
  simp only [sless, List.length_append, Nat.add_lt_add_iff_right]
  split_ifs <;> first | rfl | skip
  exact lexLess_append_right l m c (by omega)

/-! ## Sorted lists and formal sums -/

variable {W : Type u}

/-- The string of an element; `Infinity` does not occur in good lists. -/
def gkey (a : StrW × W) : List Label :=
  match a.1 with
  | .inf => []
  | .labels l => l

/-- Not `Infinity`. -/
def GProper (a : StrW × W) : Prop := a.1 ≠ .inf

theorem gproper_eq {a : StrW × W} (h : GProper a) : a = (.labels (gkey a), a.2) := by
  obtain ⟨s, w⟩ := a
  cases s with
  | inf => exact absurd rfl h
  | labels l => rfl

theorem gallicCompare_eq {a b : StrW × W} (ha : GProper a) (hb : GProper b) : gallicCompare a b = sless (gkey a) (gkey b) := by
  rw [gproper_eq ha, gproper_eq hb]; rfl

/-- The lists that gallic weights are meant to hold: no `Infinity`, strings strictly increasing. -/
def GGood (l : List (StrW × W)) : Prop := (∀ a ∈ l, GProper a) ∧ l.Pairwise fun a b => sless (gkey a) (gkey b) = true

/-- Strings in increasing order, repetitions allowed. -/
def GWeak (l : List (StrW × W)) : Prop := (∀ a ∈ l, GProper a) ∧ l.Pairwise fun a b => sless (gkey b) (gkey a) = false

theorem GGood.weak {l : List (StrW × W)} (h : GGood l) : GWeak l := ⟨h.1, h.2.imp sless_asymm⟩

section alg
variable [Semiring W]

/-- Formal sums of strings. -/
abbrev GAlg (W : Type u) [Semiring W] := MonoidAlgebra (WithZero W) (FreeMonoid Nat)

/-- One element of a list as a formal sum. -/
noncomputable def gterm (a : StrW × W) : GAlg W := MonoidAlgebra.single (FreeMonoid.ofList (gkey a)) (a.2 : WithZero W)

/-- The formal sum of a list. -/
noncomputable def toAlg : List (StrW × W) → GAlg W
  | [] => 0
  | a :: l => gterm a + toAlg l

theorem toAlg_append (l m : List (StrW × W)) : toAlg (l ++ m) = toAlg l + toAlg m := by
  induction l with
  | nil => simp [toAlg]
  | cons a l ih => simp [toAlg, ih, add_assoc]

theorem coeff_gterm_ne {a : StrW × W} {k : List Label} (h : gkey a ≠ k) : (gterm a).coeff (FreeMonoid.ofList k) = 0 := by
  unfold gterm
  rw [MonoidAlgebra.coeff_single, Finsupp.single_eq_of_ne]
  exact fun e => h (FreeMonoid.ofList.injective e).symm

theorem coeff_gterm_self (a : StrW × W) : (gterm a).coeff (FreeMonoid.ofList (gkey a)) = (a.2 : WithZero W) := by
  unfold gterm
  rw [MonoidAlgebra.coeff_single, Finsupp.single_eq_same]

theorem coeff_toAlg_ne {l : List (StrW × W)} {k : List Label} (h : ∀ a ∈ l, gkey a ≠ k) :
    (toAlg l).coeff (FreeMonoid.ofList k) = 0 := by
  induction l with
  | nil => rfl
  | cons a l ih =>
    rw [toAlg, MonoidAlgebra.coeff_add, Finsupp.add_apply, coeff_gterm_ne (h a (by simp)),
      ih fun b hb => h b (by simp [hb]), add_zero]

theorem coeff_toAlg_head {a : StrW × W} {l : List (StrW × W)} (h : GGood (a :: l)) :
    (toAlg (a :: l)).coeff (FreeMonoid.ofList (gkey a)) = (a.2 : WithZero W) := by
  rw [toAlg, MonoidAlgebra.coeff_add, Finsupp.add_apply, coeff_gterm_self, coeff_toAlg_ne, add_zero]
  intro b hb e
  have := (List.pairwise_cons.1 h.2).1 b hb
  rw [e, sless_irrefl] at this; cases this

theorem GGood.tail {a : StrW × W} {l : List (StrW × W)} (h : GGood (a :: l)) : GGood l :=
  ⟨fun b hb => h.1 b (by simp [hb]), (List.pairwise_cons.1 h.2).2⟩

theorem toAlg_inj : ∀ {l m : List (StrW × W)}, GGood l → GGood m → toAlg l = toAlg m → l = m
  | [], [], _, _, _ => rfl
  | [], b :: m, _, hm, h => by
    have := coeff_toAlg_head hm
    rw [← h] at this
    exact absurd this.symm (WithZero.coe_ne_zero)
  | a :: l, [], hl, _, h => by
    have := coeff_toAlg_head hl
    rw [h] at this
    exact absurd this.symm (WithZero.coe_ne_zero)
  | a :: l, b :: m, hl, hm, h => by
    have key : gkey a = gkey b := by
      refine sless_total ?_ ?_
      · by_contra hs
        rw [Bool.not_eq_false] at hs
        have := coeff_toAlg_head hl
        rw [h, coeff_toAlg_ne] at this
        · exact absurd this.symm (WithZero.coe_ne_zero)
        · intro c hc e
          rcases List.mem_cons.1 hc with rfl | hc
          · rw [e, sless_irrefl] at hs; cases hs
          · have h2 := sless_trans hs ((List.pairwise_cons.1 hm.2).1 c hc)
            rw [e, sless_irrefl] at h2; cases h2
      · by_contra hs
        rw [Bool.not_eq_false] at hs
        have := coeff_toAlg_head hm
        rw [← h, coeff_toAlg_ne] at this
        · exact absurd this.symm (WithZero.coe_ne_zero)
        · intro c hc e
          rcases List.mem_cons.1 hc with rfl | hc
          · rw [e, sless_irrefl] at hs; cases hs
          · have h2 := sless_trans hs ((List.pairwise_cons.1 hl.2).1 c hc)
            rw [e, sless_irrefl] at h2; cases h2
    have val : a.2 = b.2 := by
      have h1 := coeff_toAlg_head hl
      rw [h, key, coeff_toAlg_head hm] at h1
      exact (WithZero.coe_inj.1 h1).symm
    have hab : a = b := by rw [gproper_eq (hl.1 a (by simp)), gproper_eq (hm.1 b (by simp)), key, val]
    subst hab
    have : toAlg l = toAlg m := by
      apply MonoidAlgebra.ext
      ext k
      obtain ⟨k, rfl⟩ := FreeMonoid.ofList.surjective k
      by_cases hk : gkey a = k
      · rw [coeff_toAlg_ne, coeff_toAlg_ne]
        · intro c hc e
          have h2 := (List.pairwise_cons.1 hm.2).1 c hc
          rw [e, ← hk, sless_irrefl] at h2; cases h2
        · intro c hc e
          have h2 := (List.pairwise_cons.1 hl.2).1 c hc
          rw [e, ← hk, sless_irrefl] at h2; cases h2
      · have h3 := DFunLike.congr_fun (congrArg MonoidAlgebra.coeff h) (FreeMonoid.ofList k)
        rw [toAlg, toAlg, MonoidAlgebra.coeff_add, Finsupp.add_apply, MonoidAlgebra.coeff_add, Finsupp.add_apply,
          coeff_gterm_ne hk, zero_add, zero_add] at h3
        exact h3
    rw [toAlg_inj hl.tail hm.tail this]

/-! ## The operations -/

variable (fl : SemiringFlags)

/-- The operations of the weights in a gallic weight. -/
abbrev semiOps (W : Type u) [Semiring W] (fl : SemiringFlags) : WeightOps W := totalOps (0 : W) 1 (· + ·) (· * ·) fl

/-- The last string of `l` is at most `k`. -/
def GBelow (l : List (StrW × W)) (k : List Label) : Prop := ∀ b, l.getLast? = some b → sless k (gkey b) = false

theorem pushBack_spec {l : List (StrW × W)} {w : StrW × W} (hl : GGood l) (hw : GProper w) (hb : GBelow l (gkey w)) :
    ∃ l', pushBack (gallicOpt (semiOps W fl)) l w = .ok l' ∧ GGood l' ∧ toAlg l' = toAlg l + gterm w ∧
      ∃ b, l'.getLast? = some b ∧ gkey b = gkey w := by
  rcases List.eq_nil_or_concat l with rfl | ⟨i, b, hi⟩
  · exact ⟨[w], rfl, ⟨by simpa using hw, by simp⟩, by simp [toAlg], w, rfl, rfl⟩
  · rw [List.concat_eq_append] at hi
    subst hi
    have hpb : GProper b := hl.1 b (by simp)
    have hb' := hb b (by simp)
    have hlp := List.pairwise_append.1 hl.2
    unfold pushBack
    simp only [List.getLast?_concat, gallicOpt, List.dropLast_concat, gallicCompare_eq hpb hw]
    by_cases hc : sless (gkey b) (gkey w) = true
    · rw [if_pos hc]
      refine ⟨_, rfl, ⟨?_, ?_⟩, ?_, w, by simp, rfl⟩
      · intro a ha
        rcases List.mem_append.1 ha with ha | ha
        · exact hl.1 a ha
        · rw [List.mem_singleton.1 ha]; exact hw
      · refine List.pairwise_append.2 ⟨hl.2, by simp, ?_⟩
        intro a ha c hc'
        rw [List.mem_singleton.1 hc']
        rcases List.mem_append.1 ha with ha | ha
        · exact sless_trans (hlp.2.2 a ha b (by simp)) hc
        · rw [List.mem_singleton.1 ha]; exact hc
      · rw [toAlg_append]; simp [toAlg]
    · rw [if_neg hc]
      rw [Bool.not_eq_true] at hc
      have hk := sless_total hc hb'
      refine ⟨i ++ [(b.1, b.2 + w.2)], rfl, ⟨?_, ?_⟩, ?_, (b.1, b.2 + w.2), by simp, hk⟩
      · intro a ha
        rcases List.mem_append.1 ha with ha | ha
        · exact hl.1 a (by simp [ha])
        · rw [List.mem_singleton.1 ha]; exact hpb
      · refine List.pairwise_append.2 ⟨hlp.1, by simp, ?_⟩
        intro a ha c hc'
        rw [List.mem_singleton.1 hc']
        exact hlp.2.2 a ha b (by simp)
      · rw [toAlg_append, toAlg_append, add_assoc]
        congr 1
        simp only [toAlg, add_zero]
        unfold gterm
        rw [← hk]
        change MonoidAlgebra.single _ ((b.2 + w.2 : W) : WithZero W) = _
        rw [WithZero.coe_add]
        apply MonoidAlgebra.ext
        rw [MonoidAlgebra.coeff_add, MonoidAlgebra.coeff_single, MonoidAlgebra.coeff_single, MonoidAlgebra.coeff_single,
          ← Finsupp.single_add]
        rfl

theorem pushAll_spec : ∀ (ws : List (StrW × W)) {l : List (StrW × W)}, GGood l → GWeak ws → (∀ w ∈ ws, GBelow l (gkey w)) →
    ∃ l', pushAll (gallicOpt (semiOps W fl)) l ws = .ok l' ∧ GGood l' ∧ toAlg l' = toAlg l + toAlg ws
  | [], l, hl, _, _ => ⟨l, rfl, hl, by simp [toAlg]⟩
  | w :: ws, l, hl, hw, hb => by
    obtain ⟨l1, h1, h2, h3, b, h4, h5⟩ := pushBack_spec fl hl (hw.1 w (by simp)) (hb w (by simp))
    have hp := List.pairwise_cons.1 hw.2
    obtain ⟨l2, k1, k2, k3⟩ := pushAll_spec ws h2 ⟨fun a ha => hw.1 a (by simp [ha]), hp.2⟩ (fun v hv c hc => by
      rw [h4] at hc; cases hc
      rw [h5]; exact hp.1 v hv)
    refine ⟨l2, ?_, k2, ?_⟩
    · rw [pushAll, h1]; exact k1
    · rw [k3, h3, toAlg, add_assoc]

theorem mergeOrder_spec : ∀ (a b : List (StrW × W)), GWeak a → GWeak b →
    GWeak (mergeOrder gallicCompare a b) ∧ toAlg (mergeOrder gallicCompare a b) = toAlg a + toAlg b ∧
      ∀ x ∈ mergeOrder gallicCompare a b, x ∈ a ∨ x ∈ b
  | [], b, _, hb => by rw [mergeOrder]; exact ⟨hb, by simp [toAlg], fun x h => .inr h⟩
  | x :: a, [], ha, _ => by rw [mergeOrder]; exact ⟨ha, by simp [toAlg], fun x h => .inl h⟩; simp
  | x :: a, y :: b, ha, hb => by
    have hpx := ha.1 x (by simp)
    have hpy := hb.1 y (by simp)
    have hpa := List.pairwise_cons.1 ha.2
    have hpb := List.pairwise_cons.1 hb.2
    rw [mergeOrder, gallicCompare_eq hpx hpy]
    by_cases hc : sless (gkey x) (gkey y) = true
    · rw [if_pos hc]
      obtain ⟨h1, h2, h3⟩ := mergeOrder_spec a (y :: b) ⟨fun c hc => ha.1 c (by simp [hc]), hpa.2⟩ hb
      refine ⟨⟨?_, List.pairwise_cons.2 ⟨?_, h1.2⟩⟩, ?_, ?_⟩
      · intro c hcm
        rcases List.mem_cons.1 hcm with rfl | hcm
        · exact hpx
        · exact h1.1 c hcm
      · intro c hcm
        rcases h3 c hcm with hm | hm
        · exact hpa.1 c hm
        · rcases List.mem_cons.1 hm with rfl | hm
          · exact sless_asymm hc
          · by_contra hs
            rw [Bool.not_eq_false] at hs
            have := hpb.1 c hm
            rw [sless_trans hs hc] at this; cases this
      · rw [toAlg, h2]
        simp only [toAlg, add_assoc]
      · intro c hcm
        rcases List.mem_cons.1 hcm with rfl | hcm
        · simp
        · rcases h3 c hcm with hm | hm
          · simp [hm]
          · exact .inr hm
    · rw [if_neg hc]
      rw [Bool.not_eq_true] at hc
      obtain ⟨h1, h2, h3⟩ := mergeOrder_spec (x :: a) b ha ⟨fun c hc => hb.1 c (by simp [hc]), hpb.2⟩
      refine ⟨⟨?_, List.pairwise_cons.2 ⟨?_, h1.2⟩⟩, ?_, ?_⟩
      · intro c hcm
        rcases List.mem_cons.1 hcm with rfl | hcm
        · exact hpy
        · exact h1.1 c hcm
      · intro c hcm
        rcases h3 c hcm with hm | hm
        · rcases List.mem_cons.1 hm with rfl | hm
          · exact hc
          · by_contra hs
            rw [Bool.not_eq_false] at hs
            by_cases hxy : sless (gkey y) (gkey x) = true
            · have := hpa.1 c hm
              rw [sless_trans hs hxy] at this; cases this
            · rw [Bool.not_eq_true] at hxy
              have := hpa.1 c hm
              rw [sless_total hc hxy, hs] at this; cases this
        · exact hpb.1 c hm
      · rw [toAlg, h2]
        simp only [toAlg]
        abel
      · intro c hcm
        rcases List.mem_cons.1 hcm with rfl | hcm
        · simp
        · rcases h3 c hcm with hm | hm
          · exact .inl hm
          · simp [hm]
termination_by a b => a.length + b.length

theorem unionPlus_spec {a b : List (StrW × W)} (ha : GGood a) (hb : GGood b) :
    ∃ s, unionPlus (gallicOpt (semiOps W fl)) a b = .ok s ∧ GGood s ∧ toAlg s = toAlg a + toAlg b := by
  unfold unionPlus
  split_ifs with h k
  · subst h; exact ⟨b, rfl, hb, by simp [toAlg]⟩
  · subst k; exact ⟨a, rfl, ha, by simp [toAlg]⟩
  · obtain ⟨h1, h2, _⟩ := mergeOrder_spec a b ha.weak hb.weak
    obtain ⟨s, k1, k2, k3⟩ := pushAll_spec fl _ (l := []) ⟨by simp, by simp⟩ h1 (fun w _ b hb => by cases hb)
    exact ⟨s, k1, k2, by rw [k3, h2]; simp [toAlg]⟩

/-- The product of two elements. -/
def gmul (a b : StrW × W) : StrW × W := (a.1.times b.1, a.2 * b.2)

theorem gmul_proper {a b : StrW × W} (ha : GProper a) (hb : GProper b) : GProper (gmul a b) := by
  rw [gproper_eq ha, gproper_eq hb]; simp [gmul, GProper, StrW.times]

theorem gkey_gmul {a b : StrW × W} (ha : GProper a) (hb : GProper b) : gkey (gmul a b) = gkey a ++ gkey b := by
  rw [gproper_eq ha, gproper_eq hb]; rfl

theorem gterm_gmul {a b : StrW × W} (ha : GProper a) (hb : GProper b) : gterm (gmul a b) = gterm a * gterm b := by
  unfold gterm
  rw [MonoidAlgebra.single_mul_single, gkey_gmul ha hb]
  rfl

theorem unionRow_eq (w : StrW × W) : ∀ (b l : List (StrW × W)),
    unionRow (gallicOpt (semiOps W fl)) (prodOps StrW.restrictOps (semiOps W fl)).times w l b =
      pushAll (gallicOpt (semiOps W fl)) l (b.map (gmul w))
  | [], l => rfl
  | v :: b, l => by
    have e : (prodOps StrW.restrictOps (semiOps W fl)).times w v = .ok (gmul w v) := rfl
    rw [unionRow, e, List.map_cons, pushAll]
    dsimp only
    cases h : pushBack (gallicOpt (semiOps W fl)) l (gmul w v) with
    | error e => rfl
    | ok l => exact unionRow_eq w b l

theorem toAlg_row {w : StrW × W} (hw : GProper w) : ∀ {b : List (StrW × W)}, (∀ v ∈ b, GProper v) →
    toAlg (b.map (gmul w)) = gterm w * toAlg b
  | [], _ => by simp [toAlg]
  | v :: b, h => by
    rw [List.map_cons, toAlg, toAlg, mul_add, gterm_gmul hw (h v (by simp)), toAlg_row hw fun c hc => h c (by simp [hc])]

theorem row_good {w : StrW × W} (hw : GProper w) {b : List (StrW × W)} (hb : GGood b) : GGood (b.map (gmul w)) := by
  refine ⟨fun c hc => ?_, ?_⟩
  · obtain ⟨v, hv, rfl⟩ := List.mem_map.1 hc
    exact gmul_proper hw (hb.1 v hv)
  · rw [List.pairwise_map]
    refine hb.2.imp_of_mem fun {x y} hx hy h => ?_
    rw [gkey_gmul hw (hb.1 x hx), gkey_gmul hw (hb.1 y hy), sless_append_left]; exact h

theorem unionTimesLoop_spec {b : List (StrW × W)} (hb : GGood b) : ∀ (a : List (StrW × W)) {acc : List (StrW × W)},
    (∀ v ∈ a, GProper v) → GGood acc →
    ∃ p, unionTimesLoop (gallicOpt (semiOps W fl)) (prodOps StrW.restrictOps (semiOps W fl)).times b acc a = .ok p ∧ GGood p ∧
      toAlg p = toAlg acc + toAlg a * toAlg b
  | [], acc, _, h => ⟨acc, rfl, h, by simp [toAlg]⟩
  | w :: a, acc, ha, h => by
    have hw := ha w (by simp)
    obtain ⟨r, h1, h2, h3⟩ := pushAll_spec fl (b.map (gmul w)) (l := []) ⟨by simp, by simp⟩ (row_good hw hb).weak
      (fun w _ b hb => by cases hb)
    obtain ⟨s, k1, k2, k3⟩ := unionPlus_spec fl h h2
    obtain ⟨p, m1, m2, m3⟩ := unionTimesLoop_spec hb a (fun v hv => ha v (by simp [hv])) k2
    refine ⟨p, ?_, m2, ?_⟩
    · rw [unionTimesLoop, unionRow_eq, h1]
      dsimp only
      rw [k1]
      exact m1
    · rw [m3, k3, h3, toAlg_row hw hb.1]
      simp [toAlg, add_mul, add_assoc]

theorem unionTimes_spec {a b : List (StrW × W)} (ha : GGood a) (hb : GGood b) :
    ∃ s, unionTimes (gallicOpt (semiOps W fl)) (prodOps StrW.restrictOps (semiOps W fl)).times a b = .ok s ∧ GGood s ∧
      toAlg s = toAlg a * toAlg b := by
  unfold unionTimes
  split_ifs with h
  · refine ⟨[], rfl, ⟨by simp, by simp⟩, ?_⟩
    rcases h with rfl | rfl <;> simp [toAlg]
  · obtain ⟨p, h1, h2, h3⟩ := unionTimesLoop_spec fl hb a (acc := []) ha.1 ⟨by simp, by simp⟩
    exact ⟨p, h1, h2, by rw [h3]; simp [toAlg]⟩

end alg
end Verif
