import Verif.Lemmas.GallicSums
import Verif.Lemmas.DetWeights
import Verif.Model.DeterminizeFst

/-! # Determinization: the gallic weights -/

namespace Verif
set_option linter.unusedSectionVars false
universe u
variable {W : Type u}

/-- Good weights can be added, multiplied and divided, and quantization leaves them alone. -/
structure DivLaw [Semiring W] (o : DetOps W) (good : W → Prop) : Prop where
  plus : ∀ a b, o.plus a b = .ok (a + b)
  one : good 1
  mul : ∀ a b, good a → good b → good (a * b)
  add : ∀ a b, good a → good b → good (a + b)
  divide : ∀ a d, good a → good d → ∃ q, o.divide a d = .ok q ∧ d * q = a ∧ good q
  quantize : ∀ w, good w → o.quantize w = .ok w

/-! ### The common divisor -/

section common
variable [Semiring W] {o : DetOps W} {good : W → Prop}

/-- The string of a common divisor: at most one label, and a prefix of all strings. -/
theorem gallicCommonAll_spec (hp : ∀ a b, o.plus a b = .ok (a + b)) : ∀ (es : List (StrW × W)) (d : StrW × W), (∀ e ∈ es, GProper e) →
    ∃ r, gallicCommonAll o.plus d es = .ok r ∧ r.2 = d.2 + (es.map (·.2)).sum ∧
      (es = [] → r = d) ∧
      ((es ≠ [] ∨ ∃ c, d.1 = .labels c ∧ c.length ≤ 1) → ∃ c, r.1 = .labels c ∧ c.length ≤ 1 ∧ (∀ e ∈ es, c <+: gkey e) ∧ (∀ c', d.1 = .labels c' → c <+: c')) := by
  intro es
  induction es with
  | nil =>
    intro d _
    refine ⟨d, rfl, by simp, fun _ => rfl, ?_⟩
    rintro (h | ⟨c, hc, hl⟩)
    · exact absurd rfl h
    · exact ⟨c, hc, hl, by simp, fun c' h => by rw [hc] at h; cases h; exact List.prefix_rfl⟩
  | cons e es ih =>
    intro d he
    obtain ⟨s, w⟩ := e
    rcases s with _ | k
    · exact absurd rfl (he (.inf, w) (by simp))
    have hstep : gallicCommon o.plus d (.labels k, w) = .ok (labelCommon d.1 (.labels k), d.2 + w) := by
      simp [gallicCommon, pairR, hp]
    have hl : ∃ c, labelCommon d.1 (.labels k) = .labels c ∧ c.length ≤ 1 ∧ c <+: k ∧ ∀ c', d.1 = .labels c' → c <+: c' := by
      rcases d with ⟨_ | ⟨_ | ⟨a, l⟩⟩, x⟩ <;> rcases k with _ | ⟨b, m⟩ <;> simp only [labelCommon]
      all_goals first
        | exact ⟨[], rfl, by simp, by simp, by simp⟩
        | exact ⟨[b], rfl, by simp, by simp, by simp⟩
        | skip
      split
      · rename_i h; subst h; exact ⟨[a], rfl, by simp, by simp, fun c' h => by cases h; simp⟩
      · exact ⟨[], rfl, by simp, by simp, by simp⟩
    obtain ⟨c1, e1, e2, e3, e4⟩ := hl
    obtain ⟨r, h1, h2, _, h4⟩ := ih (labelCommon d.1 (.labels k), d.2 + w) (fun x hx => he x (by simp [hx]))
    refine ⟨r, by rw [gallicCommonAll, hstep]; exact h1, by rw [h2]; simp [add_assoc], by simp, fun _ => ?_⟩
    obtain ⟨c, f1, f2, f3, f4⟩ := h4 (.inr ⟨c1, e1, e2⟩)
    refine ⟨c, f1, f2, ?_, fun c' h => (f4 c1 e1).trans (e4 c' h)⟩
    intro x hx
    rcases List.mem_cons.1 hx with rfl | hx
    · exact (f4 c1 e1).trans e3
    · exact f3 x hx

end common

/-! ### The operations on proper gallic weights -/

section ops
variable [Semiring W] [DecidableEq W]

instance GGood.decidable (l : List (StrW × W)) : Decidable (GGood l) := by
  unfold GGood GProper
  infer_instance

/-- A result as a proper gallic weight. -/
def liftGW (r : R (List (StrW × W))) : R (GW W) :=
  match r with
  | .error e => .error e
  | .ok l => if h : GGood l then .ok ⟨l, h⟩ else .error .panic

theorem liftGW_ok {r : R (List (StrW × W))} {v : GW W} (h : r = .ok v.1) : liftGW r = .ok v := by
  subst h
  obtain ⟨l, hl⟩ := v
  simp [liftGW, hl]

theorem of_liftGW {r : R (List (StrW × W))} {v : GW W} (h : liftGW r = .ok v) : r = .ok v.1 := by
  unfold liftGW at h
  split at h
  · cases h
  · split at h
    · injection h with h; rw [← h]
    · cases h

/-- The operations of `GallicWeight<W>` (`unionDet`) on proper values; no operation leads outside (`gwDet_ok`). -/
def gwDet (o : DetOps W) : DetOps (GW W) where
  plus a b := liftGW ((unionDet (semiOps W anyFlags) o).plus a.1 b.1)
  common a b := liftGW ((unionDet (semiOps W anyFlags) o).common a.1 b.1)
  divide a b := liftGW ((unionDet (semiOps W anyFlags) o).divide a.1 b.1)
  quantize a := liftGW ((unionDet (semiOps W anyFlags) o).quantize a.1)
  leftSemiring := o.leftSemiring

variable {o : DetOps W} {good : W → Prop}

theorem gwDet_plus (a b : GW W) : (gwDet o).plus a b = .ok (a + b) := liftGW_ok (GW.add_ok a b)

/-- The common divisor of two gallic weights: one string. -/
theorem gwDet_common (hp : ∀ a b, o.plus a b = .ok (a + b)) (a b : GW W) : ∃ d, (gwDet o).common a b = .ok d ∧ (a = 0 → b = 0 → d = 0) ∧
    ((a ≠ 0 ∨ b ≠ 0) → ∃ c w, d = GW.single c w ∧ c.length ≤ 1 ∧ w = ((a.1 ++ b.1).map (·.2)).sum ∧ ∀ e ∈ a.1 ++ b.1, c <+: gkey e) := by
  have hpr : ∀ e ∈ a.1 ++ b.1, GProper e := by
    intro e he
    rcases List.mem_append.1 he with he | he
    · exact a.2.1 e he
    · exact b.2.1 e he
  obtain ⟨r, h1, h2, h3, h4⟩ := gallicCommonAll_spec hp (a.1 ++ b.1) (.inf, 0) hpr
  simp only [zero_add] at h2
  by_cases hnil : a.1 ++ b.1 = []
  · have hr := h3 hnil
    rw [List.append_eq_nil_iff] at hnil
    have ha : a = 0 := GW.zero_iff.2 hnil.1
    have hb : b = 0 := GW.zero_iff.2 hnil.2
    refine ⟨0, liftGW_ok ?_, fun _ _ => rfl, by simp [ha, hb]⟩
    show gallicUnionCommon o.plus a.1 b.1 = _
    unfold gallicUnionCommon
    rw [h1]
    simp only [hr, if_true]
    rfl
  · obtain ⟨c, e1, e2, e3, -⟩ := h4 (.inl hnil)
    refine ⟨GW.single c r.2, liftGW_ok ?_, ?_, fun _ => ⟨c, r.2, rfl, e2, h2, e3⟩⟩
    · show gallicUnionCommon o.plus a.1 b.1 = _
      unfold gallicUnionCommon
      rw [h1]
      simp only
      rw [if_neg]
      · have : r = (.labels c, r.2) := Prod.ext e1 rfl
        rw [this]; rfl
      · intro h; rw [h] at e1; cases e1
    · intro ha hb
      rw [ha, hb] at hnil
      exact absurd rfl hnil

/-- The weights on transitions: not zero, with good weights and without the label 0 in the strings. -/
def GWGood (good : W → Prop) (v : GW W) : Prop := v ≠ 0 ∧ GW.Every (fun k w => good w ∧ EPS ∉ k) v

theorem gwGood_single {l : List Label} {w : W} (h : good w) (h0 : EPS ∉ l) : GWGood good (GW.single l w) :=
  ⟨GW.single_ne_zero l w, GW.every_single.2 ⟨h, h0⟩⟩

theorem good_sum (L : DivLaw o good) : ∀ (l : List W), l ≠ [] → (∀ w ∈ l, good w) → good l.sum
  | [], h, _ => absurd rfl h
  | [w], _, h => by rw [List.sum_singleton]; exact h w (by simp)
  | w :: x :: l, _, h => by
    rw [List.sum_cons]
    exact L.add _ _ (h w (by simp)) (good_sum L (x :: l) (by simp) fun y hy => h y (by simp [hy]))

/-- The common divisor of good gallic weights: one string of at most one label, a prefix of all the strings. -/
theorem gw_commonFold (L : DivLaw o good) {ws : List (GW W)} (hn : ws ≠ []) (hg : ∀ v ∈ ws, GWGood good v) {d : GW W}
    (h : commonFold (gwDet o) 0 ws = .ok d) :
    ∃ c w, d = GW.single c w ∧ c.length ≤ 1 ∧ EPS ∉ c ∧ good w ∧ ∀ v ∈ ws, GW.Every (fun k _ => c <+: k) v := by
  have key : ∀ (ws : List (GW W)) (d0 : GW W), GWGood good d0 → (∀ v ∈ ws, GWGood good v) → ∀ c0 w0, d0 = GW.single c0 w0 → c0.length ≤ 1 →
      commonFold (gwDet o) d0 ws = .ok d →
      ∃ c w, d = GW.single c w ∧ c.length ≤ 1 ∧ EPS ∉ c ∧ good w ∧ c <+: c0 ∧ ∀ v ∈ ws, GW.Every (fun k _ => c <+: k) v := by
    intro ws
    induction ws with
    | nil =>
      intro d0 h0 _ c0 w0 e0 hc0 h
      simp only [commonFold, Except.ok.injEq] at h
      subst h
      subst e0
      have := GW.every_single.1 h0.2
      exact ⟨c0, w0, rfl, hc0, this.2, this.1, List.prefix_rfl, by simp⟩
    | cons v ws ih =>
      intro d0 h0 hg c0 w0 e0 hc0 h
      obtain ⟨d1, f1, -, f2⟩ := gwDet_common L.plus d0 v
      obtain ⟨c1, w1, g1, g2, g3, g4⟩ := f2 (.inl h0.1)
      rw [commonFold, f1] at h
      have hv := hg v (by simp)
      have hin : ∀ e ∈ d0.1 ++ v.1, good e.2 ∧ EPS ∉ gkey e := by
        intro e he
        rcases List.mem_append.1 he with he | he
        · have := gproper_eq (d0.2.1 e he)
          rw [this] at he; exact h0.2 _ _ he
        · have := gproper_eq (v.2.1 e he)
          rw [this] at he; exact hv.2 _ _ he
      have hne : d0.1 ++ v.1 ≠ [] := by
        intro e; rw [List.append_eq_nil_iff] at e
        exact h0.1 (GW.zero_iff.2 e.1)
      have hw1 : good w1 := by
        rw [g3]
        refine good_sum L _ (by simpa using hne) ?_
        intro w hw
        obtain ⟨e, he, rfl⟩ := List.mem_map.1 hw
        exact (hin e he).1
      have hc01 : c1 <+: c0 := by
        have := g4 (.labels c0, w0) (by rw [e0]; simp [GW.single])
        exact this
      have hc1 : EPS ∉ c1 := by
        have : EPS ∉ c0 := by
          rw [e0] at h0; exact (GW.every_single.1 h0.2).2
        exact fun hx => this (hc01.subset hx)
      obtain ⟨c, w, k1, k2, k3, k4, k5, k6⟩ := ih d1 (by rw [g1]; exact gwGood_single hw1 hc1) (fun x hx => hg x (by simp [hx])) c1 w1 g1 g2 h
      refine ⟨c, w, k1, k2, k3, k4, k5.trans hc01, ?_⟩
      intro x hx
      rcases List.mem_cons.1 hx with rfl | hx
      · intro k y hy
        exact k5.trans (g4 (.labels k, y) (List.mem_append_right _ hy))
      · exact k6 x hx
  cases ws with
  | nil => exact absurd rfl hn
  | cons v ws =>
    obtain ⟨d1, f1, -, f2⟩ := gwDet_common L.plus 0 v
    have hv := hg v (by simp)
    obtain ⟨c1, w1, g1, g2, g3, g4⟩ := f2 (.inr hv.1)
    rw [commonFold, f1] at h
    have hin : ∀ e ∈ v.1, good e.2 ∧ EPS ∉ gkey e := by
      intro e he
      have := gproper_eq (v.2.1 e he)
      rw [this] at he; exact hv.2 _ _ he
    have hvne : v.1 ≠ [] := fun e => hv.1 (GW.zero_iff.2 e)
    have hz : (0 : GW W).1 = [] := rfl
    rw [hz, List.nil_append] at g3 g4
    have hw1 : good w1 := by
      rw [g3]
      refine good_sum L _ (by simpa using hvne) ?_
      intro w hw
      obtain ⟨e, he, rfl⟩ := List.mem_map.1 hw
      exact (hin e he).1
    obtain ⟨e, he⟩ := List.exists_mem_of_ne_nil _ hvne
    have hc1 : EPS ∉ c1 := fun hx => (hin e he).2 ((g4 e he).subset hx)
    obtain ⟨c, w, k1, k2, k3, k4, k5, k6⟩ := key ws d1 (by rw [g1]; exact gwGood_single hw1 hc1) (fun x hx => hg x (by simp [hx])) c1 w1 g1 g2 h
    refine ⟨c, w, k1, k2, k3, k4, ?_⟩
    intro x hx
    rcases List.mem_cons.1 hx with rfl | hx
    · intro k y hy
      exact k5.trans (g4 (.labels k, y) hy)
    · exact k6 x hx

/-- Sums of good gallic weights are good, and keep a common prefix. -/
theorem gw_sums (L : DivLaw o good) {ws : List (GW W)} (hg : ∀ v ∈ ws, GWGood good v) {c : List Label} (hc : ∀ v ∈ ws, GW.Every (fun k _ => c <+: k) v)
    {v : GW W} (h : Sums (gwDet o) ws v) : GWGood good v ∧ GW.Every (fun k _ => c <+: k) v := by
  induction h with
  | one h => exact ⟨hg _ h, hc _ h⟩
  | more _ hb he ih =>
    rw [gwDet_plus] at he; injection he with he; subst he
    refine ⟨⟨GW.add_ne_zero ih.1.1, GW.every_add ?_ ih.1.2 (hg _ hb).2⟩, GW.every_add (fun _ _ _ h _ => h) ih.2 (hc _ hb)⟩
    intro k a b ha hb
    exact ⟨L.add _ _ ha.1 hb.1, ha.2⟩

/-- Pushing in order. -/
theorem pushBack_sorted {w : WeightOps W} {l : List (StrW × W)} {e : StrW × W} (h : GGood (l ++ [e])) : pushBack (gallicOpt w) l e = .ok (l ++ [e]) := by
  unfold pushBack
  rcases List.eq_nil_or_concat l with rfl | ⟨i, b, rfl⟩
  · rfl
  · rw [List.concat_eq_append] at h ⊢
    simp only [List.getLast?_concat, gallicOpt]
    have hb : GProper b := h.1 b (by simp)
    have he : GProper e := h.1 e (by simp)
    refine if_pos ?_
    show gallicCompare b e = true
    rw [gallicCompare_eq hb he]
    exact (List.pairwise_append.1 h.2).2.2 b (by simp) e (by simp)

theorem GGood.left {l m : List (StrW × W)} (h : GGood (l ++ m)) : GGood l :=
  ⟨fun a ha => h.1 a (by simp [ha]), (List.pairwise_append.1 h.2).1⟩

theorem pushQuotients_sorted {w : WeightOps W} : ∀ (m l : List (StrW × W)), GGood (l ++ m) → pushQuotients (gallicOpt w) l (m.map .ok) = .ok (l ++ m)
  | [], l, _ => by simp [pushQuotients]
  | e :: m, l, h => by
    have h' : GGood ((l ++ [e]) ++ m) := by simpa using h
    rw [List.map_cons, pushQuotients, pushBack_sorted h'.left]
    simp only
    rw [pushQuotients_sorted m (l ++ [e]) h']
    simp

theorem unionQuantize_sorted {w : WeightOps W} {q : StrW × W → R (StrW × W)} : ∀ (m l : List (StrW × W)), GGood (l ++ m) → (∀ e ∈ m, q e = .ok e) →
    unionQuantize (gallicOpt w) q l m = .ok (l ++ m)
  | [], l, _, _ => by simp [unionQuantize]
  | e :: m, l, h, hq => by
    have h' : GGood ((l ++ [e]) ++ m) := by simpa using h
    have he := hq e (by simp)
    rw [unionQuantize, he]
    simp only [he]
    rw [pushBack_sorted h'.left]
    simp only
    rw [unionQuantize_sorted m (l ++ [e]) h' (fun x hx => hq x (by simp [hx]))]
    simp

/-- Good gallic weights are not changed by quantization. -/
theorem gwDet_quantize (L : DivLaw o good) {v : GW W} (h : GWGood good v) : (gwDet o).quantize v = .ok v := by
  refine liftGW_ok ?_
  show unionQuantize _ _ [] v.1 = _
  rw [unionQuantize_sorted v.1 [] (by simpa using v.2)]
  · simp
  · intro e he
    have hp := gproper_eq (v.2.1 e he)
    have hq := L.quantize e.2 (by rw [hp] at he; exact (h.2 _ _ he).1)
    rw [prodQuantize, hq]
    rfl

/-- Dividing by one string with a weight. -/
theorem gwDet_divide (L : DivLaw o good) {v : GW W} (h : GWGood good v) {c : List Label} {w : W} (hw : good w) (hc : GW.Every (fun k _ => c <+: k) v) :
    ∃ q, (gwDet o).divide v (GW.single c w) = .ok q ∧ GW.single c w * q = v ∧ GWGood good q := by
  have hex : ∀ e ∈ v.1, ∃ x, o.divide e.2 w = .ok x ∧ w * x = e.2 ∧ good x := by
    intro e he
    have hp := gproper_eq (v.2.1 e he)
    rw [hp] at he
    exact L.divide _ _ (h.2 _ _ he).1 hw
  have hpre : ∀ e ∈ v.1, c <+: gkey e := by
    intro e he
    have hp := gproper_eq (v.2.1 e he)
    rw [hp] at he
    exact hc _ _ he
  have hdr : ∀ e ∈ v.1, c ++ (gkey e).drop c.length = gkey e := by
    intro e he
    obtain ⟨t, ht⟩ := hpre e he
    rw [← ht]; simp
  obtain ⟨F, hF⟩ : ∃ F : StrW × W → W, ∀ e ∈ v.1, o.divide e.2 w = .ok (F e) ∧ w * F e = e.2 ∧ good (F e) := by
    classical
    refine ⟨fun e => if he : e ∈ v.1 then (hex e he).choose else 0, fun e he => ?_⟩
    simp only [he, dif_pos]
    exact (hex e he).choose_spec
  let G : StrW × W → StrW × W := fun e => (.labels ((gkey e).drop c.length), F e)
  have hgood : GGood (v.1.map G) := by
    refine ⟨?_, ?_⟩
    · intro a ha
      obtain ⟨e, _, rfl⟩ := List.mem_map.1 ha
      simp [G, GProper]
    · rw [List.pairwise_map]
      refine List.Pairwise.imp_of_mem ?_ v.2.2
      intro a b ha hb hab
      have : sless (c ++ (gkey a).drop c.length) (c ++ (gkey b).drop c.length) = true := by rw [hdr a ha, hdr b hb]; exact hab
      rw [sless_append_left] at this
      exact this
  have hne : v.1 ≠ [] := fun e => h.1 (GW.zero_iff.2 e)
  have hstep : v.1.map (fun x => prodDivide StrW.divideLeft o.divide x (.labels c, w)) = (v.1.map G).map .ok := by
    rw [List.map_map]
    refine List.map_congr_left fun e he => ?_
    have hp := gproper_eq (v.2.1 e he)
    obtain ⟨h1, -, -⟩ := hF e he
    simp only [Function.comp, G, prodDivide, h1]
    rw [hp]
    rfl
  have hdiv : unionDivide (gallicOpt (semiOps W anyFlags)) (prodDivide StrW.divideLeft o.divide) v.1 [(.labels c, w)] = .ok (v.1.map G) := by
    have hq := pushQuotients_sorted (w := semiOps W anyFlags) (v.1.map G) [] (by simpa using hgood)
    rw [← hstep] at hq
    unfold unionDivide
    rw [if_neg (by simp [hne])]
    generalize hv : v.1 = l at *
    match l, hne, hq with
    | [x], _, hq => simpa using hq
    | x :: y :: l, _, hq => simpa using hq
  refine ⟨⟨v.1.map G, hgood⟩, liftGW_ok hdiv, ?_, ?_, ?_⟩
  · have e1 := GW.eq_sum (⟨v.1.map G, hgood⟩ : GW W)
    conv_lhs => rw [e1]
    conv_rhs => rw [GW.eq_sum v]
    rw [← List.sum_map_mul_left, List.map_map]
    congr 1
    refine List.map_congr_left fun e he => ?_
    obtain ⟨-, h2, -⟩ := hF e he
    simp only [Function.comp, G, gkey]
    rw [GW.single_mul]
    have := hdr e he
    unfold gkey at this
    rw [this, h2]
  · intro e
    have := GW.zero_iff.1 e
    simp at this
    exact hne this
  · intro k x hx
    obtain ⟨e, he, h3⟩ := List.mem_map.1 hx
    simp only [G, Prod.mk.injEq, StrW.labels.injEq] at h3
    rw [← h3.1, ← h3.2]
    refine ⟨(hF e he).2.2, fun h0 => ?_⟩
    have hp := gproper_eq (v.2.1 e he)
    rw [hp] at he
    exact (h.2 _ _ he).2 (List.mem_of_mem_drop h0)

/-- Good gallic weights can be determinized. -/
theorem gwDet_law (L : DivLaw o good) : DetLaw (gwDet o) (id : GW W → GW W) (GWGood good) ∧ DetTotal (gwDet o) (GWGood good) := by
  have hd : ∀ ws d v, (∀ x ∈ ws, GWGood good x) → commonFold (gwDet o) 0 ws = .ok d → Sums (gwDet o) ws v →
      ∃ q, (gwDet o).divide v d = .ok q ∧ (gwDet o).quantize q = .ok q ∧ d * q = v ∧ GWGood good q := by
    intro ws d v hg hc hs
    obtain ⟨c, w, rfl, h2, h3, h4, h5⟩ := gw_commonFold L hs.nonempty hg hc
    obtain ⟨g1, g2⟩ := gw_sums L hg h5 hs
    obtain ⟨q, k1, k2, k3⟩ := gwDet_divide L g1 h4 g2
    exact ⟨q, k1, gwDet_quantize L k3, k2, k3⟩
  refine ⟨⟨rfl, rfl, fun _ _ => rfl, ?_, ?_, ?_, ?_⟩, ⟨fun a b => ⟨_, gwDet_plus a b⟩, fun a b => ?_, ?_⟩⟩
  · intro a b c h
    rw [gwDet_plus] at h; injection h with h; exact h.symm
  · exact gwGood_single L.one (by simp)
  · intro a b ha hb
    refine ⟨GW.mul_ne_zero' ha.1 hb.1, GW.every_mul ?_ ?_ ha.2 hb.2⟩
    · intro k x y hx hy
      exact ⟨L.add _ _ hx.1 hy.1, hx.2⟩
    · intro k l x y hx hy
      refine ⟨L.mul _ _ hx.1 hy.1, ?_⟩
      rw [List.mem_append]
      rintro (h | h)
      · exact hx.2 h
      · exact hy.2 h
  · intro ws d v q q' hg hc hs e1 e2
    obtain ⟨r, k1, k2, k3, k4⟩ := hd ws d v hg hc hs
    rw [e1] at k1; injection k1 with k1; subst k1
    rw [e2] at k2; injection k2 with k2; subst k2
    exact ⟨k3, k4⟩
  · obtain ⟨d, h, -⟩ := gwDet_common L.plus a b
    exact ⟨d, h⟩
  · intro ws d v hg hc hs
    obtain ⟨r, k1, k2, k3, k4⟩ := hd ws d v hg hc hs
    exact ⟨r, r, k1, k2⟩

end ops
end Verif
