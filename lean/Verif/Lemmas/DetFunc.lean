import Verif.Lemmas.DetNonFunc

/-! # `GallicWeightRestrict` in the determinization of transducers -/

namespace Verif
set_option linter.unusedSectionVars false
universe u
variable {W : Type u}

/-- The proper values of `GallicWeightRestrict`: the weight of an infinite string is zero. -/
def RG (W : Type u) [Zero W] := {p : StrW × W // p.1 = .inf → p.2 = 0}

namespace RG

instance [Zero W] [DecidableEq W] : DecidableEq (RG W) := inferInstanceAs (DecidableEq {p : StrW × W // p.1 = .inf → p.2 = 0})

/-- The pair. -/
def raw [Zero W] (v : RG W) : StrW × W := v.1

/-- A string and a weight. -/
def single [Zero W] (l : List Label) (w : W) : RG W := ⟨(.labels l, w), fun h => by cases h⟩

/-- `into` for proper weights. -/
def mk' [Zero W] (p : StrW × W) : RG W :=
  match p.1 with
  | .labels l => single l p.2
  | .inf => ⟨(.inf, 0), fun _ => rfl⟩

variable [MonoidWithZero W]

instance : MonoidWithZero (RG W) where
  mul a b := ⟨a.1 * b.1, fun h => by
    obtain ⟨⟨s, x⟩, ha⟩ := a
    obtain ⟨⟨t, y⟩, hb⟩ := b
    show x * y = 0
    cases s with
    | inf => rw [show x = 0 from ha rfl, zero_mul]
    | labels l =>
      cases t with
      | inf => rw [show y = 0 from hb rfl, mul_zero]
      | labels m => cases h⟩
  one := ⟨1, fun h => by cases h⟩
  zero := ⟨0, fun _ => rfl⟩
  mul_assoc a b c := Subtype.ext (mul_assoc a.1 b.1 c.1)
  one_mul a := Subtype.ext (one_mul a.1)
  mul_one a := Subtype.ext (mul_one a.1)
  zero_mul a := Subtype.ext (zero_mul a.1)
  mul_zero a := Subtype.ext (mul_zero a.1)

theorem cases' (v : RG W) : v = 0 ∨ ∃ l w, v = single l w := by
  obtain ⟨⟨_ | l, w⟩, h⟩ := v
  · exact .inl (Subtype.ext (Prod.ext rfl (h rfl)))
  · exact .inr ⟨l, w, rfl⟩

theorem single_mul (l m : List Label) (a b : W) : single l a * single m b = single (l ++ m) (a * b) := rfl

theorem single_inj {l m : List Label} {a b : W} (h : single l a = single m b) : l = m ∧ a = b := by
  have := congrArg Subtype.val h
  simp only [single, Prod.mk.injEq, StrW.labels.injEq] at this
  exact this

theorem single_ne_zero (l : List Label) (w : W) : single l w ≠ 0 := by
  intro h
  have := congrArg (fun v : RG W => v.1.1) h
  cases this

end RG

/-! ### The operations -/

section
variable [Semiring W] [DecidableEq W]

/-- A result as a proper weight. -/
def liftRG (r : R (StrW × W)) : R (RG W) :=
  match r with
  | .error e => .error e
  | .ok p => if h : p.1 = .inf → p.2 = 0 then .ok ⟨p, h⟩ else .error .panic

theorem liftRG_ok {r : R (StrW × W)} {v : RG W} (h : r = .ok v.1) : liftRG r = .ok v := by
  rw [h]
  exact dif_pos v.2

theorem of_liftRG {r : R (StrW × W)} {v : RG W} (h : liftRG r = .ok v) : r = .ok v.1 := by
  cases r with
  | error e => cases h
  | ok p =>
    simp only [liftRG] at h
    split at h
    · injection h with h; subst h; rfl
    · cases h

/-- The operations of `GallicWeightRestrict<W>` (`restrictDet`) on proper values. -/
def rgDet (o : DetOps W) : DetOps (RG W) where
  plus a b := liftRG ((restrictDet o).plus a.1 b.1)
  common a b := liftRG ((restrictDet o).common a.1 b.1)
  divide a b := liftRG ((restrictDet o).divide a.1 b.1)
  quantize a := liftRG ((restrictDet o).quantize a.1)
  leftSemiring := o.leftSemiring

/-- `GallicFactorRestrict` on proper values. -/
def rgFactor (v : RG W) : List (RG W × RG W) := (gallicFactor v.1).map fun p => (RG.mk' p.1, RG.mk' p.2)

/-- `quantize_assign` on proper values. -/
def rgQuantize (q : W → R W) (v : RG W) : R (RG W) := liftRG (prodQuantize strQuantize q v.1)

/-- `determinize` of an FST without the `ACCEPTOR` flag, type `DeterminizeFunctional`. -/
def determinizeF (o : DetOps W) (q : W → R W) (ord : DTup (RG W) → Label → List (DElt (RG W)) → List (DElt (RG W))) (f : Fst W) (n : Nat) :
    Option (R (Fst W)) :=
  determinizeT RG.mk' (fun v => extractPair v.1) (rgDet o) rgFactor (rgQuantize q) ord true f n

/-- The value of a weight as a gallic weight. -/
def RG.val (v : RG W) : GW W :=
  match v.1.1 with
  | .inf => 0
  | .labels l => GW.single l v.1.2

theorem RG.val_single (l : List Label) (w : W) : RG.val (RG.single l w) = GW.single l w := rfl
theorem RG.val_zero : RG.val (0 : RG W) = 0 := rfl

/-- The weights on transitions. -/
def RGood (good : W → Prop) (v : RG W) : Prop := ∃ l w, v = RG.single l w ∧ good w ∧ EPS ∉ l

variable {o : DetOps W} {good : W → Prop}

theorem rg_plus_single (hp : ∀ a b, o.plus a b = .ok (a + b)) (l m : List Label) (a b : W) :
    (rgDet o).plus (RG.single l a) (RG.single m b) = if l = m then .ok (RG.single l (a + b)) else .error .err := by
  by_cases h : l = m
  · subst h
    rw [if_pos rfl]
    refine liftRG_ok ?_
    simp [restrictDet, RG.single, StrW.plusRestrict, pairR, hp]
  · rw [if_neg h]
    simp [rgDet, restrictDet, RG.single, StrW.plusRestrict, pairR, h, liftRG]

theorem rg_zero_plus (hp : ∀ a b, o.plus a b = .ok (a + b)) (v : RG W) : (rgDet o).plus 0 v = .ok v := by
  refine liftRG_ok ?_
  show pairR (StrW.plusRestrict .inf v.1.1) (o.plus 0 v.1.2) = _
  simp [StrW.plusRestrict, pairR, hp]

theorem rg_plus_zero (hp : ∀ a b, o.plus a b = .ok (a + b)) (v : RG W) : (rgDet o).plus v 0 = .ok v := by
  refine liftRG_ok ?_
  show pairR (StrW.plusRestrict v.1.1 .inf) (o.plus v.1.2 0) = _
  rw [hp, add_zero]
  obtain ⟨⟨_ | l, w⟩, h⟩ := v <;> simp [StrW.plusRestrict, pairR]

/-- Adding succeeds for equal strings. -/
theorem rg_plus_cases (hp : ∀ a b, o.plus a b = .ok (a + b)) {a b c : RG W} (h : (rgDet o).plus a b = .ok c) :
    (a = 0 ∧ c = b) ∨ (b = 0 ∧ c = a) ∨ ∃ l x y, a = RG.single l x ∧ b = RG.single l y ∧ c = RG.single l (x + y) := by
  rcases RG.cases' a with rfl | ⟨l, x, rfl⟩
  · rw [rg_zero_plus hp] at h; injection h with h; exact .inl ⟨rfl, h.symm⟩
  · rcases RG.cases' b with rfl | ⟨m, y, rfl⟩
    · rw [rg_plus_zero hp] at h; injection h with h; exact .inr (.inl ⟨rfl, h.symm⟩)
    · rw [rg_plus_single hp] at h
      split at h
      · rename_i e; subst e; injection h with h; exact .inr (.inr ⟨l, x, y, rfl, rfl, h.symm⟩)
      · cases h

theorem rg_common (hp : ∀ a b, o.plus a b = .ok (a + b)) (d v : RG W) (hv : v ≠ 0) :
    ∃ r, (rgDet o).common d v = .ok r ∧ gallicCommon o.plus d.1 v.1 = .ok r.1 ∧ r ≠ 0 := by
  rcases RG.cases' v with rfl | ⟨l, x, rfl⟩
  · exact absurd rfl hv
  have hl : ∃ c, labelCommon d.1.1 (.labels l) = .labels c := by
    rcases d with ⟨⟨_ | ⟨_ | ⟨a, k⟩⟩, y⟩, hd⟩ <;> rcases l with _ | ⟨b, m⟩ <;> simp only [labelCommon]
    all_goals first
      | exact ⟨_, rfl⟩
      | skip
    split
    · exact ⟨_, rfl⟩
    · exact ⟨_, rfl⟩
  obtain ⟨c, hc⟩ := hl
  have : gallicCommon o.plus d.1 (RG.single l x).1 = .ok (RG.single c (d.1.2 + x)).1 := by
    simp [gallicCommon, pairR, hp, RG.single, hc]
  exact ⟨_, liftRG_ok this, this, RG.single_ne_zero _ _⟩

theorem rg_commonFold_eq (hp : ∀ a b, o.plus a b = .ok (a + b)) : ∀ (ws : List (RG W)) (d : RG W), (∀ v ∈ ws, v ≠ 0) →
    ∃ r, commonFold (rgDet o) d ws = .ok r ∧ gallicCommonAll o.plus d.raw (ws.map RG.raw) = .ok r.1
  | [], d, _ => ⟨d, rfl, rfl⟩
  | v :: ws, d, h => by
    obtain ⟨r, h1, h2, _⟩ := rg_common hp d v (h v (by simp))
    obtain ⟨r', h3, h4⟩ := rg_commonFold_eq hp ws r fun x hx => h x (by simp [hx])
    exact ⟨r', by rw [commonFold, h1]; exact h3, by rw [List.map_cons, gallicCommonAll, show gallicCommon o.plus (RG.raw d) (RG.raw v) = .ok r.1 from h2]; exact h4⟩

/-- The common divisor of good weights: one string of at most one label, a prefix of all the strings. -/
theorem rg_commonFold (L : DivLaw o good) {ws : List (RG W)} (hn : ws ≠ []) (hg : ∀ v ∈ ws, RGood good v) {d : RG W}
    (h : commonFold (rgDet o) 0 ws = .ok d) :
    ∃ c w, d = RG.single c w ∧ c.length ≤ 1 ∧ EPS ∉ c ∧ good w ∧ ∀ v ∈ ws, ∃ k x, v = RG.single k x ∧ c <+: k := by
  have hne : ∀ v ∈ ws, v ≠ 0 := by
    intro v hv
    obtain ⟨l, w, rfl, -⟩ := hg v hv
    exact RG.single_ne_zero _ _
  obtain ⟨r, h1, h2⟩ := rg_commonFold_eq L.plus ws 0 hne
  rw [h] at h1; injection h1 with h1; subst h1
  obtain ⟨r, s1, s2, -, s4⟩ := gallicCommonAll_spec L.plus (ws.map RG.raw) (RG.raw 0) (by
    intro e he
    obtain ⟨v, hv, rfl⟩ := List.mem_map.1 he
    obtain ⟨l, w, rfl, -⟩ := hg v hv
    simp [GProper, RG.single, RG.raw])
  rw [h2] at s1; injection s1 with s1; subst s1
  obtain ⟨c, c1, c2, c3, -⟩ := s4 (.inl (by simpa using hn))
  have hd : d = RG.single c d.1.2 := Subtype.ext (Prod.ext c1 rfl)
  have hpre : ∀ v ∈ ws, ∃ k x, v = RG.single k x ∧ c <+: k := by
    intro v hv
    obtain ⟨l, w, rfl, -⟩ := hg v hv
    exact ⟨l, w, rfl, c3 _ (List.mem_map_of_mem hv)⟩
  refine ⟨c, d.1.2, hd, c2, ?_, ?_, hpre⟩
  · obtain ⟨v, hv⟩ := List.exists_mem_of_ne_nil _ hn
    obtain ⟨l, w, rfl, -, h0⟩ := hg v hv
    obtain ⟨k, x, e, hk⟩ := hpre _ hv
    rw [(RG.single_inj e).1] at h0
    exact fun hc => h0 (hk.subset hc)
  · rw [s2]
    have : ((RG.raw 0).2 : W) = 0 := rfl
    rw [this, zero_add]
    refine good_sum L _ (by simpa using hn) ?_
    intro w hw
    simp only [List.map_map, List.mem_map, Function.comp, RG.raw] at hw
    obtain ⟨v, hv, rfl⟩ := hw
    obtain ⟨l, w, rfl, h, -⟩ := hg v hv
    exact h

theorem rg_sums (L : DivLaw o good) {ws : List (RG W)} (hg : ∀ v ∈ ws, RGood good v) {v : RG W} (h : Sums (rgDet o) ws v) :
    RGood good v ∧ ∃ x ∈ ws, x.1.1 = v.1.1 := by
  induction h with
  | one h => exact ⟨hg _ h, _, h, rfl⟩
  | @more a b c _ hb he ih =>
    obtain ⟨⟨l, x, rfl, g1, g2⟩, y, hy, e⟩ := ih
    obtain ⟨m, z, rfl, g3, g4⟩ := hg b hb
    rw [rg_plus_single L.plus] at he
    split at he
    · rename_i h; subst h; injection he with he; subst he
      exact ⟨⟨l, x + z, rfl, L.add _ _ g1 g3, g2⟩, y, hy, e⟩
    · cases he

/-- A sum can be divided by the common divisor. -/
theorem rg_divide (L : DivLaw o good) {ws : List (RG W)} {d v : RG W} (hg : ∀ v ∈ ws, RGood good v) (h : commonFold (rgDet o) 0 ws = .ok d)
    (hs : Sums (rgDet o) ws v) : ∃ c w k x q, d = RG.single c w ∧ v = RG.single (c ++ k) x ∧ (rgDet o).divide v d = .ok (RG.single k q) ∧
      (rgDet o).quantize (RG.single k q) = .ok (RG.single k q) ∧ w * q = x ∧ good q ∧ EPS ∉ k := by
  have hn : ws ≠ [] := by
    obtain ⟨-, x, hx, -⟩ := rg_sums L hg hs
    exact List.ne_nil_of_mem hx
  obtain ⟨c, w, rfl, -, -, hw, hpre⟩ := rg_commonFold L hn hg h
  obtain ⟨⟨l, x, rfl, hx, h0⟩, y, hy, e⟩ := rg_sums L hg hs
  obtain ⟨k, z, rfl, hk⟩ := hpre y hy
  simp only [RG.single, StrW.labels.injEq] at e
  subst e
  obtain ⟨k, rfl⟩ := hk
  obtain ⟨q, q1, q2, q3⟩ := L.divide x w hx hw
  refine ⟨c, w, k, x, q, rfl, rfl, liftRG_ok ?_, liftRG_ok ?_, q2, q3, ?_⟩
  · simp [restrictDet, prodDivide, RG.single, StrW.divideLeft, pairR, q1]
  · simp [restrictDet, prodQuantize, strQuantize, RG.single, pairR, L.quantize q q3]
  · intro h; exact h0 (by simp [h])

theorem rgDet_law (L : DivLaw o good) : DetLaw (rgDet o) (RG.val : RG W → GW W) (RGood good) where
  zero := rfl
  one := rfl
  mul a b := by
    rcases RG.cases' a with rfl | ⟨l, x, rfl⟩
    · rw [zero_mul, RG.val_zero, zero_mul]
    · rcases RG.cases' b with rfl | ⟨m, y, rfl⟩
      · rw [mul_zero, RG.val_zero, mul_zero]
      · rw [RG.single_mul, RG.val_single, RG.val_single, RG.val_single, GW.single_mul]
  plus a b c h := by
    rcases rg_plus_cases L.plus h with ⟨rfl, rfl⟩ | ⟨rfl, rfl⟩ | ⟨l, x, y, rfl, rfl, rfl⟩
    · rw [RG.val_zero, zero_add]
    · rw [RG.val_zero, add_zero]
    · rw [RG.val_single, RG.val_single, RG.val_single, GW.single_add]
  good_one := ⟨[], 1, rfl, L.one, by simp⟩
  good_mul := by
    rintro _ _ ⟨l, x, rfl, h1, h2⟩ ⟨m, y, rfl, h3, h4⟩
    exact ⟨l ++ m, x * y, rfl, L.mul _ _ h1 h3, by simp [h2, h4]⟩
  divide ws d w q q' hg hc hs h1 h2 := by
    obtain ⟨c, u, k, x, r, rfl, rfl, e1, e2, e3, e4, e5⟩ := rg_divide L hg hc hs
    rw [h1] at e1; injection e1 with e1; subst e1
    rw [h2] at e2; injection e2 with e2; subst e2
    refine ⟨?_, k, r, rfl, e4, e5⟩
    rw [RG.val_single, RG.val_single, RG.val_single, GW.single_mul, e3]

/-! ### Factoring -/

theorem rgFactor_eq (v : RG W) : (∀ p ∈ rgFactor v, ∃ a b l x, v = RG.single (a :: b :: l) x ∧ rgFactor v = [p] ∧ p = (RG.single [a] x, RG.single (b :: l) 1)) ∧
    (rgFactor v = [] → v = 0 ∨ ∃ l x, v = RG.single l x ∧ l.length ≤ 1) := by
  rcases RG.cases' v with rfl | ⟨l, x, rfl⟩
  · exact ⟨(fun p hp => by cases hp), fun _ => .inl rfl⟩
  · rcases l with _ | ⟨a, _ | ⟨b, l⟩⟩
    · exact ⟨(fun p hp => by cases hp), fun _ => .inr ⟨_, _, rfl, by simp⟩⟩
    · exact ⟨(fun p hp => by cases hp), fun _ => .inr ⟨_, _, rfl, by simp⟩⟩
    · have : rgFactor (RG.single (a :: b :: l) x) = [(RG.single [a] x, RG.single (b :: l) 1)] := by
        simp [rgFactor, gallicFactor, RG.single, stringFactor, RG.mk']
      rw [this]
      refine ⟨fun p hp => ?_, fun h => by cases h⟩
      simp only [List.mem_singleton] at hp
      exact ⟨a, b, l, x, rfl, by rw [hp], hp⟩

theorem rg_factor_laws {q : W → R W} (h1 : q 1 = .ok 1) : Exact (rgFactor (W := W)) (rgQuantize q) ∧ Factoring (rgFactor (W := W)) ∧ SplitsInTwo (rgFactor (W := W)) := by
  refine ⟨?_, ⟨fun v => v.1.1.lenLabels, ?_⟩, ?_⟩
  · intro v p hp
    obtain ⟨a, b, l, x, rfl, -, rfl⟩ := (rgFactor_eq v).1 p hp
    refine liftRG_ok ?_
    simp [RG.single, prodQuantize, strQuantize, h1, pairR]
  · intro v p hp
    obtain ⟨a, b, l, x, rfl, -, rfl⟩ := (rgFactor_eq v).1 p hp
    simp [RG.single, StrW.lenLabels]
  · intro v
    cases h : rgFactor v with
    | nil => exact .inl rfl
    | cons p ps =>
      obtain ⟨a, b, l, x, rfl, h', rfl⟩ := (rgFactor_eq v).1 p (by rw [h]; simp)
      rw [h] at h'
      refine .inr ⟨_, h', ?_⟩
      rw [RG.single_mul, mul_one]; rfl

/-- A string of at most one label. -/
def RgRead (v : RG W) : Prop := ∃ c w, v = RG.single c w ∧ c.length ≤ 1 ∧ EPS ∉ c

/-- A string without `ε`. -/
def RgClean (v : RG W) : Prop := v ≠ 0 → ∃ c w, v = RG.single c w ∧ EPS ∉ c

theorem rg_factor_step {v : RG W} (hv : RgClean v) : ∀ p ∈ rgFactor v, RgRead p.1 ∧ RgClean p.2 := by
  intro p hp
  obtain ⟨a, b, l, x, rfl, -, rfl⟩ := (rgFactor_eq v).1 p hp
  obtain ⟨c, w, e, h0⟩ := hv (RG.single_ne_zero _ _)
  obtain ⟨rfl, -⟩ := RG.single_inj e
  exact ⟨⟨[a], x, rfl, by simp, by simp at h0 ⊢; exact h0.1⟩, fun _ => ⟨_, _, rfl, by simp at h0 ⊢; exact h0.2⟩⟩

theorem rg_factor_done {v : RG W} (hv : RgClean v) (h0 : v ≠ 0) (hf : rgFactor v = []) : RgRead v := by
  obtain ⟨c, w, rfl, hc⟩ := hv h0
  rcases (rgFactor_eq _).2 hf with h | ⟨l, x, e, hl⟩
  · exact absurd h h0
  · obtain ⟨rfl, -⟩ := RG.single_inj e
    exact ⟨c, w, rfl, hl, hc⟩

theorem rg_read {v : RG W} (h : RgRead v) : ∃ w l, extractPair v.1 = .ok (w, l) ∧ v = RG.single (strip l) w := by
  obtain ⟨c, w, rfl, hc, h0⟩ := h
  rcases c with _ | ⟨a, _ | ⟨b, c⟩⟩
  · exact ⟨w, EPS, rfl, rfl⟩
  · refine ⟨w, a, rfl, ?_⟩
    have : a ≠ EPS := fun h => h0 (by simp [h])
    simp [strip, this]
  · simp at hc

/-! ### After the determinization -/

open Classical in
theorem vals_nonzero (A : Multiset (PathT (RG W))) (x y : List Label) : sumVal RG.val (nonzero A) x y = sumVal RG.val A x y := by
  unfold sumVal nonzero
  induction A using Multiset.induction_on with
  | empty => simp
  | cons a A ih =>
    rw [Multiset.filter_cons, Multiset.filter_cons]
    by_cases h : a.1 = x ∧ a.2.1 = y
    · by_cases h0 : a.2.2 = 0 <;> simp_all [RG.val_zero]
    · by_cases h0 : a.2.2 = 0
      · rw [if_neg (not_not.2 h0), if_neg h, zero_add, zero_add]; exact ih
      · rw [if_pos h0, if_neg h, zero_add, Multiset.singleton_add, Multiset.filter_cons_of_neg (p := fun p : PathT (RG W) => p.1 = x ∧ p.2.1 = y) _ h]
        exact ih

theorem sumVal_rg (A : Multiset (PathT W)) (x : List Label) :
    sumVal RG.val (A.map fun p => (p.1, p.1, RG.single p.2.1 p.2.2)) x x = sumOf (A.map fun p => (p.1, p.1, GW.single p.2.1 p.2.2)) x x := by
  unfold sumVal sumOf
  rw [Multiset.filter_map, Multiset.filter_map, Multiset.map_map, Multiset.map_map]
  rfl

variable {q : W → R W} {f : Fst W} {ord : DTup (RG W) → Label → List (DElt (RG W)) → List (DElt (RG W))}

/-- What comes of the determinization over gallic weights. -/
theorem f_after (L : DivLaw o good) (hq : q 1 = .ok 1) (ho : Orders ord) (hw : f.WF) (hg : ∀ s, ∀ t ∈ f.trsOf s, good t.weight) {g D : Fst (RG W)}
    (h1 : f.weightConvert (toGallic RG.mk') = .ok g)
    (hok : ∀ t, (detMachine g (rgDet o) ord).Reach t → (∃ as, detTrs g (rgDet o) ord t = .ok as) ∧ ∃ w, detFin g (rgDet o) t = .ok w)
    (hD : D.WF) {nm} (hp : (detMachine g (rgDet o) ord).Presents nm D) :
    ∃ H F, EndsWith (factorWeight D rgFactor (rgQuantize q) detFwOpts) (.ok H) ∧ H.weightConvert (fromGallic (fun v : RG W => extractPair v.1) EPS) = .ok F ∧
      F.WF ∧ F.AllCounters ∧ F.InputDeterministicUpToEps ∧ SameWeightsDelayed f F := by
  have L' := rgDet_law L
  obtain ⟨hi, hfin, -⟩ := toGallic_input (good := RGood good) h1 hw (fun s t ht => ⟨_, _, rfl, hg s t ht, strip_clean _⟩)
  obtain ⟨hs, hac⟩ := det_presents_trs L' ho hi.wf hi.weights hp
  obtain ⟨hex, hfac, hsp⟩ := rg_factor_laws (W := W) hq
  obtain ⟨H, hH, hHw, p1, e1, e2⟩ := C41_paths hex hfac hsp (o := detFwOpts) ⟨rfl, rfl, rfl, rfl⟩ hD (Or.inl rfl)
    (C41_finite hex hfac hD (Or.inr rfl))
  obtain ⟨N, hN⟩ := hH
  obtain ⟨F, hF, f1, f2, f3, p2, e3, e4, e5⟩ := det_tail (J := RgRead) (K := RgClean) (extract := fun v : RG W => extractPair v.1) (mk := RG.single) RG.single_mul hex hD hac
    (fun s => (hs s).imp (fun h => Nat.ne_of_lt h))
    (fun s t ht => by
      obtain ⟨d, a, -, hr, ha, hn⟩ := hp.trs_of s t ht
      obtain ⟨ws, w1, w2, w3⟩ := det_tr_common L' ho hi.wf hi.weights hr ha
      obtain ⟨c, w, k1, k2, k3, -⟩ := rg_commonFold L w1 w2 w3
      rw [hn.2.2.1]
      exact ⟨c, w, k1, k2, k3⟩)
    (fun s v hv _ => by
      obtain ⟨d, -, hr, hfv⟩ := hp.fin_of hv
      have hdg := det_reach_good L' ho hi.wf hi.weights hr
      refine (det_fin_all (P := RgClean) ?_ (fun h => absurd rfl h) ?_ hfv).1
      · intro a b c hc ha hb
        rcases rg_plus_cases L.plus hc with ⟨rfl, rfl⟩ | ⟨rfl, rfl⟩ | ⟨l, x, y, rfl, rfl, rfl⟩
        · exact hb
        · exact ha
        · obtain ⟨c, w, e, h0⟩ := ha (RG.single_ne_zero _ _)
          obtain ⟨rfl, -⟩ := RG.single_inj e
          exact fun _ => ⟨_, _, rfl, h0⟩
      · intro e he
        refine ⟨(hdg e he).1, ?_⟩
        cases hx : g.finOf e.state with
        | none =>
          show RgClean (e.weight * 0)
          rw [mul_zero]; exact fun h => absurd rfl h
        | some x =>
          obtain ⟨w, rfl⟩ := hfin _ _ hx
          obtain ⟨l, y, hl, -, h0⟩ := (hdg e he).2
          intro _
          refine ⟨l ++ [], y * w, ?_, by simpa using h0⟩
          rw [hl]; rfl)
    (fun v hv p hp => rg_factor_step hv p hp) (fun v hv h0 hf => rg_factor_done hv h0 hf) (fun v hv => rg_read hv) (hN N (le_refl _)) hHw
  refine ⟨H, F, ⟨N, hN⟩, hF, f1, f2, f3, ?_⟩
  obtain ⟨part, r1, r2⟩ := regroup (fun p : PathT W => (p.1, p.1, RG.single p.2.1 p.2.2)) e1 (fun n => (e2 n).imp fun D h => h.1) e3 e4 e5
  refine ⟨part, r1, fun n => ?_⟩
  obtain ⟨E, r3, r4⟩ := r2 n
  obtain ⟨E', r5, r6⟩ := e2 n
  refine ⟨E, r3, fun x y => ?_⟩
  have key := det_weights L' ho hi.wf hi.weights hi.acceptor hok n x x
  rw [← hp.accPaths, ← vals_nonzero (D.accPaths n), ← r6, vals_nonzero, ← r4 E' r5,
    C60_to_gallic_paths h1 (fun l m a b => RG.single_mul l m a b) n] at key
  rw [sumVal_rg] at key
  have hk : sumVal RG.val ((f.accPaths n).map fun p => (p.1, p.1, RG.mk' (.labels p.2.1, p.2.2))) x x = sumOf ((f.accPaths n).map fun p => (p.1, p.1, GW.single p.2.1 p.2.2)) x x :=
    sumVal_rg (f.accPaths n) x
  rw [hk] at key
  have := congrArg (GW.coef y) key
  rw [coef_sumOf, coef_sumOf] at this
  exact this

end
end Verif
