import Verif.Props.C60
import Mathlib.Algebra.BigOperators.Group.List.Basic

/-! # Proper gallic weights as sums of single strings -/

namespace Verif
universe u
variable {W : Type u} [Semiring W]

namespace GW

theorem toAlg_single (l : List Label) (w : W) : toAlg (single l w).1 = gterm (.labels l, w) := by
  show gterm _ + 0 = _
  rw [add_zero]

theorem single_add (l : List Label) (a b : W) : single l a + single l b = single l (a + b) := by
  refine ext' ?_
  rw [toAlg_add, toAlg_single, toAlg_single, toAlg_single]
  unfold gterm
  show _ = MonoidAlgebra.single _ ((a + b : W) : WithZero W)
  rw [WithZero.coe_add]
  apply MonoidAlgebra.ext
  rw [MonoidAlgebra.coeff_add, MonoidAlgebra.coeff_single, MonoidAlgebra.coeff_single, MonoidAlgebra.coeff_single]
  exact (Finsupp.single_add (FreeMonoid.ofList l) (a : WithZero W) (b : WithZero W)).symm

/-- The coefficient of a string. -/
theorem mem_iff_coeff {v : GW W} {k : List Label} {w : W} : (.labels k, w) ∈ v.1 ↔ (toAlg v.1).coeff (FreeMonoid.ofList k) = (w : WithZero W) := by
  obtain ⟨l, hl⟩ := v
  show (.labels k, w) ∈ l ↔ (toAlg l).coeff _ = _
  induction l with
  | nil => simp [toAlg]
  | cons a l ih =>
    by_cases hk : gkey a = k
    · have hh := coeff_toAlg_head hl
      rw [← hk, hh]
      have hrest : ∀ w', ((.labels (gkey a), w') : StrW × W) ∉ l := by
        intro w' hm
        have := (List.pairwise_cons.1 hl.2).1 _ hm
        rw [show gkey ((.labels (gkey a), w') : StrW × W) = gkey a from rfl, sless_irrefl] at this
        cases this
      simp only [List.mem_cons, hrest, or_false, WithZero.coe_inj]
      constructor
      · intro h; rw [← h]
      · intro h; rw [← h]; exact (gproper_eq (hl.1 a (by simp))).symm
    · rw [toAlg, MonoidAlgebra.coeff_add, Finsupp.add_apply, coeff_gterm_ne hk, zero_add, ← ih hl.tail]
      simp only [List.mem_cons, or_iff_right_iff_imp]
      intro h; rw [← h] at hk; exact absurd rfl hk

theorem ext_mem {a b : GW W} (h : ∀ k w, (.labels k, w) ∈ a.1 ↔ (.labels k, w) ∈ b.1) : a = b := by
  refine ext' (MonoidAlgebra.ext ?_)
  ext k
  have hk : k = FreeMonoid.ofList (FreeMonoid.toList k) := rfl
  rw [hk]
  cases ha : (toAlg a.1).coeff (FreeMonoid.ofList (FreeMonoid.toList k)) using WithZero.recZeroCoe with
  | zero =>
    cases hb : (toAlg b.1).coeff (FreeMonoid.ofList (FreeMonoid.toList k)) using WithZero.recZeroCoe with
    | zero => rfl
    | coe w =>
      rw [← mem_iff_coeff, ← h, mem_iff_coeff, ha] at hb
      exact absurd hb (by simp)
  | coe w =>
    rw [← mem_iff_coeff, h, mem_iff_coeff] at ha
    rw [ha]

/-- The entries of a sum. -/
theorem mem_add {a b : GW W} {k : List Label} {w : W} (h : (.labels k, w) ∈ (a + b).1) :
    (.labels k, w) ∈ a.1 ∨ (.labels k, w) ∈ b.1 ∨ ∃ x y, (.labels k, x) ∈ a.1 ∧ (.labels k, y) ∈ b.1 ∧ w = x + y := by
  rw [mem_iff_coeff, toAlg_add, MonoidAlgebra.coeff_add, Finsupp.add_apply] at h
  simp only [mem_iff_coeff]
  cases ha : (toAlg a.1).coeff (FreeMonoid.ofList k) using WithZero.recZeroCoe with
  | zero => rw [ha, zero_add] at h; exact .inr (.inl h)
  | coe x =>
    cases hb : (toAlg b.1).coeff (FreeMonoid.ofList k) using WithZero.recZeroCoe with
    | zero => rw [ha, hb, add_zero] at h; exact .inl h
    | coe y =>
      rw [ha, hb, ← WithZero.coe_add, WithZero.coe_inj] at h
      exact .inr (.inr ⟨x, y, rfl, rfl, h.symm⟩)

theorem zero_iff {v : GW W} : v = 0 ↔ v.1 = [] := ⟨fun h => by rw [h]; rfl, fun h => Subtype.ext h⟩

theorem add_ne_zero {a b : GW W} (h : a ≠ 0) : a + b ≠ 0 := by
  intro e
  apply h
  rw [zero_iff]
  by_contra hne
  obtain ⟨x, hx⟩ := List.exists_mem_of_ne_nil _ hne
  rw [gproper_eq (a.2.1 x hx), mem_iff_coeff] at hx
  have : (toAlg (a + b).1).coeff (FreeMonoid.ofList (gkey x)) = 0 := by rw [e, toAlg_zero]; simp
  rw [toAlg_add, MonoidAlgebra.coeff_add, Finsupp.add_apply, hx] at this
  cases hb : (toAlg b.1).coeff (FreeMonoid.ofList (gkey x)) using WithZero.recZeroCoe with
  | zero => rw [hb, add_zero] at this; simp at this
  | coe y => rw [hb, ← WithZero.coe_add] at this; exact WithZero.coe_ne_zero this

theorem single_ne_zero (l : List Label) (w : W) : single l w ≠ 0 := by
  rw [Ne, zero_iff]; simp [single]

/-- A proper gallic weight is the sum of its entries. -/
theorem eq_sum (v : GW W) : v = (v.1.map fun e => single (gkey e) e.2).sum := by
  refine ext' ?_
  have : ∀ l : List (StrW × W), (∀ a ∈ l, GProper a) → toAlg ((l.map fun e => single (gkey e) e.2).sum).1 = toAlg l := by
    intro l
    induction l with
    | nil => intro _; rfl
    | cons a l ih =>
      intro h
      rw [List.map_cons, List.sum_cons, toAlg_add, ih (fun b hb => h b (by simp [hb])), toAlg_single, ← gproper_eq (h a (by simp)), toAlg]
  exact (this v.1 v.2.1).symm

/-- What holds of all entries. -/
def Every (Q : List Label → W → Prop) (v : GW W) : Prop := ∀ k w, (.labels k, w) ∈ v.1 → Q k w

theorem every_zero (Q : List Label → W → Prop) : Every Q 0 := fun _ _ h => by cases h

theorem every_single {Q : List Label → W → Prop} {l w} : Every Q (single l w) ↔ Q l w := by
  constructor
  · intro h; exact h l w (by simp [single])
  · intro h k x hx
    simp only [single, List.mem_singleton, Prod.mk.injEq, StrW.labels.injEq] at hx
    rw [hx.1, hx.2]; exact h

theorem every_add {Q : List Label → W → Prop} (hQ : ∀ k a b, Q k a → Q k b → Q k (a + b)) {a b : GW W} (ha : Every Q a) (hb : Every Q b) : Every Q (a + b) := by
  intro k w h
  rcases mem_add h with h | h | ⟨x, y, hx, hy, rfl⟩
  · exact ha k w h
  · exact hb k w h
  · exact hQ k x y (ha k x hx) (hb k y hy)

theorem every_sum {Q : List Label → W → Prop} (hQ : ∀ k a b, Q k a → Q k b → Q k (a + b)) {l : List (GW W)} (h : ∀ v ∈ l, Every Q v) : Every Q l.sum := by
  induction l with
  | nil => exact every_zero Q
  | cons a l ih => rw [List.sum_cons]; exact every_add hQ (h a (by simp)) (ih fun v hv => h v (by simp [hv]))

theorem every_mul {P Q R' : List Label → W → Prop} (hR : ∀ k a b, R' k a → R' k b → R' k (a + b)) (hm : ∀ k l a b, P k a → Q l b → R' (k ++ l) (a * b))
    {a b : GW W} (ha : Every P a) (hb : Every Q b) : Every R' (a * b) := by
  rw [eq_sum a, ← List.sum_map_mul_right]
  refine every_sum hR fun v hv => ?_
  obtain ⟨x, hx, rfl⟩ := List.mem_map.1 hv
  rw [eq_sum b, ← List.sum_map_mul_left]
  refine every_sum hR fun v hv => ?_
  obtain ⟨y, hy, rfl⟩ := List.mem_map.1 hv
  rw [single_mul, every_single]
  refine hm _ _ _ _ (ha _ _ ?_) (hb _ _ ?_)
  · rw [← gproper_eq (a.2.1 x hx)]; exact hx
  · rw [← gproper_eq (b.2.1 y hy)]; exact hy

theorem sum_ne_zero {l : List (GW W)} {v : GW W} (hv : v ∈ l) (h : v ≠ 0) : l.sum ≠ 0 := by
  induction l with
  | nil => cases hv
  | cons a l ih =>
    rw [List.sum_cons]
    rcases List.mem_cons.1 hv with rfl | hv
    · exact add_ne_zero h
    · rw [add_comm]; exact add_ne_zero (ih hv)

theorem mul_ne_zero' {a b : GW W} (ha : a ≠ 0) (hb : b ≠ 0) : a * b ≠ 0 := by
  have h : ∀ v : GW W, v ≠ 0 → ∃ e ∈ v.1, v = single (gkey e) e.2 + (v.1.tail.map fun e => single (gkey e) e.2).sum := by
    intro v hv
    have := eq_sum v
    obtain ⟨l, hl⟩ := v
    cases l with
    | nil => exact absurd rfl hv
    | cons e l => exact ⟨e, by simp, this.trans (by simp only [List.map_cons, List.sum_cons]; rfl)⟩
  obtain ⟨x, _, ex⟩ := h a ha
  obtain ⟨y, _, ey⟩ := h b hb
  rw [ex, ey, add_mul, mul_add, single_mul]
  exact add_ne_zero (add_ne_zero (single_ne_zero _ _))

/-! ### Coefficients -/

/-- A weight with a new zero, the zeros made one. -/
def unzeroAdd : WithZero W → W
  | none => 0
  | some w => w

theorem unzeroAdd_add (a b : WithZero W) : unzeroAdd (a + b) = unzeroAdd a + unzeroAdd b := by
  cases a using WithZero.recZeroCoe with
  | zero => rw [zero_add]; exact (zero_add _).symm
  | coe a =>
    cases b using WithZero.recZeroCoe with
    | zero => rw [add_zero]; exact (add_zero _).symm
    | coe b => rw [← WithZero.coe_add]; rfl

/-- The weight a gallic weight gives the string `y`. -/
noncomputable def coef (y : List Label) (v : GW W) : W := unzeroAdd ((toAlg v.1).coeff (FreeMonoid.ofList y))

theorem coef_zero (y : List Label) : coef y (0 : GW W) = 0 := by
  unfold coef; rw [toAlg_zero]; rfl

theorem coef_add (y : List Label) (a b : GW W) : coef y (a + b) = coef y a + coef y b := by
  unfold coef
  rw [toAlg_add, MonoidAlgebra.coeff_add, Finsupp.add_apply, unzeroAdd_add]

theorem coef_single (y l : List Label) (w : W) : coef y (single l w) = if l = y then w else 0 := by
  unfold coef
  rw [toAlg_single]
  split
  · rename_i h
    subst h
    have := coeff_gterm_self ((.labels l, w) : StrW × W)
    rw [show gkey ((.labels l, w) : StrW × W) = l from rfl] at this
    rw [this]; rfl
  · rename_i h
    rw [coeff_gterm_ne (by exact h)]; rfl

end GW
end Verif
