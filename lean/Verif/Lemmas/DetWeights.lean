import Verif.Lemmas.Determinize
import Verif.Lemmas.Weights
import Mathlib.Algebra.Group.Subgroup.ZPowers.Basic
import Mathlib.Algebra.Order.Floor.Ring

/-! # Determinization: the weights of the library -/

namespace Verif
set_option linter.unusedSectionVars false
universe u
variable {W : Type u}

theorem Sums.good {o : DetOps W} [Add W] (hp : ∀ a b, o.plus a b = .ok (a + b)) {good : W → Prop} (ha : ∀ a b, good a → good b → good (a + b))
    {ws : List W} (hw : ∀ x ∈ ws, good x) {w : W} (h : Sums o ws w) : good w := by
  induction h with
  | one h => exact hw _ h
  | more _ hb hc ih =>
    rw [hp] at hc; injection hc with hc
    rw [← hc]; exact ha _ _ ih (hw _ hb)

theorem Sums.nonempty {o : DetOps W} {ws : List W} {w : W} (h : Sums o ws w) : ws ≠ [] := by
  induction h with
  | one h => exact List.ne_nil_of_mem h
  | more _ _ _ ih => exact ih

theorem commonFold_good {o : DetOps W} [Semiring W] [DecidableEq W] (hc : ∀ a b, o.common a b = .ok (a + b)) {good : W → Prop}
    (ha : ∀ a b, good a → good b → good (a + b)) {ws : List W} (hn : ws ≠ []) (hw : ∀ x ∈ ws, good x) {d : W}
    (h : commonFold o 0 ws = .ok d) : good d := by
  have key : ∀ (ws : List W) (c : W), good c → (∀ x ∈ ws, good x) → commonFold o c ws = .ok d → good d := by
    intro ws
    induction ws with
    | nil => intro c hg _ h; simp only [commonFold, Except.ok.injEq] at h; exact h ▸ hg
    | cons w ws ih =>
      intro c hg hws h
      rw [commonFold, hc] at h
      exact ih (c + w) (ha _ _ hg (hws w (by simp))) (fun x hx => hws x (by simp [hx])) h
  cases ws with
  | nil => exact absurd rfl hn
  | cons w ws =>
    rw [commonFold, hc] at h
    exact key ws _ (by rw [zero_add]; exact hw w (by simp)) (fun x hx => hw x (by simp [hx])) h

/-- Sums as divisors in a semiring with division. -/
theorem det_of_division [Semiring W] [DecidableEq W] {o : DetOps W} {good : W → Prop} (hp : ∀ a b, o.plus a b = .ok (a + b))
    (hc : ∀ a b, o.common a b = .ok (a + b)) (h1 : good 1) (hm : ∀ a b, good a → good b → good (a * b))
    (ha : ∀ a b, good a → good b → good (a + b))
    (hd : ∀ a d, good a → good d → ∃ q q', o.divide a d = .ok q ∧ o.quantize q = .ok q' ∧ d * q' = a ∧ good q') :
    DetLaw o (id : W → W) good ∧ DetTotal o good := by
  refine ⟨⟨rfl, rfl, fun _ _ => rfl, ?_, h1, hm, ?_⟩, ⟨fun a b => ⟨_, hp a b⟩, fun a b => ⟨_, hc a b⟩, ?_⟩⟩
  · intro a b c h
    rw [hp] at h; injection h with h
    exact h.symm
  · intro ws d w q q' hw hcm hs e1 e2
    obtain ⟨r, r', f1, f2, f3, f4⟩ := hd w d (hs.good hp ha hw) (commonFold_good hc ha hs.nonempty hw hcm)
    rw [e1] at f1; injection f1 with f1; subst f1
    rw [e2] at f2; injection f2 with f2; subst f2
    exact ⟨f3, f4⟩
  · intro ws d w hw hcm hs
    obtain ⟨r, r', f1, f2, f3, f4⟩ := hd w d (hs.good hp ha hw) (commonFold_good hc ha hs.nonempty hw hcm)
    exact ⟨r, r', f1, f2⟩

/-- A quotient that is not a number is outside the model; it is shown as a panic. -/
def numOr {α : Type u} : Option α → R α
  | some x => .ok x
  | none => .error .panic

/-! ### Tropical weights -/

section
variable {K : Type} [LinearOrder K]

/-- `TropicalWeight` with `DefaultCommonDivisor` (divisors.rs 15-23); `q` is the quantization of finite values. -/
def tropDet [Add K] [Sub K] (q : K → K) : DetOps (TW K) where
  plus a b := .ok (TW.plus a b)
  common a b := .ok (TW.plus a b)
  divide a b := numOr (TW.divide a b)
  quantize w := .ok (match w with
    | .fin x => .fin (q x)
    | w => w)
  leftSemiring := true

variable [AddCommGroup K] [IsOrderedAddMonoid K]

/-- The finite weights in the subgroup `G`. -/
def FinIn (G : AddSubgroup K) (w : TW K) : Prop := ∃ x ∈ G, w = .fin x

/-- Tropical weights can be determinized when they are finite and quantization leaves them alone. -/
theorem tropDet_law (q : K → K) (G : AddSubgroup K) (hq : ∀ x ∈ G, q x = x) :
    DetLaw (tropDet q) (id : TW K → TW K) (FinIn G) ∧ DetTotal (tropDet q) (FinIn G) := by
  refine det_of_division (fun _ _ => rfl) (fun _ _ => rfl) ⟨0, G.zero_mem, rfl⟩ ?_ ?_ ?_
  · rintro _ _ ⟨x, hx, rfl⟩ ⟨y, hy, rfl⟩
    exact ⟨x + y, G.add_mem hx hy, rfl⟩
  · rintro _ _ ⟨x, hx, rfl⟩ ⟨y, hy, rfl⟩
    show FinIn G (TW.plus _ _)
    rw [TW.plus_fin]
    rcases min_choice x y with h | h
    · rw [h]; exact ⟨x, hx, rfl⟩
    · rw [h]; exact ⟨y, hy, rfl⟩
  · rintro _ _ ⟨x, hx, rfl⟩ ⟨y, hy, rfl⟩
    refine ⟨.fin (x - y), .fin (x - y), rfl, ?_, ?_, x - y, G.sub_mem hx hy, rfl⟩
    · simp only [tropDet, hq _ (G.sub_mem hx hy)]
    · show TW.times (.fin y) (.fin (x - y)) = .fin x
      simp [TW.times]

theorem tropDet_exact : DetLaw (tropDet (K := K) id) (id : TW K → TW K) (FinIn ⊤) ∧ DetTotal (tropDet (K := K) id) (FinIn ⊤) :=
  tropDet_law id ⊤ fun _ _ => rfl

end

/-- Quantization leaves the multiples of `delta` alone. -/
theorem quantize_multiple {K : Type} [Field K] [LinearOrder K] [IsStrictOrderedRing K] [FloorRing K] {delta : K} (hd : delta ≠ 0) (x : K)
    (hx : x ∈ AddSubgroup.zmultiples delta) : quantize delta x = x := by
  obtain ⟨n, rfl⟩ := AddSubgroup.mem_zmultiples_iff.1 hx
  unfold quantize
  rw [zsmul_eq_mul, mul_div_cancel_right₀ _ hd]
  have : ⌊(n : K) + 1 / 2⌋ = n := by
    rw [Int.floor_eq_iff]
    constructor
    · have : (0 : K) ≤ 1 / 2 := by positivity
      linarith
    · have : (1 / 2 : K) < 1 := by norm_num
      linarith
  rw [this]

theorem tropDet_grid {K : Type} [Field K] [LinearOrder K] [IsStrictOrderedRing K] [FloorRing K] {delta : K} (hd : delta ≠ 0) :
    DetLaw (tropDet (quantize delta)) (id : TW K → TW K) (FinIn (AddSubgroup.zmultiples delta)) ∧
    DetTotal (tropDet (quantize delta)) (FinIn (AddSubgroup.zmultiples delta)) :=
  tropDet_law _ _ (quantize_multiple hd)

/-! ### Log weights and probabilities, without quantization -/

/-- `LogWeight` with `DefaultCommonDivisor`; quantization idealised away. -/
noncomputable def logDet : DetOps LW where
  plus a b := .ok (LW.plus a b)
  common a b := .ok (LW.plus a b)
  divide a b := numOr (LW.divide a b)
  quantize w := .ok w
  leftSemiring := true

open Classical in
theorem logDet_law : DetLaw logDet (id : LW → LW) (fun w => w ≠ 0) ∧ DetTotal logDet (fun w : LW => w ≠ 0) := by
  have h0 : (0 : LW) = .inf := rfl
  refine det_of_division (fun _ _ => rfl) (fun _ _ => rfl) ?_ ?_ ?_ ?_
  · intro h; cases h
  · intro a b ha hb
    cases a with
    | inf => exact absurd rfl ha
    | fin x => cases b with
      | inf => exact absurd rfl hb
      | fin y => intro h; cases h
  · intro a b ha hb h
    cases a with
    | inf => exact absurd rfl ha
    | fin x => cases b with
      | inf => exact absurd rfl hb
      | fin y =>
        have h : LW.plus (.fin x) (.fin y) = .inf := h
        simp only [LW.plus] at h
        split at h <;> cases h
  · intro a d ha hd
    cases a with
    | inf => exact absurd rfl ha
    | fin x => cases d with
      | inf => exact absurd rfl hd
      | fin y =>
        refine ⟨.fin (x - y), .fin (x - y), rfl, rfl, ?_, fun h => by cases h⟩
        show LW.times (.fin y) (.fin (x - y)) = .fin x
        simp [LW.times]

/-- `ProbabilityWeight` with `DefaultCommonDivisor`; quantization idealised away. -/
def probDet {K : Type} [Field K] [DecidableEq K] : DetOps K where
  plus a b := .ok (a + b)
  common a b := .ok (a + b)
  divide := probDivide
  quantize w := .ok w
  leftSemiring := true

theorem probDet_law {K : Type} [Field K] [LinearOrder K] [IsStrictOrderedRing K] :
    DetLaw (probDet (K := K)) (id : K → K) (fun w => 0 < w) ∧ DetTotal (probDet (K := K)) (fun w => 0 < w) := by
  refine det_of_division (fun _ _ => rfl) (fun _ _ => rfl) one_pos (fun _ _ => mul_pos) (fun _ _ => add_pos) ?_
  intro a d ha hd
  refine ⟨a / d, a / d, ?_, rfl, mul_div_cancel₀ _ hd.ne', div_pos ha hd⟩
  simp [probDet, probDivide, hd.ne']

end Verif
