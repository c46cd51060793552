import Verif.Model.GallicLeft
import Verif.Props.C59
import Verif.Model.FactorWeight

/-! # The algebra of left gallic weights -/

namespace Verif
open Fst
universe u v
set_option linter.unusedSectionVars false

instance : AddCommMonoid StrW where
  add_assoc := StrW.plusLeft_assoc
  zero_add _ := rfl
  add_zero a := StrW.plusLeft_inf a
  add_comm := StrW.plusLeft_comm
  nsmul := nsmulRec

instance : LeftDistribClass StrW := ⟨StrW.times_plusLeft⟩

theorem StrW.toRight_add (a b : StrW) : (a + b).toRight = a.toRight + b.toRight := by
  show (StrW.plusLeft a b).reverse = StrW.plusRight a.reverse b.reverse
  rw [StrW.plusRight_eq, StrW.reverse_reverse, StrW.reverse_reverse]

theorem StrW.toRight_mul (a b : StrW) : (a * b).toRight = b.toRight * a.toRight := StrW.reverse_times a b

theorem StrW.toLeft_toRight (a : StrW) : a.toRight.toLeft = a := StrW.reverse_reverse a
theorem StrR.toRight_toLeft (a : StrR) : a.toLeft.toRight = a := StrW.reverse_reverse a

theorem StrR.induct {p : StrR → Prop} (h : ∀ a : StrW, p a.toRight) (b : StrR) : p b := by
  rw [← StrR.toRight_toLeft b]; exact h _

instance : AddCommMonoid StrR where
  add_assoc a b c := by
    induction a using StrR.induct with | _ a
    induction b using StrR.induct with | _ b
    induction c using StrR.induct with | _ c
    simp only [← StrW.toRight_add, add_assoc]
  zero_add _ := rfl
  add_zero a := by
    induction a using StrR.induct with | _ a
    exact (StrW.toRight_add a 0).symm.trans (by rw [add_zero])
  add_comm a b := by
    induction a using StrR.induct with | _ a
    induction b using StrR.induct with | _ b
    simp only [← StrW.toRight_add, add_comm]
  nsmul := nsmulRec

instance : RightDistribClass StrR := ⟨fun a b c => by
  induction a using StrR.induct with | _ a
  induction b using StrR.induct with | _ b
  induction c using StrR.induct with | _ c
  simp only [← StrW.toRight_add, ← StrW.toRight_mul, mul_add]⟩

section
variable {W : Type u} {V : Type v} [Semiring W] [DecidableEq W] [Semiring V] [DecidableEq V]

instance : LeftDistribClass (StrW × W) := ⟨fun a b c => Prod.ext (mul_add a.1 b.1 c.1) (mul_add a.2 b.2 c.2)⟩
instance : RightDistribClass (StrR × V) := ⟨fun a b c => Prod.ext (add_mul a.1 b.1 c.1) (add_mul a.2 b.2 c.2)⟩

example : (inferInstance : MonoidWithZero (StrW × W)).toZero = (inferInstance : AddCommMonoid (StrW × W)).toZero := by with_reducible_and_instances rfl

/-- The gallic weights that occur: zero, or a string without `ε` and a weight that is not zero. -/
def GProp (P : W → Prop) (a : StrW × W) : Prop := a = 0 ∨ ∃ l w, a = (.labels l, w) ∧ w ≠ 0 ∧ P w ∧ EPS ∉ l

theorem gprop_ne {P : W → Prop} {a : StrW × W} (h : GProp P a) (h0 : a ≠ 0) : ∃ l w, a = (.labels l, w) ∧ w ≠ 0 ∧ P w ∧ EPS ∉ l := h.resolve_left h0

theorem gpair_ne_zero (l : List Label) (w : W) : ((.labels l, w) : StrW × W) ≠ 0 := by
  intro h
  have := congrArg Prod.fst h
  cases this

theorem common_prefix_left (a b : List Label) : ∃ c, a = StrW.common a b ++ c := by
  obtain ⟨⟨c, hc⟩, -⟩ := StrW.isLcp_common a b
  exact ⟨c, hc.symm⟩

variable {divL divR : W → W → R W} {P : W → Prop} {rev : W → V} {back : V → W} {sf : SemiringFlags} {eqv : V → V → Bool}
  {q : W → R W} {qf : W → W} {lt : W → W → Bool} {merge : List (List (Tr V)) → List (Tr V)}

theorem gadd (l m : List Label) (a b : W) : ((.labels l, a) : StrW × W) + (.labels m, b) = (.labels (StrW.common l m), a + b) := rfl
theorem gmul_pair (l m : List Label) (a b : W) : ((.labels l, a) : StrW × W) * (.labels m, b) = (.labels (l ++ m), a * b) := rfl

theorem gallic_closed (h : WeakLeft divL P) (h10 : (1 : W) ≠ 0) : Closed (GProp P) := by
  refine ⟨.inl rfl, .inr ⟨[], 1, rfl, h10, h.closed.one, by simp⟩, ?_, ?_⟩
  · rintro a b (rfl | ⟨l, x, rfl, hx, px, hl⟩) hb
    · rwa [zero_add]
    · rcases hb with rfl | ⟨m, y, rfl, hy, py, hm⟩
      · rw [add_zero]; exact .inr ⟨l, x, rfl, hx, px, hl⟩
      · refine .inr ⟨_, _, gadd l m x y, fun h0 => hx (h.zeroSumFree x y px py h0), h.closed.add _ _ px py, fun hc => hl ?_⟩
        obtain ⟨c, hc'⟩ := common_prefix_left l m
        rw [hc']; exact List.mem_append_left _ hc
  · rintro a b (rfl | ⟨l, x, rfl, hx, px, hl⟩) hb
    · left; exact zero_mul b
    · rcases hb with rfl | ⟨m, y, rfl, hy, py, hm⟩
      · left; exact mul_zero _
      · refine .inr ⟨_, _, gmul_pair l m x y, fun h0 => ?_, h.closed.mul _ _ px py, ?_⟩
        · rcases h.noZeroDiv x y px py h0 with h0 | h0
          · exact hx h0
          · exact hy h0
        · simp [hl, hm]

theorem gallic_div (h : WeakLeft divL P) (h10 : (1 : W) ≠ 0) : WeakLeft (gallicDivL divL) (GProp P) := by
  refine ⟨gallic_closed h h10, ?_, ?_, ?_⟩
  · rintro a b (rfl | ⟨l, x, rfl, hx, px, hl⟩) (rfl | ⟨m, y, rfl, hy, py, hm⟩) e
    · exact .inl rfl
    · exact .inl rfl
    · exact .inr rfl
    · exact absurd e (gpair_ne_zero _ _)
  · rintro a b (rfl | ⟨l, x, rfl, hx, px, hl⟩) (rfl | ⟨m, y, rfl, hy, py, hm⟩) e
    · rfl
    · rfl
    · rw [add_zero] at e; exact e
    · exact absurd e (gpair_ne_zero _ _)
  · rintro a b (rfl | ⟨l, x, rfl, hx, px, hl⟩) (rfl | ⟨m, y, rfl, hy, py, hm⟩) e
    · rw [add_zero] at e; exact absurd rfl e
    · obtain ⟨v, h1, h2⟩ := h.div 0 y h.closed.zero py (by rwa [zero_add])
      refine ⟨(.inf, v), ?_, ?_⟩
      · rw [zero_add] at h1 ⊢
        show pairR (StrW.divideLeft .inf (.labels m)) (divL 0 y) = _
        rw [h1]; rfl
      · rw [zero_add] at h2 ⊢
        exact Prod.ext rfl h2
    · obtain ⟨v, h1, h2⟩ := h.div x 0 px h.closed.zero (by rwa [add_zero])
      rw [add_zero] at h1 h2
      refine ⟨(.labels [], v), ?_, ?_⟩
      · rw [add_zero]
        show pairR (StrW.divideLeft (.labels l) (.labels l)) (divL x x) = _
        rw [h1]
        simp [StrW.divideLeft, pairR]
      · rw [add_zero, gmul_pair, h2, List.append_nil]
    · have hs : x + y ≠ 0 := fun h0 => hx (h.zeroSumFree x y px py h0)
      obtain ⟨v, h1, h2⟩ := h.div x y px py hs
      obtain ⟨c, hc⟩ := common_prefix_left l m
      refine ⟨(.labels c, v), ?_, ?_⟩
      · rw [gadd]
        show pairR (.ok (StrW.labels (l.drop (StrW.common l m).length))) (divL x (x + y)) = _
        rw [h1]
        have : l.drop (StrW.common l m).length = c := by
          conv_lhs => rw [hc]
          rw [List.drop_append, ← hc]
          simp
        rw [this]; rfl
      · rw [gadd, gmul_pair, h2, ← hc]

/-- Dividing stays among the weights that occur. -/
theorem gallic_div_in (hdP : ∀ a b v, P a → P b → b ≠ 0 → divL a b = .ok v → P v) (hd0 : ∀ a b v, P a → P b → b ≠ 0 → divL a b = .ok v → (v = 0 ↔ a = 0))
    (h0 : P 0) : ∀ a b v, GProp P a → GProp P b → b ≠ 0 → gallicDivL divL a b = .ok v → GProp P v := by
  rintro a b v ha hb hb0 h
  obtain ⟨m, y, rfl, hy, py, hm⟩ := gprop_ne hb hb0
  rcases ha with rfl | ⟨l, x, rfl, hx, px, hl⟩
  · rw [show gallicDivL divL 0 ((.labels m, y) : StrW × W) = pairR (.ok .inf) (divL 0 y) from rfl] at h
    cases hd : divL 0 y with
    | error e => rw [hd] at h; cases h
    | ok w =>
      rw [hd] at h
      injection h with h
      left
      rw [← h, (hd0 0 y w h0 py hy hd).2 rfl]
      rfl
  · rw [show gallicDivL divL (.labels l, x) ((.labels m, y) : StrW × W) = pairR (.ok (.labels (l.drop m.length))) (divL x y) from rfl] at h
    cases hd : divL x y with
    | error e => rw [hd] at h; cases h
    | ok w =>
      rw [hd] at h
      injection h with h
      right
      exact ⟨_, w, h.symm, fun hw => hx ((hd0 x y w px py hy hd).1 hw), hdP _ _ _ px py hy hd, fun hc => hl (List.mem_of_mem_drop hc)⟩

/-- If the weights meet the conditions of `minimize`, so do the gallic weights. -/
theorem MinLaw.gallic (L : MinLaw divL P rev back sf eqv q qf lt merge) {merge' : List (List (Tr (StrR × V))) → List (Tr (StrR × V))} (hm : HeapMerge merge') :
    MinLaw (gallicDivL divL) (GProp P) (gallicRev rev) (gallicBack back) (gallicRightFlags sf) (gallicEqv eqv) (prodQuantize strQuantize q)
      (fun a => (a.1, qf a.2)) (gallicLt lt) merge' where
  mul_zero' := mul_zero
  zero_mul' := zero_mul
  back_rev a := Prod.ext (StrW.toLeft_toRight a.1) (L.back_rev a.2)
  rev_back a := Prod.ext (StrR.toRight_toLeft a.1) (L.rev_back a.2)
  zero := Prod.ext rfl L.zero
  one := Prod.ext rfl L.one
  add a b := Prod.ext (StrW.toRight_add a.1 b.1) (L.add a.2 b.2)
  mul a b := Prod.ext (StrW.toRight_mul a.1 b.1) (L.mul a.2 b.2)
  exact a b := by
    rw [gallicEqv, Bool.and_eq_true, decide_eq_true_iff, L.exact]
    exact ⟨fun h => Prod.ext h.1 h.2, fun h => by rw [h]; exact ⟨rfl, rfl⟩⟩
  right := by
    show (true && sf.right) = true
    rw [L.right]; rfl
  idem h a := by
    have : sf.idempotent = true := by
      simp only [gallicRightFlags, SemiringFlags.prod, Bool.and_eq_true] at h
      exact h.2
    exact Prod.ext (StrW.plusLeft_self a.1) (L.idem this a.2)
  div := gallic_div L.div (by
    intro h
    have := L.lt_ok.ne
    rw [h, L.lt_ok.zero] at this
    cases this)
  round a := by
    show pairR (.ok a.1) (q a.2) = _
    rw [L.round]; rfl
  lt_ok := by
    refine ⟨?_, ?_, ?_⟩
    · show (false || (decide _ && lt 0 0)) = false
      rw [L.lt_ok.zero, Bool.and_false]; rfl
    · show (decide (([] : List Label) < []) || (decide _ && lt 1 1)) = false
      rw [L.lt_ok.one, Bool.and_false]; rfl
    · rfl
  heap := hm

end
end Verif
