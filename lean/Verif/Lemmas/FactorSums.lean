import Verif.Lemmas.FactorWeight

/-! # Factoring weights: sums and products of factors -/

namespace Verif
set_option linter.unusedSectionVars false
universe u v
variable {W : Type u} {T : Type v}

section sums
variable [Semiring W] [DecidableEq W] {f : Fst W} {factors : W → List (W × W)} {quantize : W → R W} {o : FwOpts}

/-- The products of the factors of `w` sum up to `w`. -/
def Factorizes (factors : W → List (W × W)) : Prop := ∀ w, factors w ≠ [] → ((factors w).map fun p => p.1 * p.2).sum = w

theorem sum_map_mul_right' {α : Type*} (l : List α) (g : α → W) (c : W) : (l.map fun a => g a * c).sum = (l.map g).sum * c := by
  induction l with
  | nil => simp
  | cons a l ih => simp [ih, add_mul]

theorem sum_map_mul_left' {α : Type*} (l : List α) (g : α → W) (c : W) : (l.map fun a => c * g a).sum = c * (l.map g).sum := by
  induction l with
  | nil => simp
  | cons a l ih => simp [ih, mul_add]

theorem total_below_succ {M : Machine T W} {P : T → Bool} (D n t F) : total (M.legsBelow P D (n + 1) t) F =
    (((M.trs t).filter fun a => P a.next).map fun a => a.weight * total (M.legsBelow P D n a.next)
      (fun x y => F (strip a.ilabel ++ x) (strip a.olabel ++ y))).sum := by
  rw [below_succ, total_bind, Multiset.map_coe, Multiset.sum_coe]
  simp only [total_cat, MTr.asPath]

theorem total_below_zero {M : Machine T W} {P : T → Bool} (D t F) : total (M.legsBelow P (D + 1) 0 t) F =
    (match M.fin t with | none => 0 | some w => w * F [] []) +
    (((M.trs t).filter fun a => !P a.next).map fun a => a.weight * total (M.legsBelow P D 0 a.next)
      (fun x y => F (strip a.ilabel ++ x) (strip a.olabel ++ y))).sum := by
  rw [below_zero]
  have : ∀ A B : Multiset (PathT W), total (A + B) F = total A F + total B F := by intro A B; simp [total]
  rw [this, total_bind, Multiset.map_coe, Multiset.sum_coe]
  simp only [total_cat, MTr.asPath]
  congr 1
  rw [Machine.legsFrom]
  cases M.fin t <;> simp [total]

variable (hq : Exact factors quantize) (hd : Factoring factors) (hs : Factorizes factors) (ho : o.Plain)
include hq hd hs ho

theorem closes_total (depth : W → Nat) (hdp : ∀ w, ∀ p ∈ factors w, depth p.2 < depth w) : ∀ (m : Nat) (w : W), depth w < m → ∀ (D : Nat) (t : FwElt W) F,
    Closes (fwMachine f factors quantize o) (finFacs factors o) t w →
    (∀ k, D ≤ k → (fwMachine f factors quantize o).legsFrom FwElt.following 0 k t = 0) →
    total ((fwMachine f factors quantize o).legsBelow FwElt.following D 0 t) F = w * F [] [] := by
  intro m
  induction m with
  | zero => intro w h; omega
  | succ m ih =>
    intro w hw D t F hc hD
    rw [← below_more (hD D (le_refl _)), total_below_zero, hc.1, hc.2]
    by_cases h : finFacs factors o w = []
    · simp only [h, List.map_nil, List.sum_nil, add_zero]
      by_cases hw0 : w = 0
      · simp [hw0]
      · simp [hw0]
    · have hne : finFacs factors o w = factors w := by
        unfold finFacs at h ⊢
        split
        · rename_i h'; simp [h'] at h
        · rfl
      simp only [h, and_false, if_false, zero_add, List.map_map, Function.comp_def]
      have hstep : ∀ p ∈ finFacs factors o w, p.1 * total ((fwMachine f factors quantize o).legsBelow FwElt.following D 0 ⟨none, p.2⟩)
          (fun x y => F (strip EPS ++ x) (strip EPS ++ y)) = p.1 * p.2 * F [] [] := by
        intro p hp
        rw [ih p.2 (by have := hdp w p (hne ▸ hp); omega) D ⟨none, p.2⟩ _ (closes_none hq ho p.2)]
        · simp [strip, mul_assoc]
        · intro k hk
          have := (legs_zero_succ_eq k t).1 (hD (k + 1) (by omega))
          have hmem : (⟨EPS, EPS, p.1, ⟨none, p.2⟩⟩ : MTr (FwElt W) W) ∈ ((fwMachine f factors quantize o).trs t).filter fun a => !a.next.following := by
            rw [hc.2]; exact List.mem_map.2 ⟨p, hp, rfl⟩
          exact this _ (List.mem_filter.1 hmem).1 rfl
      rw [List.map_congr_left hstep, sum_map_mul_right', hne, hs w (hne ▸ h)]

theorem fw_total (hf : f.WF) : ∀ (n D : Nat) (s : StateId) (w : W) F, s < f.numStates →
    (∀ k, D ≤ k → (fwMachine f factors quantize o).legsFrom FwElt.following n k ⟨some s, w⟩ = 0) →
    total ((fwMachine f factors quantize o).legsBelow FwElt.following D n ⟨some s, w⟩) F = w * total (f.pathsFrom n s) F := by
  obtain ⟨depth, hdp⟩ := id hd
  intro n
  induction n with
  | zero =>
    intro D s w F hlt hD
    by_cases hv : ∃ v, f.finOf s = some v ∧ v ≠ 0
    · obtain ⟨v, hv, hv0⟩ := hv
      rw [closes_total hq hd hs ho depth hdp (depth (w * v) + 1) (w * v) (by omega) D _ F (closes_some hq ho w hlt hv hv0) hD]
      simp [total, Fst.pathsFrom, hv, mul_assoc]
    · have e1 : (fwMachine f factors quantize o).fin ⟨some s, w⟩ = none := by
        simp only [TupleOp.machine, fwFin_some w hlt]
        cases hfs : f.finOf s with
        | none => simp
        | some v =>
          have : v = 0 := by by_contra h; exact hv ⟨v, hfs, h⟩
          simp [this]
      have e2 : ((fwMachine f factors quantize o).trs ⟨some s, w⟩).filter (fun a => !a.next.following) = [] := by
        simp only [TupleOp.machine, fwTrs_some hq w hlt, List.filter_append, (filter_arcs w _).1, List.nil_append]
        cases hfs : f.finOf s with
        | none => rfl
        | some v =>
          have : v = 0 := by by_contra h; exact hv ⟨v, hfs, h⟩
          simp [this]
      rw [← below_more (hD D (le_refl _)), total_below_zero, e1, e2]
      cases hfs : f.finOf s with
      | none => simp [total, Fst.pathsFrom, hfs]
      | some v =>
        have : v = 0 := by by_contra h; exact hv ⟨v, hfs, h⟩
        simp [total, Fst.pathsFrom, hfs, this]
  | succ n ih =>
    intro D s w F hlt hD
    have hch : ∀ a ∈ (fwMachine f factors quantize o).trs ⟨some s, w⟩, a.next.following = true → ∀ k, D ≤ k →
        (fwMachine f factors quantize o).legsFrom FwElt.following n k a.next = 0 :=
      fun a ha h k hk => (legs_succ_eq n k _).1 (hD k hk) a ha h
    have hmem : ∀ a, a ∈ (f.trsOf s).flatMap (fwTrP factors o w) → a ∈ (fwMachine f factors quantize o).trs ⟨some s, w⟩ ∧ a.next.following = true := by
      intro a ha
      rw [← following_some hq w hlt] at ha
      exact List.mem_filter.1 ha
    rw [total_below_succ, following_some hq w hlt, Fst.total_succ, ← sum_map_mul_left']
    have key : ∀ t ∈ f.trsOf s, ((fwTrP factors o w t).map fun a => a.weight * total ((fwMachine f factors quantize o).legsBelow FwElt.following D n a.next)
        (fun x y => F (strip a.ilabel ++ x) (strip a.olabel ++ y))).sum =
        w * (t.weight * total (f.pathsFrom n t.nextstate) (fun x y => F (strip t.ilabel ++ x) (strip t.olabel ++ y))) := by
      intro t ht
      have hc : ∀ a ∈ fwTrP factors o w t, ∀ k, D ≤ k → (fwMachine f factors quantize o).legsFrom FwElt.following n k a.next = 0 := by
        intro a ha
        obtain ⟨h1, h2⟩ := hmem a (List.mem_flatMap.2 ⟨t, ht, ha⟩)
        exact hch a h1 h2
      have hlt' := hf.next_lt s t ht
      unfold fwTrP at hc ⊢
      split at hc
      · rename_i h
        rw [if_pos h]
        simp only [List.map_cons, List.map_nil, List.sum_cons, List.sum_nil, add_zero]
        rw [ih D t.nextstate 1 _ hlt' (hc ⟨t.ilabel, t.olabel, w * t.weight, ⟨some t.nextstate, 1⟩⟩ (by simp)), one_mul, mul_assoc]
      · rename_i h
        rw [if_neg h]
        rw [List.map_map]
        have hstep : ∀ p ∈ factors (w * t.weight), ((fun a : MTr (FwElt W) W => a.weight * total ((fwMachine f factors quantize o).legsBelow FwElt.following D n a.next)
            (fun x y => F (strip a.ilabel ++ x) (strip a.olabel ++ y))) ∘ fun p : W × W => ⟨t.ilabel, t.olabel, p.1, ⟨some t.nextstate, p.2⟩⟩) p =
            p.1 * p.2 * total (f.pathsFrom n t.nextstate) (fun x y => F (strip t.ilabel ++ x) (strip t.olabel ++ y)) := by
          intro p hp
          simp only [Function.comp_def]
          rw [ih D t.nextstate p.2 _ hlt' (hc ⟨t.ilabel, t.olabel, p.1, ⟨some t.nextstate, p.2⟩⟩ (List.mem_map.2 ⟨p, hp, rfl⟩)), mul_assoc]
        rw [List.map_congr_left hstep, sum_map_mul_right', hs _ (fun e => h (.inr e)), mul_assoc]
    have hfl : ∀ (ts : List (Tr W)) (g : MTr (FwElt W) W → W), ((ts.flatMap (fwTrP factors o w)).map g).sum = (ts.map fun t => ((fwTrP factors o w t).map g).sum).sum := by
      intro ts g
      induction ts with
      | nil => simp
      | cons t ts ih => simp [ih]
    rw [hfl, List.map_congr_left key]

end sums

/-! ### One factorization: paths one by one -/

section single
variable [MonoidWithZero W] [DecidableEq W] {f : Fst W} {factors : W → List (W × W)} {quantize : W → R W} {o : FwOpts}

/-- Every weight is split in at most one way, in two factors with the weight as product. -/
def SplitsInTwo (factors : W → List (W × W)) : Prop := ∀ w, factors w = [] ∨ ∃ p, factors w = [p] ∧ p.1 * p.2 = w

/-- A path with a weight in front. -/
def scaled (w : W) (p : PathT W) : PathT W := (p.1, p.2.1, w * p.2.2)

theorem nonzero_cat (a : PathT W) (A : Multiset (PathT W)) :
    nonzero (A.map fun p => a.cat p) = nonzero ((nonzero A).map fun p => a.cat p) := by
  unfold nonzero
  induction A using Multiset.induction_on with
  | empty => simp
  | cons p A ih =>
    rw [Multiset.map_cons]
    by_cases hp : p.2.2 = 0
    · have hc : (a.cat p).2.2 = 0 := by simp [PathT.cat, hp]
      rw [Multiset.filter_cons_of_neg (p := fun p : PathT W => p.2.2 ≠ 0) (a := p) _ (by simp [hp]),
        Multiset.filter_cons_of_neg (p := fun p : PathT W => p.2.2 ≠ 0) (a := a.cat p) _ (by simp [hc]), ih]
    · rw [Multiset.filter_cons_of_pos (p := fun p : PathT W => p.2.2 ≠ 0) (a := p) _ (by simp [hp]), Multiset.map_cons]
      by_cases hc : (a.cat p).2.2 = 0
      · rw [Multiset.filter_cons_of_neg (p := fun p : PathT W => p.2.2 ≠ 0) _ (by simp [hc]),
          Multiset.filter_cons_of_neg (p := fun p : PathT W => p.2.2 ≠ 0) _ (by simp [hc]), ih]
      · rw [Multiset.filter_cons_of_pos (p := fun p : PathT W => p.2.2 ≠ 0) _ (by simp [hc]),
          Multiset.filter_cons_of_pos (p := fun p : PathT W => p.2.2 ≠ 0) _ (by simp [hc]), ih]

theorem nonzero_zero_weight (x y : List Label) : nonzero ({(x, y, (0 : W))} : Multiset (PathT W)) = 0 := by
  unfold nonzero
  rw [Multiset.filter_eq_nil]
  intro p hp
  rw [Multiset.mem_singleton] at hp
  simp [hp]

theorem nonzero_add (A B : Multiset (PathT W)) : nonzero (A + B) = nonzero A + nonzero B := by unfold nonzero; rw [Multiset.filter_add]

theorem nonzero_bind {α : Type*} (l : List α) (F : α → Multiset (PathT W)) :
    nonzero ((l : Multiset α).bind F) = (l : Multiset α).bind fun a => nonzero (F a) := by
  induction l with
  | nil => simp [nonzero]
  | cons a l ih => rw [← Multiset.cons_coe, Multiset.cons_bind, nonzero_add, ih, Multiset.cons_bind]

theorem nonzero_singleton (x y : List Label) (w : W) : nonzero ({(x, y, w)} : Multiset (PathT W)) = if w = 0 then 0 else {(x, y, w)} := by
  unfold nonzero
  by_cases h : w = 0 <;> simp [h, Multiset.filter_singleton]

variable (hq : Exact factors quantize) (hs : SplitsInTwo factors) (ho : o.Plain)
include hq hs ho

theorem closes_paths (depth : W → Nat) (hdp : ∀ w, ∀ p ∈ factors w, depth p.2 < depth w) : ∀ (m : Nat) (w : W), depth w < m → ∀ (D : Nat) (t : FwElt W),
    Closes (fwMachine f factors quantize o) (finFacs factors o) t w →
    (∀ k, D ≤ k → (fwMachine f factors quantize o).legsFrom FwElt.following 0 k t = 0) →
    nonzero ((fwMachine f factors quantize o).legsBelow FwElt.following D 0 t) = nonzero {([], [], w)} := by
  intro m
  induction m with
  | zero => intro w h; omega
  | succ m ih =>
    intro w hw D t hc hD
    rw [← below_more (hD D (le_refl _)), below_zero, hc.2, nonzero_add, Machine.legsFrom, hc.1]
    have hfac : finFacs factors o w = [] ∨ ∃ p, finFacs factors o w = [p] ∧ p.1 * p.2 = w ∧ p ∈ factors w := by
      unfold finFacs
      split
      · exact .inl rfl
      · rcases hs w with h | ⟨p, h, hp⟩
        · exact .inl h
        · exact .inr ⟨p, h, hp, by rw [h]; simp⟩
    rcases hfac with h | ⟨p, h, hp, hpm⟩
    · rw [h]
      by_cases hw0 : w = 0
      · simp [hw0, nonzero_zero_weight]; simp [nonzero]
      · simp [hw0, nonzero]
    · rw [h]
      simp only [reduceCtorEq, and_false, if_false, List.map_cons, List.map_nil, Multiset.coe_singleton, Multiset.singleton_bind]
      rw [nonzero_cat, ih p.2 (by have := hdp w p hpm; omega) D ⟨none, p.2⟩ (closes_none hq ho p.2), ← nonzero_cat]
      · simp [nonzero, MTr.asPath, PathT.cat, strip, hp]
      · intro k hk
        have := (legs_zero_succ_eq k t).1 (hD (k + 1) (by omega))
        have hmem : (⟨EPS, EPS, p.1, ⟨none, p.2⟩⟩ : MTr (FwElt W) W) ∈ ((fwMachine f factors quantize o).trs t).filter fun a => !a.next.following := by
          rw [hc.2, h]; simp
        exact this _ (List.mem_filter.1 hmem).1 rfl

theorem fw_paths (hd : Factoring factors) (hf : f.WF) : ∀ (n D : Nat) (s : StateId) (w : W), s < f.numStates →
    (∀ k, D ≤ k → (fwMachine f factors quantize o).legsFrom FwElt.following n k ⟨some s, w⟩ = 0) →
    nonzero ((fwMachine f factors quantize o).legsBelow FwElt.following D n ⟨some s, w⟩) = nonzero ((f.pathsFrom n s).map (scaled w)) := by
  obtain ⟨depth, hdp⟩ := hd
  intro n
  induction n with
  | zero =>
    intro D s w hlt hD
    by_cases hv : ∃ v, f.finOf s = some v ∧ v ≠ 0
    · obtain ⟨v, hv, hv0⟩ := hv
      rw [closes_paths hq hs ho depth hdp (depth (w * v) + 1) (w * v) (by omega) D _ (closes_some hq ho w hlt hv hv0) hD]
      simp [Fst.pathsFrom, hv, scaled]
    · have e1 : (fwMachine f factors quantize o).fin ⟨some s, w⟩ = none := by
        simp only [TupleOp.machine, fwFin_some w hlt]
        cases hfs : f.finOf s with
        | none => simp
        | some v =>
          have : v = 0 := by by_contra h; exact hv ⟨v, hfs, h⟩
          simp [this]
      have e2 : ((fwMachine f factors quantize o).trs ⟨some s, w⟩).filter (fun a => !a.next.following) = [] := by
        simp only [TupleOp.machine, fwTrs_some hq w hlt, List.filter_append, (filter_arcs w _).1, List.nil_append]
        cases hfs : f.finOf s with
        | none => rfl
        | some v =>
          have : v = 0 := by by_contra h; exact hv ⟨v, hfs, h⟩
          simp [this]
      rw [← below_more (hD D (le_refl _)), below_zero, e2, Machine.legsFrom, e1]
      cases hfs : f.finOf s with
      | none => simp [Fst.pathsFrom, hfs]
      | some v =>
        have : v = 0 := by by_contra h; exact hv ⟨v, hfs, h⟩
        simp [Fst.pathsFrom, hfs, this, scaled, nonzero_zero_weight]; simp [nonzero]
  | succ n ih =>
    intro D s w hlt hD
    have hch : ∀ a ∈ (fwMachine f factors quantize o).trs ⟨some s, w⟩, a.next.following = true → ∀ k, D ≤ k →
        (fwMachine f factors quantize o).legsFrom FwElt.following n k a.next = 0 :=
      fun a ha h k hk => (legs_succ_eq n k _).1 (hD k hk) a ha h
    have hmem : ∀ a, a ∈ (f.trsOf s).flatMap (fwTrP factors o w) → a ∈ (fwMachine f factors quantize o).trs ⟨some s, w⟩ ∧ a.next.following = true := by
      intro a ha
      rw [← following_some hq w hlt] at ha
      exact List.mem_filter.1 ha
    rw [below_succ, following_some hq w hlt, Fst.pathsFrom_succ, Multiset.map_bind, nonzero_bind, nonzero_bind]
    have key : ∀ t ∈ f.trsOf s, ((fwTrP factors o w t : List _) : Multiset (MTr (FwElt W) W)).bind (fun a =>
        nonzero (((fwMachine f factors quantize o).legsBelow FwElt.following D n a.next).map fun p => a.asPath.cat p)) =
        nonzero (((f.pathsFrom n t.nextstate).map fun p => t.asPath.cat p).map (scaled w)) := by
      intro t ht
      have hc : ∀ a ∈ fwTrP factors o w t, ∀ k, D ≤ k → (fwMachine f factors quantize o).legsFrom FwElt.following n k a.next = 0 := by
        intro a ha
        obtain ⟨h1, h2⟩ := hmem a (List.mem_flatMap.2 ⟨t, ht, ha⟩)
        exact hch a h1 h2
      have hlt' := hf.next_lt s t ht
      unfold fwTrP at hc ⊢
      split at hc
      · rename_i h
        rw [if_pos h]
        simp only [Multiset.coe_singleton, Multiset.singleton_bind]
        rw [nonzero_cat, ih D t.nextstate 1 hlt' (hc ⟨t.ilabel, t.olabel, w * t.weight, ⟨some t.nextstate, 1⟩⟩ (by simp)), ← nonzero_cat, Multiset.map_map, Multiset.map_map]
        congr 1
        refine Multiset.map_congr rfl fun p _ => ?_
        simp [scaled, PathT.cat, MTr.asPath, Tr.asPath, mul_assoc]
      · rename_i h
        rw [if_neg h]
        obtain ⟨q, hqe, hqm⟩ := (hs (w * t.weight)).resolve_left (fun e => h (.inr e))
        rw [hqe] at hc ⊢
        simp only [List.map_cons, List.map_nil, Multiset.coe_singleton, Multiset.singleton_bind]
        rw [nonzero_cat, ih D t.nextstate q.2 hlt' (hc ⟨t.ilabel, t.olabel, q.1, ⟨some t.nextstate, q.2⟩⟩ (by simp)), ← nonzero_cat, Multiset.map_map, Multiset.map_map]
        congr 1
        refine Multiset.map_congr rfl fun p _ => ?_
        simp only [Function.comp_apply, scaled, PathT.cat, MTr.asPath, Tr.asPath]
        rw [← mul_assoc, hqm, mul_assoc]
    have hfl : ∀ (ts : List (Tr W)) (g : MTr (FwElt W) W → Multiset (PathT W)), ((ts.flatMap (fwTrP factors o w) : List _) : Multiset (MTr (FwElt W) W)).bind g =
        (ts : Multiset (Tr W)).bind fun t => ((fwTrP factors o w t : List _) : Multiset (MTr (FwElt W) W)).bind g := by
      intro ts g
      induction ts with
      | nil => simp
      | cons t ts ih => rw [List.flatMap_cons, ← Multiset.coe_add, Multiset.add_bind, ih, ← Multiset.cons_coe, Multiset.cons_bind]
    rw [hfl]
    exact Multiset.bind_congr key

end single
end Verif
