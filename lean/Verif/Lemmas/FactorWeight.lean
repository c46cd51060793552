import Verif.Model.FactorWeight
import Verif.Spec.Legs
import Verif.Lemmas.Total
import Verif.Lemmas.Lazy
import Mathlib.Algebra.GroupWithZero.Defs
import Mathlib.Tactic.Abel

/-! # Factoring weights: the machine and its paths -/

namespace Verif
set_option linter.unusedSectionVars false
universe u v
variable {W : Type u} {T : Type v}

/-! ### Legs -/

section legs
variable [Mul W] {M : Machine T W} {P : T → Bool}

theorem exists_bound {α : Type*} {Q : α → Nat → Prop} : ∀ (l : List α), (∀ a ∈ l, ∃ D, ∀ k, D ≤ k → Q a k) →
    ∃ D, ∀ a ∈ l, ∀ k, D ≤ k → Q a k
  | [], _ => ⟨0, by simp⟩
  | a :: l, h => by
    obtain ⟨D, hD⟩ := exists_bound l (fun b hb => h b (by simp [hb]))
    obtain ⟨E, hE⟩ := h a (by simp)
    refine ⟨max D E, fun b hb k hk => ?_⟩
    rcases List.mem_cons.1 hb with rfl | hb
    · exact hE k (by omega)
    · exact hD b hb k (by omega)

theorem legs_zero_succ (k t) : M.legsFrom P 0 (k + 1) t =
    (((M.trs t).filter fun a => !P a.next : List (MTr T W)) : Multiset (MTr T W)).bind fun a =>
      (M.legsFrom P 0 k a.next).map fun p => a.asPath.cat p := by rw [Machine.legsFrom]

theorem legs_succ (n k t) : M.legsFrom P (n + 1) k t =
    (((M.trs t).filter fun a => P a.next : List (MTr T W)) : Multiset (MTr T W)).bind fun a =>
      (M.legsFrom P n k a.next).map fun p => a.asPath.cat p := by rw [Machine.legsFrom]

theorem bind_eq_zero {α β : Type*} (l : List α) (F : α → Multiset β) : (l : Multiset α).bind F = 0 ↔ ∀ a ∈ l, F a = 0 := by
  induction l with
  | nil => simp
  | cons a l ih => rw [← Multiset.cons_coe, Multiset.cons_bind, ← Multiset.card_eq_zero, Multiset.card_add, Nat.add_eq_zero_iff, Multiset.card_eq_zero,
      Multiset.card_eq_zero, ih]; simp

theorem legs_zero_succ_eq (k t) : M.legsFrom P 0 (k + 1) t = 0 ↔ ∀ a ∈ M.trs t, P a.next = false → M.legsFrom P 0 k a.next = 0 := by
  rw [legs_zero_succ, bind_eq_zero]
  simp [List.mem_filter]

theorem legs_succ_eq (n k t) : M.legsFrom P (n + 1) k t = 0 ↔ ∀ a ∈ M.trs t, P a.next = true → M.legsFrom P n k a.next = 0 := by
  rw [legs_succ, bind_eq_zero]
  simp [List.mem_filter]

/-- The accepting paths with `n` transitions in the first leg and less than `D` in the second. -/
def Machine.legsBelow (M : Machine T W) (P : T → Bool) (D n : Nat) (t : T) : Multiset (PathT W) := ∑ k ∈ Finset.range D, M.legsFrom P n k t

theorem below_succ (D n t) : M.legsBelow P D (n + 1) t =
    (((M.trs t).filter fun a => P a.next : List (MTr T W)) : Multiset (MTr T W)).bind fun a =>
      (M.legsBelow P D n a.next).map fun p => a.asPath.cat p := by
  unfold Machine.legsBelow
  simp only [legs_succ, map_sum_range]
  rw [← bind_sum_range]

theorem below_zero (D t) : M.legsBelow P (D + 1) 0 t = M.legsFrom P 0 0 t +
    (((M.trs t).filter fun a => !P a.next : List (MTr T W)) : Multiset (MTr T W)).bind fun a =>
      (M.legsBelow P D 0 a.next).map fun p => a.asPath.cat p := by
  unfold Machine.legsBelow
  rw [Finset.sum_range_succ', add_comm]
  simp only [legs_zero_succ, map_sum_range]
  rw [← bind_sum_range]

theorem below_more {D n t} (h : M.legsFrom P n D t = 0) : M.legsBelow P (D + 1) n t = M.legsBelow P D n t := by
  unfold Machine.legsBelow
  rw [Finset.sum_range_succ, h, add_zero]

/-- The second leg never gets back to the first. -/
theorem paths_legs (hP : ∀ t, P t = false → ∀ a ∈ M.trs t, P a.next = false) :
    ∀ m t, M.pathsFrom m t = ∑ n ∈ Finset.range (m + 1), M.legsFrom P n (m - n) t := by
  have hnot : ∀ m t, P t = false → M.pathsFrom m t = M.legsFrom P 0 m t ∧ ∀ n k, M.legsFrom P (n + 1) k t = 0 := by
    intro m
    induction m with
    | zero =>
      intro t ht
      refine ⟨by rw [Machine.pathsFrom, Machine.legsFrom]; rfl, fun n k => (legs_succ_eq n k t).2 fun a ha h => ?_⟩
      rw [hP t ht a ha] at h; cases h
    | succ m ih =>
      intro t ht
      refine ⟨?_, fun n k => (legs_succ_eq n k t).2 fun a ha h => by rw [hP t ht a ha] at h; cases h⟩
      rw [legs_zero_succ, Machine.pathsFrom, List.filter_eq_self.2 (fun a ha => by simp [hP t ht a ha])]
      refine Multiset.bind_congr fun a ha => ?_
      rw [(ih a.next (hP t ht a ha)).1]
  intro m
  induction m with
  | zero => intro t; rw [Finset.sum_range_one, Machine.pathsFrom, Machine.legsFrom]; rfl
  | succ m ih =>
    intro t
    rw [Finset.sum_range_succ', Machine.pathsFrom]
    simp only [Nat.sub_zero]
    have h1 : ∀ n ∈ Finset.range (m + 1), M.legsFrom P (n + 1) (m + 1 - (n + 1)) t =
        (((M.trs t).filter fun a => P a.next : List (MTr T W)) : Multiset (MTr T W)).bind fun a =>
          (M.legsFrom P n (m - n) a.next).map fun p => a.asPath.cat p := by
      intro n _
      rw [legs_succ]; simp
    rw [Finset.sum_congr rfl h1, ← bind_sum_range, legs_zero_succ]
    have h2 : ∀ l : List (MTr T W), (∀ a ∈ l, a ∈ M.trs t) → ((l : Multiset (MTr T W)).bind fun a => (M.pathsFrom m a.next).map fun p => a.asPath.cat p) =
        ((l.filter fun a => P a.next : List (MTr T W)) : Multiset (MTr T W)).bind (fun a =>
          ∑ n ∈ Finset.range (m + 1), (M.legsFrom P n (m - n) a.next).map fun p => a.asPath.cat p) +
        ((l.filter fun a => !P a.next : List (MTr T W)) : Multiset (MTr T W)).bind (fun a =>
          (M.legsFrom P 0 m a.next).map fun p => a.asPath.cat p) := by
      intro l
      induction l with
      | nil => simp
      | cons a l ihl =>
        intro hl
        have hl' := ihl (fun b hb => hl b (by simp [hb]))
        rw [← Multiset.cons_coe, Multiset.cons_bind, hl']
        cases hPa : P a.next with
        | true =>
          rw [List.filter_cons_of_pos (by simp [hPa]), List.filter_cons_of_neg (by simp [hPa]), ← Multiset.cons_coe,
            Multiset.cons_bind, ih, map_sum_range, add_assoc]
        | false =>
          rw [List.filter_cons_of_neg (by simp [hPa]), List.filter_cons_of_pos (by simp [hPa]), ← Multiset.cons_coe,
            Multiset.cons_bind, (hnot m a.next hPa).1]
          abel
    exact h2 _ (fun a ha => ha)

end legs

/-! ### The machine of `factor_weight` -/

section machine
variable [Zero W] [One W] [Mul W] [DecidableEq W] {f : Fst W} {factors : W → List (W × W)} {quantize : W → R W} {o : FwOpts}

/-- The machine `factor_weight` explores. -/
abbrev fwMachine (f : Fst W) (factors : W → List (W × W)) (quantize : W → R W) (o : FwOpts) : Machine (FwElt W) W :=
  (fwOp f factors quantize o).machine

/-- The transitions for one transition. -/
def fwTrP (factors : W → List (W × W)) (o : FwOpts) (w : W) (t : Tr W) : List (MTr (FwElt W) W) :=
  if o.factorTr = false ∨ factors (w * t.weight) = [] then [⟨t.ilabel, t.olabel, w * t.weight, ⟨some t.nextstate, 1⟩⟩]
  else (factors (w * t.weight)).map fun p => ⟨t.ilabel, t.olabel, p.1, ⟨some t.nextstate, p.2⟩⟩

/-- The transitions for the factors of a final weight. -/
def fwFinalsP (o : FwOpts) (il ol : Label) : List (W × W) → List (MTr (FwElt W) W)
  | [] => []
  | p :: ps => ⟨il, ol, p.1, ⟨none, p.2⟩⟩ :: fwFinalsP o (if o.incIlabel then il + 1 else il) (if o.incOlabel then ol + 1 else ol) ps

/-- Quantizing does not change second factors. -/
def Exact (factors : W → List (W × W)) (quantize : W → R W) : Prop := ∀ w, ∀ p ∈ factors w, quantize p.2 = .ok p.2

variable (hq : Exact factors quantize)
include hq

theorem fwSplit_eq (t : Tr W) : ∀ ps : List (W × W), (∀ p ∈ ps, quantize p.2 = .ok p.2) →
    fwSplit quantize t ps = .ok (ps.map fun p => ⟨t.ilabel, t.olabel, p.1, ⟨some t.nextstate, p.2⟩⟩)
  | [], _ => rfl
  | p :: ps, h => by
    rw [fwSplit, h p (by simp), fwSplit_eq t ps (fun q hq => h q (by simp [hq]))]; rfl

theorem fwFinals_eq : ∀ (ps : List (W × W)) (il ol : Label), (∀ p ∈ ps, quantize p.2 = .ok p.2) →
    fwFinals quantize o il ol ps = .ok (fwFinalsP o il ol ps)
  | [], _, _, _ => rfl
  | p :: ps, il, ol, h => by
    rw [fwFinals, h p (by simp)]
    simp only
    rw [fwFinals_eq ps _ _ (fun q hq => h q (by simp [hq]))]; rfl

theorem fwTrLoop_eq (w : W) : ∀ ts : List (Tr W), fwTrLoop factors quantize o w ts = .ok (ts.flatMap (fwTrP factors o w))
  | [] => rfl
  | t :: ts => by
    have h1 : fwTr factors quantize o w t = .ok (fwTrP factors o w t) := by
      unfold fwTr fwTrP
      simp only
      split
      · rfl
      · exact fwSplit_eq hq t _ (hq _)
    rw [fwTrLoop, h1]
    simp only [fwTrLoop_eq w ts]; rfl

theorem fwTrs_none (w : W) : (fwOp f factors quantize o).trs ⟨none, w⟩ =
    .ok (if o.factorFinal = false then [] else fwFinalsP o o.finalIlabel o.finalOlabel (factors w)) := by
  show fwTrs f factors quantize o ⟨none, w⟩ = _
  unfold fwTrs fwArcs fwTail fwFinalOf
  cases o.factorFinal <;> simp [fwFinals_eq hq _ _ _ (hq w)]

theorem fwTrs_some (w : W) {s} (hs : s < f.numStates) : (fwOp f factors quantize o).trs ⟨some s, w⟩ =
    .ok ((f.trsOf s).flatMap (fwTrP factors o w) ++
      match f.finOf s with
      | none => []
      | some v => if o.factorFinal = false ∨ v = 0 then [] else fwFinalsP o o.finalIlabel o.finalOlabel (factors (w * v))) := by
  show fwTrs f factors quantize o ⟨some s, w⟩ = _
  have hs' : f.states[s]? = some f.states[s] := List.getElem?_eq_getElem hs
  unfold fwTrs fwArcs fwTail fwFinalOf
  have e1 : f.getTrsR s = .ok (f.trsOf s) := by simp [Fst.getTrsR, Fst.trsOf, hs']
  have e2 : f.finalWeightR s = .ok (f.finOf s) := by simp [Fst.finalWeightR, Fst.finOf, hs']
  have e3 : f.isFinalR s = .ok (match f.finOf s with | some w => !isZeroW w | none => false) := by
    simp only [Fst.isFinalR, Fst.finOf, hs']; rfl
  simp only [e1, fwTrLoop_eq hq, e2, e3]
  cases o.factorFinal with
  | false => cases f.finOf s <;> simp
  | true =>
    cases f.finOf s with
    | none => simp
    | some v =>
      by_cases hv : v = 0 <;> simp [hv, isZeroW, fwFinals_eq hq _ _ _ (hq _)]

omit hq in
theorem fwFin_none (w : W) : (fwOp f factors quantize o).fin ⟨none, w⟩ =
    .ok (if ¬ w = 0 ∧ (o.factorFinal = false ∨ factors w = []) then some w else none) := rfl

omit hq in
theorem fwFin_some (w : W) {s} (hs : s < f.numStates) : (fwOp f factors quantize o).fin ⟨some s, w⟩ =
    .ok (if ¬ w * (f.finOf s).getD 0 = 0 ∧ (o.factorFinal = false ∨ factors (w * (f.finOf s).getD 0) = []) then
      some (w * (f.finOf s).getD 0) else none) := by
  have hs' : f.states[s]? = some f.states[s] := List.getElem?_eq_getElem hs
  have e2 : f.finalWeightR s = .ok (f.finOf s) := by simp [Fst.finalWeightR, Fst.finOf, hs']
  show fwFin f factors o ⟨some s, w⟩ = _
  unfold fwFin fwWeight
  simp only [e2]

omit hq [Zero W] [One W] [Mul W] [DecidableEq W] in
theorem mem_fwFinalsP : ∀ (ps : List (W × W)) (il ol : Label) (a : MTr (FwElt W) W), a ∈ fwFinalsP o il ol ps → ∃ p ∈ ps, a.next = ⟨none, p.2⟩ ∧ a.weight = p.1
  | [], _, _, _, h => by simp [fwFinalsP] at h
  | p :: ps, il, ol, a, h => by
    rw [fwFinalsP] at h
    rcases List.mem_cons.1 h with rfl | h
    · exact ⟨p, by simp, rfl, rfl⟩
    · obtain ⟨q, hq, e⟩ := mem_fwFinalsP ps _ _ a h
      exact ⟨q, by simp [hq], e⟩

omit hq [Zero W] in
theorem mem_fwTrP {w : W} {t : Tr W} {a : MTr (FwElt W) W} (h : a ∈ fwTrP factors o w t) : ∃ r, a.next = ⟨some t.nextstate, r⟩ := by
  unfold fwTrP at h
  split at h
  · simp only [List.mem_singleton] at h; subst h; exact ⟨_, rfl⟩
  · simp only [List.mem_map] at h; obtain ⟨p, _, rfl⟩ := h; exact ⟨_, rfl⟩

/-- The elements with a state of the input: the first leg. -/
def FwElt.following (e : FwElt W) : Bool := e.state.isSome

/-- The states of elements that are reached exist. -/
theorem fw_reach_lt (hf : f.WF) : ∀ e, (fwMachine f factors quantize o).Reach e → ∀ s, e.state = some s → s < f.numStates := by
  intro e he
  induction he with
  | @start t h =>
    intro s hs
    simp only [fwMachine, TupleOp.machine, fwOp, Option.map_eq_some_iff] at h
    obtain ⟨i, hi, rfl⟩ := h
    injection hs with hs; subst hs
    exact hf.start_lt i hi
  | @step t a _ ha ih =>
    intro s hs
    obtain ⟨st, w⟩ := t
    cases st with
    | none =>
      simp only [TupleOp.machine, fwTrs_none hq] at ha
      split at ha
      · cases ha
      · obtain ⟨p, _, e, _⟩ := mem_fwFinalsP _ _ _ _ ha
        rw [e] at hs; cases hs
    | some q =>
      have hlt := ih q rfl
      simp only [TupleOp.machine, fwTrs_some hq w hlt] at ha
      rcases List.mem_append.1 ha with ha | ha
      · obtain ⟨t, ht, hat⟩ := List.mem_flatMap.1 ha
        obtain ⟨r, e⟩ := mem_fwTrP hat
        rw [e] at hs; injection hs with hs; subst hs
        exact hf.next_lt q t ht
      · cases hv : f.finOf q with
        | none => rw [hv] at ha; cases ha
        | some v =>
          rw [hv] at ha
          simp only at ha
          split at ha
          · cases ha
          · obtain ⟨p, _, e, _⟩ := mem_fwFinalsP _ _ _ _ ha
            rw [e] at hs; cases hs

theorem fw_no_error (hf : f.WF) (e) (he : (fwMachine f factors quantize o).Reach e) :
    (fwOp f factors quantize o).trs e = .ok ((fwMachine f factors quantize o).trs e) ∧
    (fwOp f factors quantize o).fin e = .ok ((fwMachine f factors quantize o).fin e) := by
  have h := fw_reach_lt hq hf e he
  obtain ⟨st, w⟩ := e
  cases st with
  | none => exact ⟨by simp only [TupleOp.machine, fwTrs_none hq], by simp only [TupleOp.machine, fwFin_none]⟩
  | some s => exact ⟨by simp only [TupleOp.machine, fwTrs_some hq w (h s rfl)], by simp only [TupleOp.machine, fwFin_some w (h s rfl)]⟩

theorem fw_second_leg (t : FwElt W) (ht : t.following = false) (a) (ha : a ∈ (fwMachine f factors quantize o).trs t) :
    a.next.following = false := by
  obtain ⟨st, w⟩ := t
  cases st with
  | some s => cases ht
  | none =>
    simp only [TupleOp.machine, fwTrs_none hq] at ha
    split at ha
    · cases ha
    · obtain ⟨p, _, e, _⟩ := mem_fwFinalsP _ _ _ _ ha
      rw [e]; rfl

/-- Factoring comes to an end. -/
def Factoring (factors : W → List (W × W)) : Prop := ∃ depth : W → Nat, ∀ w, ∀ p ∈ factors w, depth p.2 < depth w

theorem fw_legs_bound (hd : Factoring factors) (n t) : ∃ D, ∀ k, D ≤ k → (fwMachine f factors quantize o).legsFrom FwElt.following n k t = 0 := by
  obtain ⟨depth, hd⟩ := hd
  have h0 : ∀ m w, depth w < m → ∀ k, m ≤ k → (fwMachine f factors quantize o).legsFrom FwElt.following 0 k ⟨none, w⟩ = 0 := by
    intro m
    induction m with
    | zero => intro w h; omega
    | succ m ih =>
      intro w h k hk
      obtain ⟨k, rfl⟩ : ∃ j, k = j + 1 := ⟨k - 1, by omega⟩
      rw [legs_zero_succ_eq]
      intro a ha _
      simp only [TupleOp.machine, fwTrs_none hq] at ha
      split at ha
      · cases ha
      · obtain ⟨p, hp, e, _⟩ := mem_fwFinalsP _ _ _ _ ha
        rw [e]
        exact ih p.2 (by have := hd w p hp; omega) k (by omega)
  induction n generalizing t with
  | zero =>
    obtain ⟨D, hD⟩ := exists_bound (Q := fun (a : MTr (FwElt W) W) k => a.next.following = false →
      (fwMachine f factors quantize o).legsFrom FwElt.following 0 k a.next = 0) ((fwMachine f factors quantize o).trs t) (by
        intro a _
        rcases hn : a.next with ⟨st, w⟩
        cases st with
        | some s => exact ⟨0, fun k _ h => by cases h⟩
        | none => exact ⟨depth w + 1, fun k hk _ => h0 (depth w + 1) w (by omega) k hk⟩)
    refine ⟨D + 1, fun k hk => ?_⟩
    obtain ⟨k, rfl⟩ : ∃ j, k = j + 1 := ⟨k - 1, by omega⟩
    rw [legs_zero_succ_eq]
    intro a ha hP
    exact hD a ha k (by omega) hP
  | succ n ih =>
    obtain ⟨D, hD⟩ := exists_bound (Q := fun (a : MTr (FwElt W) W) k =>
      (fwMachine f factors quantize o).legsFrom FwElt.following n k a.next = 0) ((fwMachine f factors quantize o).trs t) (fun a _ => ih a.next)
    exact ⟨D, fun k hk => (legs_succ_eq n k t).2 fun a ha _ => hD a ha k hk⟩

/-! ### Closing -/

/-- The final weight `w` is given off at `t`. -/
def Closes (M : Machine (FwElt W) W) (facs : W → List (W × W)) (t : FwElt W) (w : W) : Prop :=
  M.fin t = (if ¬ w = 0 ∧ facs w = [] then some w else none) ∧
  ((M.trs t).filter fun a => !a.next.following) = (facs w).map fun p => ⟨EPS, EPS, p.1, ⟨none, p.2⟩⟩

/-- The factors of final weights. -/
def finFacs (factors : W → List (W × W)) (o : FwOpts) (w : W) : List (W × W) := if o.factorFinal = false then [] else factors w

/-- No labels on the transitions for final weights. -/
def FwOpts.Plain (o : FwOpts) : Prop := o.finalIlabel = EPS ∧ o.finalOlabel = EPS ∧ o.incIlabel = false ∧ o.incOlabel = false

omit hq [Zero W] [One W] [Mul W] [DecidableEq W] in
theorem fwFinalsP_plain (ho : o.Plain) : ∀ ps : List (W × W), fwFinalsP o o.finalIlabel o.finalOlabel ps =
    ps.map fun p => ⟨EPS, EPS, p.1, ⟨none, p.2⟩⟩ := by
  obtain ⟨h1, h2, h3, h4⟩ := ho
  rw [h1, h2]
  intro ps
  induction ps with
  | nil => rfl
  | cons p ps ih =>
    rw [fwFinalsP, h3, h4]
    simp [ih]

omit hq [Zero W] [One W] [Mul W] [DecidableEq W] in
theorem filter_tail (ps : List (W × W)) : (ps.map fun p => (⟨EPS, EPS, p.1, ⟨none, p.2⟩⟩ : MTr (FwElt W) W)).filter (fun a => !a.next.following) =
    ps.map fun p => ⟨EPS, EPS, p.1, ⟨none, p.2⟩⟩ := by
  rw [List.filter_eq_self]
  intro a ha
  obtain ⟨p, _, rfl⟩ := List.mem_map.1 ha
  rfl

omit hq [Zero W] in
theorem filter_arcs (w : W) (ts : List (Tr W)) : ((ts.flatMap (fwTrP factors o w)).filter (fun a => !a.next.following) = []) ∧
    ((ts.flatMap (fwTrP factors o w)).filter (fun a => a.next.following) = ts.flatMap (fwTrP factors o w)) := by
  have h : ∀ a ∈ ts.flatMap (fwTrP factors o w), a.next.following = true := by
    intro a ha
    obtain ⟨t, _, hat⟩ := List.mem_flatMap.1 ha
    obtain ⟨r, e⟩ := mem_fwTrP hat
    rw [e]; rfl
  exact ⟨List.filter_eq_nil_iff.2 fun a ha => by simp [h a ha], List.filter_eq_self.2 h⟩

theorem closes_none (ho : o.Plain) (w : W) : Closes (fwMachine f factors quantize o) (finFacs factors o) ⟨none, w⟩ w := by
  refine ⟨?_, ?_⟩
  · simp only [TupleOp.machine, fwFin_none, finFacs]
    by_cases hff : o.factorFinal = false <;> simp [hff]
  · simp only [TupleOp.machine, fwTrs_none hq, finFacs]
    cases o.factorFinal with
    | false => simp
    | true => simp only [Bool.true_eq_false, if_false]; rw [fwFinalsP_plain ho, filter_tail]

theorem closes_some (ho : o.Plain) (w : W) {s} (hs : s < f.numStates) {v} (hv : f.finOf s = some v) (hv0 : v ≠ 0) :
    Closes (fwMachine f factors quantize o) (finFacs factors o) ⟨some s, w⟩ (w * v) := by
  refine ⟨?_, ?_⟩
  · simp only [TupleOp.machine, fwFin_some w hs, finFacs, hv, Option.getD_some]
    by_cases hff : o.factorFinal = false <;> simp [hff]
  · simp only [TupleOp.machine, fwTrs_some hq w hs, finFacs, hv, hv0, or_false]
    rw [List.filter_append, (filter_arcs w _).1, List.nil_append]
    cases o.factorFinal with
    | false => simp
    | true => simp only [Bool.true_eq_false, if_false]; rw [fwFinalsP_plain ho, filter_tail]

theorem following_some (w : W) {s} (hs : s < f.numStates) :
    ((fwMachine f factors quantize o).trs ⟨some s, w⟩).filter (fun a => a.next.following) = (f.trsOf s).flatMap (fwTrP factors o w) := by
  simp only [TupleOp.machine, fwTrs_some hq w hs]
  rw [List.filter_append, (filter_arcs w _).2]
  have : ∀ l : List (MTr (FwElt W) W), (∀ a ∈ l, a.next.following = false) → l.filter (fun a => a.next.following) = [] :=
    fun l h => List.filter_eq_nil_iff.2 fun a ha => by simp [h a ha]
  rw [this, List.append_nil]
  intro a ha
  cases hv : f.finOf s with
  | none => rw [hv] at ha; cases ha
  | some v =>
    rw [hv] at ha
    simp only at ha
    split at ha
    · cases ha
    · obtain ⟨p, _, e, _⟩ := mem_fwFinalsP _ _ _ _ ha
      rw [e]; rfl

end machine
end Verif
