import Verif.Lemmas.FactorSums
import Verif.Lemmas.GallicSemiring
import Verif.Lemmas.Caches
import Mathlib.Order.WellFounded
import Mathlib.Data.Fintype.Card
import Mathlib.Data.Set.Finite.Lattice
import Mathlib.Order.RelClasses
import Mathlib.Data.Fintype.EquivFin

/-! # Factoring weights: when the result is finite, and the iterators of the library -/

namespace Verif
set_option linter.unusedSectionVars false
universe u v
variable {W : Type u} {T : Type v}

/-! ### Finiteness -/

/-- The tuples reached from `t`. -/
def Machine.From (M : Machine T W) (t : T) : Set T := {u | Relation.ReflTransGen (fun a b => ∃ tr ∈ M.trs a, tr.next = b) t u}

theorem Machine.from_finite {M : Machine T W} {t : T} (h : ∀ a ∈ M.trs t, (M.From a.next).Finite) : (M.From t).Finite := by
  have : M.From t ⊆ {t} ∪ ⋃ a ∈ {a | a ∈ M.trs t}, M.From a.next := by
    intro u hu
    rcases Relation.ReflTransGen.cases_head hu with rfl | ⟨b, ⟨a, ha, rfl⟩, hb⟩
    · simp
    · right
      simp only [Set.mem_setOf_eq, Set.mem_iUnion]
      exact ⟨a, ha, hb⟩
  refine Set.Finite.subset (Set.Finite.union (Set.finite_singleton t) (Set.Finite.biUnion (List.finite_toSet _) ?_)) this
  intro a ha
  exact h a ha

theorem Machine.reach_from {M : Machine T W} {t u : T} (ht : M.Reach t) (h : u ∈ M.From t) : M.Reach u := by
  induction h with
  | refl => exact ht
  | tail _ h ih =>
    obtain ⟨a, ha, rfl⟩ := h
    exact .step ih ha

theorem Machine.reach_eq {M : Machine T W} {t : T} (ht : M.start = some t) (u : T) (hu : M.Reach u) : u ∈ M.From t := by
  induction hu with
  | start h => rw [ht] at h; injection h with h; subst h; exact .refl
  | step _ ha ih => exact .tail ih ⟨_, ha, rfl⟩

section fw
variable [Zero W] [One W] [Mul W] [DecidableEq W] {f : Fst W} {factors : W → List (W × W)} {quantize : W → R W} {o : FwOpts}
variable (hq : Exact factors quantize)
include hq

theorem fw_none_finite (hd : Factoring factors) (w : W) : ((fwMachine f factors quantize o).From ⟨none, w⟩).Finite := by
  obtain ⟨depth, hd⟩ := hd
  generalize hm : depth w = m
  induction m using Nat.strong_induction_on generalizing w with
  | _ m ih =>
    subst hm
    refine Machine.from_finite fun a ha => ?_
    simp only [TupleOp.machine, fwTrs_none hq] at ha
    split at ha
    · cases ha
    · obtain ⟨p, hp, e, _⟩ := mem_fwFinalsP _ _ _ _ ha
      rw [e]
      exact ih _ (hd w p hp) p.2 rfl

/-- On an FST without cycles the result is finite. -/
theorem fw_finite_acyclic (hd : Factoring factors) (hf : f.WF) (hac : f.Holds .acyclic) : {e | (fwMachine f factors quantize o).Reach e}.Finite := by
  have hwf : WellFounded (fun a b : Fin f.numStates => Relation.TransGen f.Edge b.1 a.1) := by
    have t1 : IsTrans (Fin f.numStates) (fun a b => Relation.TransGen f.Edge b.1 a.1) := ⟨fun a b c h1 h2 => h2.trans h1⟩
    have t2 : Std.Irrefl (fun a b : Fin f.numStates => Relation.TransGen f.Edge b.1 a.1) := ⟨fun a h => hac ⟨a.1, h⟩⟩
    exact Finite.wellFounded_of_trans_of_irrefl _
  have key : ∀ s : Fin f.numStates, ∀ w, ((fwMachine f factors quantize o).From ⟨some s.1, w⟩).Finite := by
    intro s
    induction s using hwf.induction with
    | _ s ih =>
      intro w
      refine Machine.from_finite fun a ha => ?_
      simp only [TupleOp.machine, fwTrs_some hq w s.2] at ha
      rcases List.mem_append.1 ha with ha | ha
      · obtain ⟨t, ht, hat⟩ := List.mem_flatMap.1 ha
        obtain ⟨r, e⟩ := mem_fwTrP hat
        rw [e]
        exact ih ⟨t.nextstate, hf.next_lt _ t ht⟩ (.single ⟨t, ht, rfl⟩) r
      · cases hv : f.finOf s.1 with
        | none => rw [hv] at ha; cases ha
        | some v =>
          rw [hv] at ha
          simp only at ha
          split at ha
          · cases ha
          · obtain ⟨p, _, e, _⟩ := mem_fwFinalsP _ _ _ _ ha
            rw [e]
            exact fw_none_finite hq hd p.2
  cases hs : f.start with
  | none =>
    have : {e | (fwMachine f factors quantize o).Reach e} = ∅ := by
      ext e
      simp only [Set.mem_setOf_eq, Set.mem_empty_iff_false, iff_false]
      intro he
      induction he with
      | start h => simp [TupleOp.machine, fwOp, hs] at h
      | step _ _ ih => exact ih
    rw [this]; exact Set.finite_empty
  | some i =>
    refine Set.Finite.subset (key ⟨i, hf.start_lt i hs⟩ 1) fun e he => ?_
    exact Machine.reach_eq (by simp [TupleOp.machine, fwOp, hs]) e he

/-- When only final weights are factored the result is finite. -/
theorem fw_finite_final (hd : Factoring factors) (hf : f.WF) (ho : o.factorTr = false) : {e | (fwMachine f factors quantize o).Reach e}.Finite := by
  have hsub : {e | (fwMachine f factors quantize o).Reach e} ⊆
      (⋃ s ∈ (Finset.range f.numStates : Set Nat), {⟨some s, 1⟩}) ∪
      (⋃ s ∈ (Finset.range f.numStates : Set Nat), ⋃ a ∈ {a | a ∈ ((fwMachine f factors quantize o).trs ⟨some s, 1⟩).filter fun a => !a.next.following},
        (fwMachine f factors quantize o).From a.next) := by
    intro e he
    have hlt := fw_reach_lt hq hf e he
    induction he with
    | @start t h =>
      left
      simp only [TupleOp.machine, fwOp, Option.map_eq_some_iff] at h
      obtain ⟨i, hi, rfl⟩ := h
      simp only [Finset.coe_range, Set.mem_Iio, Set.mem_iUnion, Set.mem_singleton_iff]
      exact ⟨i, hf.start_lt i hi, rfl⟩
    | @step t a ht ha ih =>
      rcases ih (fw_reach_lt hq hf t ht) with h | h
      · simp only [Finset.coe_range, Set.mem_Iio, Set.mem_iUnion, Set.mem_singleton_iff] at h
        obtain ⟨s, hs, rfl⟩ := h
        by_cases hP : a.next.following = true
        · left
          have hm : a ∈ ((fwMachine f factors quantize o).trs ⟨some s, 1⟩).filter (fun a => a.next.following) := List.mem_filter.2 ⟨ha, hP⟩
          rw [following_some hq 1 hs] at hm
          obtain ⟨t, ht', hat⟩ := List.mem_flatMap.1 hm
          simp only [fwTrP, ho, true_or, if_true, List.mem_singleton] at hat
          subst hat
          simp only [Finset.coe_range, Set.mem_Iio, Set.mem_iUnion, Set.mem_singleton_iff]
          exact ⟨t.nextstate, hf.next_lt s t ht', rfl⟩
        · right
          simp only [Set.mem_iUnion]
          exact ⟨s, by simpa using hs, a, List.mem_filter.2 ⟨ha, by simpa using hP⟩, .refl⟩
      · right
        simp only [Set.mem_iUnion] at h ⊢
        obtain ⟨s, hs, b, hb, hu⟩ := h
        exact ⟨s, hs, b, hb, .tail hu ⟨a, ha, rfl⟩⟩
  refine Set.Finite.subset (Set.Finite.union (Set.Finite.biUnion (Finset.finite_toSet _) fun s _ => Set.finite_singleton _)
    (Set.Finite.biUnion (Finset.finite_toSet _) fun s _ => Set.Finite.biUnion (List.finite_toSet _) fun a ha => ?_)) hsub
  rcases hn : a.next with ⟨st, w⟩
  cases st with
  | some q =>
    have := (List.mem_filter.1 ha).2
    rw [hn] at this; cases this
  | none => exact fw_none_finite hq hd w

end fw

/-! ### The iterators -/

section iterators

theorem identity_laws [MonoidWithZero W] : Exact (identityFactor (W := W)) .ok ∧ Factoring (identityFactor (W := W)) ∧ SplitsInTwo (identityFactor (W := W)) :=
  ⟨fun _ _ h => (nomatch h), ⟨fun _ => 0, fun _ _ h => (nomatch h)⟩, fun _ => .inl rfl⟩

theorem string_laws : Exact stringFactor strQuantize ∧ Factoring stringFactor ∧ SplitsInTwo stringFactor := by
  refine ⟨fun _ _ _ => rfl, ⟨StrW.lenLabels, ?_⟩, ?_⟩
  · rintro (_ | ⟨_ | ⟨a, l⟩⟩) p hp
    · cases hp
    · cases hp
    · simp only [stringFactor, List.mem_singleton] at hp
      subst hp
      simp [StrW.lenLabels]
  · rintro (_ | ⟨_ | ⟨a, l⟩⟩)
    · exact .inl rfl
    · exact .inl rfl
    · exact .inr ⟨_, rfl, rfl⟩

theorem gallic_laws [MonoidWithZero W] {q : W → R W} (h1 : q 1 = .ok 1) :
    Exact (gallicFactor (W := W)) (prodQuantize strQuantize q) ∧ Factoring (gallicFactor (W := W)) ∧ SplitsInTwo (gallicFactor (W := W)) := by
  have hmem : ∀ (w : StrW × W) p, p ∈ gallicFactor w → ∃ a b l, w.1 = .labels (a :: b :: l) ∧ p = ((.labels [a], w.2), (.labels (b :: l), 1)) := by
    rintro ⟨(_ | ⟨_ | ⟨a, _ | ⟨b, l⟩⟩⟩), w⟩ p hp
    · cases hp
    · cases hp
    · cases hp
    · simp [gallicFactor, stringFactor] at hp
      exact ⟨a, b, l, rfl, hp⟩
  refine ⟨?_, ⟨fun w => w.1.lenLabels, ?_⟩, ?_⟩
  · intro w p hp
    obtain ⟨a, b, l, e, rfl⟩ := hmem w p hp
    simp [prodQuantize, strQuantize, h1, pairR]
  · intro w p hp
    obtain ⟨a, b, l, e, rfl⟩ := hmem w p hp
    simp [e, StrW.lenLabels]
  · rintro ⟨(_ | ⟨_ | ⟨a, _ | ⟨b, l⟩⟩⟩), w⟩
    · exact .inl rfl
    · exact .inl rfl
    · exact .inl rfl
    · refine .inr ⟨((.labels [a], w), (.labels (b :: l), 1)), by simp [gallicFactor, stringFactor], ?_⟩
      exact Prod.ext rfl (mul_one w)

variable [Semiring W] [DecidableEq W]

/-- `GallicFactor` on the proper values. -/
def gwFactor (w : GW W) : List (GW W × GW W) :=
  if gallicUnionFactor w.1 = [] then [] else w.1.attach.map fun x =>
    (⟨(gallicUnionStep x.1).1, by
        have hp := w.2.1 x.1 x.2
        unfold gallicUnionStep
        split <;> simp [GGood, GProper]
        rename_i p l h
        rcases hx : x.1.1 with _ | ⟨_ | ⟨a, l⟩⟩ <;> rw [hx] at h <;> simp [stringFactor] at h
        simp [← h.1]⟩,
     ⟨(gallicUnionStep x.1).2, by
        unfold gallicUnionStep
        split <;> simp [GGood, GProper]
        rename_i p l h
        rcases hx : x.1.1 with _ | ⟨_ | ⟨a, l⟩⟩ <;> rw [hx] at h <;> simp [stringFactor] at h
        simp [← h.1]⟩)

theorem gallicUnionFactor_eq (l : List (StrW × W)) (h : gallicUnionFactor l ≠ []) : gallicUnionFactor l = l.map gallicUnionStep := by
  unfold gallicUnionFactor at h ⊢
  split at h
  · simp at h
  · split at h
    · simp at h
    · rename_i h'; simp [h']
  · rfl

/-- It yields the pairs the model of the iterator yields. -/
theorem gwFactor_eq (w : GW W) : (gwFactor w).map (fun p => (p.1.1, p.2.1)) = gallicUnionFactor w.1 := by
  unfold gwFactor
  split
  · rename_i h; rw [h]; rfl
  · rename_i h
    rw [gallicUnionFactor_eq _ h, List.map_map]
    conv_rhs => rw [← List.attach_map_subtype_val w.1, List.map_map]
    rfl

theorem gallicUnionStep_mul {x : StrW × W} (hx : GProper x) {a b : GW W} (ha : a.1 = (gallicUnionStep x).1) (hb : b.1 = (gallicUnionStep x).2) :
    toAlg (a * b).1 = gterm x := by
  rw [GW.toAlg_mul, ha, hb]
  obtain ⟨s, w⟩ := x
  rcases s with _ | ⟨_ | ⟨c, l⟩⟩
  · exact absurd rfl hx
  · simp only [gallicUnionStep, stringFactor, toAlg, add_zero]
    rw [← gterm_gmul (by simp [GProper]) (by simp [GProper])]
    simp [gmul, StrW.times]
  · simp only [gallicUnionStep, stringFactor, toAlg, add_zero]
    rw [← gterm_gmul (by simp [GProper]) (by simp [GProper])]
    simp [gmul, StrW.times]

theorem gw_factorizes : Factorizes (gwFactor (W := W)) := by
  intro w hw
  refine GW.ext' ?_
  have hne : gallicUnionFactor w.1 ≠ [] := by
    intro h; apply hw; unfold gwFactor; rw [if_pos h]
  unfold gwFactor
  rw [if_neg hne, List.map_map]
  have key : ∀ l : List {x // x ∈ w.1}, ∀ F : {x // x ∈ w.1} → GW W, (∀ x ∈ l, toAlg (F x).1 = gterm x.1) →
      toAlg ((l.map F).sum).1 = toAlg (l.map (·.1)) := by
    intro l F
    induction l with
    | nil => intro _; exact GW.toAlg_zero
    | cons x l ih =>
      intro h
      rw [List.map_cons, List.sum_cons, GW.toAlg_add, h x (by simp), ih (fun y hy => h y (by simp [hy])), List.map_cons, toAlg]
  rw [key]
  · rw [List.attach_map_subtype_val]
  · intro x _
    exact gallicUnionStep_mul (w.2.1 x.1 x.2) rfl rfl

/-- The longest string. -/
def longest : List (StrW × W) → Nat
  | [] => 0
  | x :: l => max x.1.lenLabels (longest l)

theorem le_longest : ∀ {l : List (StrW × W)} {x}, x ∈ l → x.1.lenLabels ≤ longest l
  | y :: l, x, h => by
    rw [longest]
    rcases List.mem_cons.1 h with rfl | h
    · exact Nat.le_max_left ..
    · exact Nat.le_trans (le_longest h) (Nat.le_max_right ..)

theorem gw_factoring : Factoring (gwFactor (W := W)) := by
  refine ⟨fun w => if gallicUnionFactor w.1 = [] then 0 else 1 + longest w.1, ?_⟩
  intro w p hp
  have hne : gallicUnionFactor w.1 ≠ [] := by
    intro h; unfold gwFactor at hp; rw [if_pos h] at hp; cases hp
  beta_reduce
  rw [if_neg hne]
  unfold gwFactor at hp
  rw [if_neg hne] at hp
  obtain ⟨x, _, rfl⟩ := List.mem_map.1 hp
  have hle := le_longest x.2
  simp only
  rcases hx : x.1.1 with _ | ⟨_ | ⟨a, l⟩⟩
  · simp [gallicUnionStep, gallicUnionFactor, hx, stringFactor, StrW.lenLabels]
  · simp [gallicUnionStep, gallicUnionFactor, hx, stringFactor, StrW.lenLabels]
  · have e : (gallicUnionStep x.1).2 = [(.labels l, 1)] := by simp [gallicUnionStep, hx, stringFactor]
    rw [e]
    rw [hx] at hle
    simp only [StrW.lenLabels, List.length_cons] at hle
    simp only [gallicUnionFactor, StrW.lenLabels, longest, Nat.max_zero]
    by_cases hl : l.length ≤ 1 <;> simp [hl] <;> omega

theorem gw_exact {quantize : GW W → R (GW W)} (h : ∀ (w : GW W) s, w.1 = [(s, 1)] → quantize w = .ok w) : Exact (gwFactor (W := W)) quantize := by
  intro w p hp
  unfold gwFactor at hp
  split at hp
  · cases hp
  · obtain ⟨x, _, rfl⟩ := List.mem_map.1 hp
    rcases hx : stringFactor x.1.1 with _ | ⟨q, l⟩
    · exact h _ (.labels []) (by simp [gallicUnionStep, hx])
    · exact h _ q.2 (by simp [gallicUnionStep, hx])

omit [DecidableEq W] in
/-- Quantization of a union weight keeps the second factors, if it keeps one. -/
theorem unionQuantize_single {o : UnionOpt (StrW × W)} {q : W → R W} (h1 : q 1 = .ok 1) (s : StrW) :
    unionQuantize o (prodQuantize strQuantize q) [] [(s, 1)] = .ok [(s, 1)] := by
  simp [unionQuantize, prodQuantize, strQuantize, h1, pairR, pushBack]

end iterators
end Verif
