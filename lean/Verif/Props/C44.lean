import Verif.Model.IntervalSet
import Verif.Spec.Distance
import Mathlib.Data.List.Sort
import Mathlib.Data.Set.Card
import Mathlib.Order.Interval.Finset.Nat

/-!
# C44: interval sets
-/

namespace Verif
open IntervalSet

/-! ## Specification -/

/-- `v` is in one of the intervals. -/
def IntervalSet.Mem (s : IntervalSet) (v : Nat) : Prop := ∃ i ∈ s.intervals, i.first ≤ v ∧ v < i.last

/-- Sorted, disjoint, not adjacent and not empty. -/
def IntervalSet.Normalized (s : IntervalSet) : Prop :=
  (∀ i ∈ s.intervals, i.first < i.last) ∧ s.intervals.Pairwise fun a b => a.last < b.first

/-! ## Lemmas -/

/-- The members of a list of intervals. -/
def MemL (l : List IntInterval) (v : Nat) : Prop := ∃ i ∈ l, i.first ≤ v ∧ v < i.last

theorem memL_cons {x : IntInterval} {l : List IntInterval} {v : Nat} : MemL (x :: l) v ↔ (x.first ≤ v ∧ v < x.last) ∨ MemL l v := by
  simp [MemL]

theorem memL_append {a b : List IntInterval} {v : Nat} : MemL (a ++ b) v ↔ MemL a v ∨ MemL b v := by
  simp [MemL, or_and_right, exists_or]

theorem absorb_spec (x : IntInterval) (l : List IntInterval) (hx : x.first < x.last) (hl : ∀ y ∈ l, y.first < y.last)
    (hf : ∀ y ∈ l, x.first ≤ y.first) (hs : l.Pairwise fun a b => a.first ≤ b.first) :
    (absorb x l).1.first = x.first ∧ x.last ≤ (absorb x l).1.last ∧ (absorb x l).2 <:+ l ∧ (∀ y ∈ (absorb x l).2, (absorb x l).1.last < y.first) ∧
      ∀ v, ((absorb x l).1.first ≤ v ∧ v < (absorb x l).1.last) ∨ MemL (absorb x l).2 v ↔ (x.first ≤ v ∧ v < x.last) ∨ MemL l v := by
  induction l generalizing x with
  | nil => exact ⟨rfl, le_refl _, List.suffix_refl _, fun y hy => (nomatch hy), fun v => Iff.rfl⟩
  | cons y l ih =>
    have hs' := List.pairwise_cons.1 hs
    unfold absorb
    split
    · next h =>
      refine ⟨rfl, le_refl _, List.suffix_refl _, fun z hz => ?_, fun v => Iff.rfl⟩
      rcases List.mem_cons.1 hz with rfl | hz
      · exact h
      · have := hs'.1 z hz; simp only; omega
    · next h =>
      have hy := hl y (by simp)
      have hfy := hf y (by simp)
      obtain ⟨x', hx'⟩ : ∃ x', x' = (if y.last > x.last then { x with last := y.last } else x) := ⟨_, rfl⟩
      have hx1 : x'.first = x.first := by rw [hx']; split <;> rfl
      have hx2 : x'.last = max x.last y.last := by rw [hx']; split <;> simp <;> omega
      rw [← hx']
      obtain ⟨h1, h2, h3, h4, h5⟩ := ih x' (by omega) (fun z hz => hl z (by simp [hz])) (fun z hz => by rw [hx1]; exact hf z (by simp [hz])) hs'.2
      refine ⟨by rw [h1, hx1], by omega, h3.trans (List.suffix_cons y l), h4, fun v => ?_⟩
      rw [h5 v, memL_cons, hx1, hx2, ← or_assoc]
      refine or_congr_left ?_
      omega

theorem lt_trans_interval {a b c : IntInterval} (h1 : (!b.lt a) = true) (h2 : (!c.lt b) = true) : (!c.lt a) = true := by
  simp only [IntInterval.lt, Bool.not_eq_true', Bool.or_eq_false_iff, Bool.and_eq_false_iff, decide_eq_false_iff_not] at *
  omega

theorem lt_total_interval (a b : IntInterval) : (!b.lt a) = true ∨ (!a.lt b) = true := by
  simp only [IntInterval.lt, Bool.not_eq_true', Bool.or_eq_false_iff, Bool.and_eq_false_iff, decide_eq_false_iff_not]
  omega

theorem normLoop_spec (n : Nat) (l : List IntInterval) (hn : l.length ≤ n) (acc : List IntInterval) (count : Nat)
    (hl : ∀ y ∈ l, y.first < y.last) (hs : l.Pairwise fun a b => a.first ≤ b.first) (ha : (⟨acc, none⟩ : IntervalSet).Normalized)
    (hal : ∀ a ∈ acc, ∀ y ∈ l, a.last < y.first) (hc : count = {v | MemL acc v}.ncard) :
    ∃ s, normLoop n l acc count = some (.ok s) ∧ s.Normalized ∧ (∀ v, s.Mem v ↔ MemL (acc ++ l) v) ∧ s.count = some {v | s.Mem v}.ncard := by
  induction n generalizing l acc count with
  | zero =>
    obtain rfl := List.length_eq_zero_iff.1 (Nat.le_zero.1 hn)
    refine ⟨⟨acc, some count⟩, rfl, ha, fun v => by rw [List.append_nil]; rfl, ?_⟩
    simp only [hc]; rfl
  | succ n ih =>
    cases l with
    | nil =>
      refine ⟨⟨acc, some count⟩, rfl, ha, fun v => by rw [List.append_nil]; rfl, ?_⟩
      simp only [hc]; rfl
    | cons x l =>
      have hx := hl x (by simp)
      have hs' := List.pairwise_cons.1 hs
      obtain ⟨h1, h2, h3, h4, h5⟩ := absorb_spec x l hx (fun y hy => hl y (by simp [hy])) hs'.1 hs'.2
      unfold normLoop
      rw [if_neg (by omega)]
      simp only
      rw [if_neg (by omega)]
      have hlen := h3.length_le
      have g1 : (⟨acc ++ [(absorb x l).1], none⟩ : IntervalSet).Normalized := by
        refine ⟨fun i hi => ?_, List.pairwise_append.2 ⟨ha.2, List.pairwise_singleton _ _, fun a ha' b hb => ?_⟩⟩
        · rcases List.mem_append.1 hi with hi | hi
          · exact ha.1 i hi
          · obtain rfl := List.mem_singleton.1 hi; omega
        · obtain rfl := List.mem_singleton.1 hb
          rw [h1]
          exact hal a ha' x (by simp)
      have g2 : ∀ a ∈ acc ++ [(absorb x l).1], ∀ y ∈ (absorb x l).2, a.last < y.first := by
        intro a ha' y hy
        rcases List.mem_append.1 ha' with ha' | ha'
        · exact hal a ha' y (List.mem_cons_of_mem _ (h3.subset hy))
        · obtain rfl := List.mem_singleton.1 ha'
          exact h4 y hy
      have g3 : count + ((absorb x l).1.last - (absorb x l).1.first) = {v | MemL (acc ++ [(absorb x l).1]) v}.ncard := by
        have hfin : ∀ l : List IntInterval, {v | MemL l v}.Finite := by
          intro l
          induction l with
          | nil =>
            have : {v | MemL [] v} = ∅ := Set.eq_empty_of_forall_notMem fun v ⟨i, hi, _⟩ => by cases hi
            rw [this]; exact Set.finite_empty
          | cons x l ih =>
            have : {v | MemL (x :: l) v} ⊆ Set.Ico x.first x.last ∪ {v | MemL l v} := fun v hv => memL_cons.1 hv
            exact ((Set.finite_Ico _ _).union ih).subset this
        have hset : {v | MemL (acc ++ [(absorb x l).1]) v} = {v | MemL acc v} ∪ Set.Ico (absorb x l).1.first (absorb x l).1.last := by
          ext v
          change MemL _ v ↔ MemL acc v ∨ _
          rw [memL_append, memL_cons]
          simp [MemL]
        have hdis : Disjoint {v | MemL acc v} (Set.Ico (absorb x l).1.first (absorb x l).1.last) := by
          rw [Set.disjoint_left]
          rintro v ⟨i, hi, -, hv⟩ ⟨hv', -⟩
          have := hal i hi x (by simp)
          omega
        rw [hset, Set.ncard_union_eq hdis (hfin acc) (Set.finite_Ico _ _), ← hc, ← Finset.coe_Ico, Set.ncard_coe_finset, Nat.card_Ico]
      obtain ⟨s, e1, e2, e3, e4⟩ := ih (absorb x l).2 (by simp at hn; omega) _ _
        (fun y hy => hl y (List.mem_cons_of_mem _ (h3.subset hy))) (hs'.2.sublist h3.sublist) g1 g2 g3
      refine ⟨s, e1, e2, fun v => ?_, e4⟩
      rw [e3, List.append_assoc, memL_append, memL_append (a := acc), List.singleton_append, memL_cons, memL_cons, h5 v]

/-! ## The property -/

/-- C44: on intervals that are not empty, `normalize` keeps the members, leaves sorted, disjoint intervals that do not touch, and sets the
count to the number of members. -/
theorem C44_normalize (s : IntervalSet) (hs : ∀ i ∈ s.intervals, i.first < i.last) :
    ∃ s', EndsWith s.normalize (.ok s') ∧ s'.Normalized ∧ (∀ v, s'.Mem v ↔ s.Mem v) ∧ s'.count = some {v | s.Mem v}.ncard := by
  obtain ⟨l, hl⟩ : ∃ l, l = s.intervals.mergeSort fun a b => !b.lt a := ⟨_, rfl⟩
  have hperm : l.Perm s.intervals := by rw [hl]; exact List.mergeSort_perm _ _
  have hpw : l.Pairwise fun a b => a.first ≤ b.first := by
    have := List.pairwise_mergeSort (le := fun a b : IntInterval => !b.lt a) (fun a b c => lt_trans_interval)
      (fun a b => by simpa using lt_total_interval a b) s.intervals
    rw [← hl] at this
    refine this.imp fun {a b} h => ?_
    simp only [IntInterval.lt, Bool.not_eq_true', Bool.or_eq_false_iff, Bool.and_eq_false_iff, decide_eq_false_iff_not] at h
    omega
  have hmem : ∀ v, MemL l v ↔ s.Mem v := fun v => by simp only [MemL, IntervalSet.Mem, hperm.mem_iff]
  have key : ∀ n, l.length ≤ n → ∃ s', normLoop n l [] 0 = some (.ok s') ∧ s'.Normalized ∧ (∀ v, s'.Mem v ↔ MemL ([] ++ l) v) ∧
      s'.count = some {v | s'.Mem v}.ncard := fun n hn =>
    normLoop_spec n l hn [] 0 (fun y hy => hs y (hperm.mem_iff.1 hy)) hpw ⟨fun i hi => (nomatch hi), List.Pairwise.nil⟩ (fun a ha => (nomatch ha))
      (by
        have : {v | MemL [] v} = ∅ := Set.eq_empty_of_forall_notMem fun v ⟨i, hi, _⟩ => by cases hi
        rw [this, Set.ncard_empty])
  obtain ⟨s', h1, h2, h3, h4⟩ := key l.length le_rfl
  have h3' : ∀ v, s'.Mem v ↔ s.Mem v := fun v => by rw [h3, List.nil_append, hmem]
  have mono : ∀ (n : Nat) (l acc : List IntInterval) (c : Nat) (r : R IntervalSet), normLoop n l acc c = some r → normLoop (n + 1) l acc c = some r := by
    intro n
    induction n with
    | zero =>
      intro l acc c r h
      cases l with
      | nil => exact h
      | cons x l => simp [normLoop] at h
    | succ n ih =>
      intro l acc c r h
      cases l with
      | nil => exact h
      | cons x l =>
        unfold normLoop at h ⊢
        split at h
        · next hx => rw [if_pos hx]; exact ih _ _ _ _ h
        · next hx =>
          rw [if_neg hx]
          simp only at h ⊢
          split at h
          · next hy => rw [if_pos hy]; exact h
          · next hy => rw [if_neg hy]; exact ih _ _ _ _ h
  refine ⟨s', ⟨l.length, fun n hn => ?_⟩, h2, h3', ?_⟩
  · unfold normalize
    rw [← hl]
    induction n, hn using Nat.le_induction with
    | base => exact h1
    | succ n _ ih => exact mono _ _ _ _ _ ih
  · rw [h4]
    congr 2
    ext v
    exact h3' v

/-- C44: on a normalized set, `member` tells whether the value is in one of the intervals. -/
theorem C44_member (s : IntervalSet) (hs : s.Normalized) (v : Nat) : s.member v = true ↔ s.Mem v := by
  have key : ∀ l : List IntInterval, (∀ i ∈ l, i.first < i.last) → l.Pairwise (fun a b => a.last < b.first) →
      ((match lowerBound l ⟨v, v⟩ with
        | 0 => false
        | k + 1 => match l[k]? with
          | none => false
          | some i => decide (v < i.last)) = true ↔ MemL l v) := by
    intro l
    induction l with
    | nil => intro _ _; simp [lowerBound, MemL]
    | cons x l ih =>
      intro hne hpw
      have hx := hne x (by simp)
      have hpw' := List.pairwise_cons.1 hpw
      have ih := ih (fun i hi => hne i (by simp [hi])) hpw'.2
      unfold lowerBound at ih ⊢
      by_cases hlt : x.lt ⟨v, v⟩ = true
      · rw [List.takeWhile_cons_of_pos (p := fun y : IntInterval => y.lt ⟨v, v⟩) hlt, List.length_cons]
        have hxv : x.first ≤ v := by
          simp only [IntInterval.lt, Bool.or_eq_true, Bool.and_eq_true, decide_eq_true_eq] at hlt
          omega
        cases hk : (l.takeWhile fun y => y.lt ⟨v, v⟩).length with
        | zero =>
          rw [hk] at ih
          have hno : ¬ MemL l v := fun h => by simpa using ih.2 h
          simp only [List.getElem?_cons_zero, decide_eq_true_eq, memL_cons, hno, or_false, hxv, true_and]
        | succ k =>
          rw [hk] at ih
          simp only [List.getElem?_cons_succ]
          refine ih.trans ?_
          rw [memL_cons]
          refine ⟨.inr, fun h => h.resolve_left ?_⟩
          rintro ⟨-, hv⟩
          have hl : l ≠ [] := by rintro rfl; simp at hk
          obtain ⟨y, l', rfl⟩ := List.exists_cons_of_ne_nil hl
          have hy : y.lt ⟨v, v⟩ = true := by
            by_contra hy
            rw [List.takeWhile_cons_of_neg (p := fun y : IntInterval => y.lt ⟨v, v⟩) hy] at hk
            simp at hk
          have h2 := hpw'.1 y (by simp)
          simp only [IntInterval.lt, Bool.or_eq_true, Bool.and_eq_true, decide_eq_true_eq] at hy
          omega
      · rw [List.takeWhile_cons_of_neg (p := fun y : IntInterval => y.lt ⟨v, v⟩) hlt]
        have hxv : v < x.first := by
          simp only [IntInterval.lt, Bool.or_eq_true, Bool.and_eq_true, decide_eq_true_eq, not_or, not_and] at hlt
          omega
        simp only [List.length_nil, Bool.false_eq_true, false_iff, memL_cons, not_or, not_and]
        refine ⟨fun h => by omega, ?_⟩
        rintro ⟨i, hi, h1, -⟩
        have := hpw'.1 i hi
        omega
  exact key s.intervals hs.1 hs.2

/-- C44: `union` and `push` add members. -/
theorem C44_union (s t : IntervalSet) (i : IntInterval) (v : Nat) :
    ((s.union t).Mem v ↔ s.Mem v ∨ t.Mem v) ∧ ((s.push i).Mem v ↔ s.Mem v ∨ (i.first ≤ v ∧ v < i.last)) ∧ ¬ s.clear.Mem v := by
  refine ⟨memL_append, ?_, fun ⟨i, hi, _⟩ => by cases hi⟩
  refine memL_append.trans (or_congr_right ?_)
  simp [MemL]

/-- C44: on a normalized set, `singleton` tells whether there is exactly one member. -/
theorem C44_singleton (s : IntervalSet) (hs : s.Normalized) : s.singleton = true ↔ ∃! v, s.Mem v := by
  obtain ⟨l, c⟩ := s
  obtain ⟨hne, hpw⟩ := hs
  match l, hne, hpw with
  | [], _, _ => simp [IntervalSet.singleton, IntervalSet.Mem]
  | [i], hne, _ =>
    have hi := hne i (by simp)
    simp only [IntervalSet.singleton, IntervalSet.Mem, decide_eq_true_eq]
    constructor
    · intro h
      refine ⟨i.first, ⟨i, by simp, by omega, by omega⟩, ?_⟩
      rintro v ⟨j, hj, h1, h2⟩
      obtain rfl := List.mem_singleton.1 hj
      omega
    · rintro ⟨v, -, hu⟩
      have h1 := hu i.first ⟨i, by simp, by omega, by omega⟩
      have h2 := hu (i.last - 1) ⟨i, by simp, by omega, by omega⟩
      omega
  | i :: j :: l, hne, hpw =>
    simp only [IntervalSet.singleton, Bool.false_eq_true, false_iff]
    rintro ⟨v, -, hu⟩
    have hi := hne i (by simp)
    have hj := hne j (by simp)
    have h1 := hu i.first ⟨i, by simp, by omega, by omega⟩
    have h2 := hu j.first ⟨j, by simp, by omega, by omega⟩
    have := (List.pairwise_cons.1 hpw).1 j (by simp)
    omega

/-- `normalize` does not end when it comes to an empty interval. -/
theorem C44_diverges (fuel : Nat) : (⟨[⟨3, 3⟩], none⟩ : IntervalSet).normalize fuel = none := by
  have : ∀ n, normLoop n [⟨3, 3⟩] [] 0 = none := by
    intro n
    induction n with
    | zero => rfl
    | succ n ih => unfold normLoop; simpa using ih
  unfold normalize
  rw [List.mergeSort_singleton]
  exact this fuel

/-- Without `normalize`, `member` can miss a member. -/
theorem C44_not_normalized : (⟨[⟨0, 9⟩, ⟨2, 3⟩], none⟩ : IntervalSet).member 5 = false ∧ (⟨[⟨0, 9⟩, ⟨2, 3⟩], none⟩ : IntervalSet).Mem 5 :=
  ⟨by decide, ⟨0, 9⟩, by simp, by decide, by decide⟩

/-! ## Examples -/

example : ∃ s', EndsWith (⟨[⟨12, 13⟩, ⟨0, 5⟩, ⟨5, 10⟩, ⟨3, 4⟩], none⟩ : IntervalSet).normalize (.ok s') ∧ s'.Normalized ∧
    (∀ v, s'.Mem v ↔ (⟨[⟨12, 13⟩, ⟨0, 5⟩, ⟨5, 10⟩, ⟨3, 4⟩], none⟩ : IntervalSet).Mem v) ∧
    s'.count = some {v | (⟨[⟨12, 13⟩, ⟨0, 5⟩, ⟨5, 10⟩, ⟨3, 4⟩], none⟩ : IntervalSet).Mem v}.ncard := C44_normalize _ (by decide)

example : (⟨[⟨0, 10⟩, ⟨12, 13⟩], some 11⟩ : IntervalSet).Normalized := ⟨by decide, by decide⟩

end Verif
