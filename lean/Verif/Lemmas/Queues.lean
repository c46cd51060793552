import Verif.Spec.Queue
import Mathlib.Algebra.Order.BigOperators.Group.List
import Mathlib.Data.Finset.Card
import Mathlib.Data.Finset.Filter
import Mathlib.Data.Finset.Range
import Mathlib.Tactic.Ring

/-! # The queues keep their laws -/

namespace Verif
universe u

/-- FIFO queues. -/
def fifoLaw (ok) : QueueLaw fifoOps ok (fun _ _ => True) where
  Rep _ q S := ∀ x, x ∈ S ↔ x ∈ q
  size := List.length
  enqueue {c q S s} h _ := ⟨q ++ [s], rfl, by simp [h, or_comm], by simp⟩
  update {c q S s} h _ := ⟨q, rfl, h, le_rfl⟩
  dequeue {c q S} h := by
    cases q with
    | nil => exact .inr ⟨[], rfl, by ext x; simp [h], by simp⟩
    | cons s q =>
      refine .inl ⟨s, q, {x | x ∈ q}, rfl, by simp [h], fun x => Iff.rfl, ?_, ?_, fun _ _ => trivial, by simp⟩
      · intro x hx; simp only [h, List.mem_cons]; exact .inr hx
      · intro x hx; rw [h] at hx
        simp only [Set.mem_union, Set.mem_singleton_iff, Set.mem_ofPred_eq]
        exact (List.mem_cons.1 hx).symm
  isEmpty {c q S} h := by
    refine ⟨q.isEmpty, rfl, ?_⟩
    rw [List.isEmpty_iff, Set.eq_empty_iff_forall_notMem, List.eq_nil_iff_forall_not_mem]
    exact forall_congr' fun x => not_congr (h x).symm
  head {c q S} h hne := by
    obtain ⟨x, hx⟩ := hne
    cases q with
    | nil => exact absurd ((h x).1 hx) List.not_mem_nil
    | cons s q => exact ⟨s, q, rfl, rfl⟩
  clear {c q S} _ := ⟨[], rfl, by simp, rfl⟩

/-- LIFO queues. -/
def lifoLaw (ok) : QueueLaw lifoOps ok (fun _ _ => True) where
  Rep _ q S := ∀ x, x ∈ S ↔ x ∈ q
  size := List.length
  enqueue {c q S s} h _ := ⟨s :: q, rfl, by simp [h], by simp⟩
  update {c q S s} h _ := ⟨q, rfl, h, le_rfl⟩
  dequeue {c q S} h := by
    cases q with
    | nil => exact .inr ⟨[], rfl, by ext x; simp [h], by simp⟩
    | cons s q =>
      refine .inl ⟨s, q, {x | x ∈ q}, rfl, by simp [h], fun x => Iff.rfl, ?_, ?_, fun _ _ => trivial, by simp⟩
      · intro x hx; simp only [h, List.mem_cons]; exact .inr hx
      · intro x hx; rw [h] at hx
        simp only [Set.mem_union, Set.mem_singleton_iff, Set.mem_ofPred_eq]
        exact (List.mem_cons.1 hx).symm
  isEmpty {c q S} h := by
    refine ⟨q.isEmpty, rfl, ?_⟩
    rw [List.isEmpty_iff, Set.eq_empty_iff_forall_notMem, List.eq_nil_iff_forall_not_mem]
    exact forall_congr' fun x => not_congr (h x).symm
  head {c q S} h hne := by
    obtain ⟨x, hx⟩ := hne
    cases q with
    | nil => exact absurd ((h x).1 hx) List.not_mem_nil
    | cons s q => exact ⟨s, q, rfl, rfl⟩
  clear {c q S} _ := ⟨[], rfl, by simp, rfl⟩

theorem advance_spec (p : Nat → Bool) : ∀ n i, i ≤ advance p n i ∧ advance p n i ≤ i + n ∧
    (∀ k, i ≤ k → k < advance p n i → p k = false) ∧ (advance p n i < i + n → p (advance p n i) = true)
  | 0, i => by simp [advance]; omega
  | n + 1, i => by
    unfold advance
    by_cases h : p i = true
    · simp only [h, if_true]
      exact ⟨le_rfl, by omega, fun k a b => by omega, fun _ => trivial⟩
    · obtain ⟨a, b, c, d⟩ := advance_spec p n (i + 1)
      simp only [h]
      refine ⟨by simp; omega, by simp; omega, ?_, ?_⟩
      · intro k hk1 hk2
        rcases Nat.lt_or_ge i k with h' | h'
        · exact c k (by omega) (by simpa using hk2)
        · have : k = i := by omega
          subst this; simpa using h
      · intro hl
        simp only [Bool.false_eq_true, if_false] at hl ⊢
        exact d (by omega)

/-- The cursors of the two ordered queues: `p` tells which positions are taken. -/
structure Cursor (front : Nat) (back : Option Nat) (p : Nat → Prop) : Prop where
  inside : ∀ i, p i → ∃ b, back = some b ∧ front ≤ i ∧ i ≤ b
  first : ∀ b, back = some b → front ≤ b → p front

theorem Cursor.none_of_empty {front back p} (h : Cursor front back p) (he : ∀ b, back = some b → b < front) : ∀ i, ¬ p i := by
  intro i hi
  obtain ⟨b, hb, h1, h2⟩ := h.inside i hi
  have := he b hb
  omega

theorem Cursor.enqueue {front back p} (h : Cursor front back p) (s : Nat) :
    Cursor (StateOrderQ.bounds front back s).1 (StateOrderQ.bounds front back s).2 (fun i => p i ∨ i = s) := by
  have key : (StateOrderQ.bounds front back s = (s, some s) ∧ ∀ i, ¬ p i) ∨
      (∃ b, back = some b ∧ front ≤ b ∧ StateOrderQ.bounds front back s = (min front s, some (max b s))) := by
    cases back with
    | none => exact .inl ⟨rfl, h.none_of_empty (by simp)⟩
    | some b =>
      by_cases h1 : b < front
      · refine .inl ⟨by simp [StateOrderQ.bounds, h1], h.none_of_empty (by intro c hc; cases hc; exact h1)⟩
      · refine .inr ⟨b, rfl, by omega, ?_⟩
        unfold StateOrderQ.bounds
        simp only [h1, if_false]
        split
        · simp; omega
        · split
          · simp; omega
          · simp; omega
  rcases key with ⟨e, hp⟩ | ⟨b, rfl, hfb, e⟩
  · rw [e]
    refine ⟨?_, ?_⟩
    · rintro i (hi | rfl)
      · exact absurd hi (hp i)
      · exact ⟨i, rfl, le_rfl, le_rfl⟩
    · intro b hb _; exact .inr rfl
  · rw [e]
    refine ⟨?_, ?_⟩
    · rintro i (hi | rfl)
      · obtain ⟨b', hb', h1, h2⟩ := h.inside i hi
        cases hb'
        exact ⟨_, rfl, by simp; omega, by simp; omega⟩
      · exact ⟨_, rfl, by simp, by simp⟩
    · intro b' hb' _
      rcases Nat.lt_or_ge s front with h1 | h1
      · right; simp; omega
      · left
        rw [show min front s = front by omega]
        exact h.first b rfl hfb

theorem Cursor.dequeue {front b p} (h : Cursor front (some b) p) (hb : front ≤ b) (e : Nat → Bool)
    (he : ∀ i, e i = true ↔ p i ∧ i ≠ front) :
    Cursor (advance e (b + 1 - front) front) (some b) (fun i => p i ∧ i ≠ front) := by
  obtain ⟨a1, a2, a3, a4⟩ := advance_spec e (b + 1 - front) front
  refine ⟨?_, ?_⟩
  · rintro i ⟨hi, hne⟩
    obtain ⟨b', hb', h1, h2⟩ := h.inside i hi
    cases hb'
    refine ⟨b, rfl, ?_, h2⟩
    by_contra hlt
    have := a3 i h1 (by omega)
    rw [(he i).2 ⟨hi, hne⟩] at this
    cases this
  · intro b' hb' hle
    cases hb'
    exact (he _).1 (a4 (by omega))

/-- State-order queues: the smallest waiting state comes first. -/
def stateOrderLaw (ok) : QueueLaw StateOrderQ.ops ok (fun s x => s < x) where
  Rep _ q S := (∀ x, x ∈ S ↔ q.enqueued x = true) ∧ Cursor q.front q.back (· ∈ S)
  size q := match q.back with
    | none => 0
    | some b => ((Finset.range (b + 1)).filter (fun i => q.enqueued i = true)).card
  enqueue {c q S s} h _ := by
    refine ⟨q.enqueue s, rfl, ⟨?_, ?_⟩, ?_⟩
    · intro x
      simp only [StateOrderQ.enqueue, upd, Set.mem_union, Set.mem_singleton_iff, h.1]
      by_cases hx : x = s <;> simp [hx]
    · exact h.2.enqueue s
    · have hc := h.2.enqueue s
      have hsub : ∀ b', ((Finset.range (b' + 1)).filter (fun i => (q.enqueue s).enqueued i = true)) ⊆
          insert s (match q.back with
            | none => ∅
            | some b => ((Finset.range (b + 1)).filter (fun i => q.enqueued i = true))) := by
        intro b' i hi
        rw [Finset.mem_filter] at hi
        rw [Finset.mem_insert]
        simp only [StateOrderQ.enqueue, upd] at hi
        by_cases his : i = s
        · exact .inl his
        · right
          rw [if_neg his] at hi
          obtain ⟨b, hb, h1, h2⟩ := h.2.inside i ((h.1 i).2 hi.2)
          rw [hb]
          simp [hi.2]; omega
      have hcard := fun b' => Finset.card_le_card (hsub b')
      have hins := fun T : Finset Nat => Finset.card_insert_le s T
      cases hb' : (q.enqueue s).back with
      | none => simp
      | some b' =>
        refine (hcard b').trans ((hins _).trans ?_)
        cases q.back <;> simp
  update {c q S s} h _ := ⟨q, rfl, h, le_rfl⟩
  dequeue {c q S} h := by
    by_cases he : q.isEmpty = true
    · have hS : S = ∅ := by
        ext x
        simp only [Set.mem_empty_iff_false, iff_false]
        refine h.2.none_of_empty (fun b hb => ?_) x
        simpa [StateOrderQ.isEmpty, hb] using he
      refine .inr ⟨q, ?_, hS, by rw [← hS]; exact h⟩
      simp [StateOrderQ.ops, StateOrderQ.dequeue, he]
    · obtain ⟨b, hb, hle⟩ : ∃ b, q.back = some b ∧ q.front ≤ b := by
        unfold StateOrderQ.isEmpty at he
        cases hq : q.back with
        | none => rw [hq] at he; simp at he
        | some b => rw [hq] at he; exact ⟨b, rfl, by simpa using he⟩
      have hf := h.2.first b hb hle
      refine .inl ⟨q.front, ⟨advance (upd q.enqueued q.front false) (b + 1 - q.front) q.front, some b,
        upd q.enqueued q.front false⟩, {x | x ∈ S ∧ x ≠ q.front}, ?_, hf, ⟨?_, ?_⟩, fun x hx => hx.1, ?_, ?_, ?_⟩
      · simp [StateOrderQ.ops, StateOrderQ.dequeue, he, hb]
      · intro x
        change (x ∈ S ∧ x ≠ q.front) ↔ _
        rw [h.1]
        by_cases hx : x = q.front <;> simp [upd, hx]
      · refine Cursor.dequeue (p := (· ∈ S)) (hb ▸ h.2) hle _ fun i => ?_
        rw [h.1]
        by_cases hx : i = q.front <;> simp [upd, hx]
      · intro x hx
        by_cases hxf : x = q.front
        · exact .inr hxf
        · exact .inl ⟨hx, hxf⟩
      · rintro x ⟨hx, hne⟩
        obtain ⟨b', hb', h1, h2⟩ := h.2.inside x hx
        exact lt_of_le_of_ne h1 (Ne.symm hne)
      · simp only [hb]
        refine Finset.card_lt_card ?_
        rw [Finset.ssubset_iff_of_subset]
        · refine ⟨q.front, ?_, ?_⟩
          · simp only [Finset.mem_filter, Finset.mem_range]
            exact ⟨by omega, (h.1 _).1 hf⟩
          · simp [upd]
        · intro i hi
          obtain ⟨hi1, hi2⟩ := Finset.mem_filter.1 hi
          refine Finset.mem_filter.2 ⟨hi1, ?_⟩
          simp only [upd] at hi2
          by_cases hx : i = q.front
          · simp [hx] at hi2
          · simpa [hx] using hi2
  isEmpty {c q S} h := by
    refine ⟨q.isEmpty, rfl, ?_⟩
    constructor
    · intro he
      refine Set.eq_empty_iff_forall_notMem.2 (h.2.none_of_empty fun b hb => ?_)
      simpa [StateOrderQ.isEmpty, hb] using he
    · intro hS
      unfold StateOrderQ.isEmpty
      cases hb : q.back with
      | none => rfl
      | some b =>
        simp only [decide_eq_true_eq]
        by_contra hlt
        have := h.2.first b hb (by omega)
        rw [hS] at this
        exact this
  head {c q S} h hne := by
    have he : q.isEmpty = false := by
      obtain ⟨x, hx⟩ := hne
      obtain ⟨b, hb, h1, h2⟩ := h.2.inside x hx
      simp only [StateOrderQ.isEmpty, hb, decide_eq_false_iff_not]
      omega
    refine ⟨q.front, (q.dequeue).2, rfl, ?_⟩
    simp only [StateOrderQ.ops, StateOrderQ.dequeue, he]
    cases q.back <;> rfl
  clear {c q S} h := by
    refine ⟨q.clear, rfl, ⟨?_, ?_⟩, ?_⟩
    · intro x
      simp only [Set.mem_empty_iff_false, false_iff, Bool.not_eq_true]
      unfold StateOrderQ.clear
      cases hb : q.back with
      | none =>
        cases hx : q.enqueued x with
        | false => rfl
        | true =>
          obtain ⟨b, hb', -⟩ := h.2.inside x ((h.1 x).2 hx)
          rw [hb] at hb'; cases hb'
      | some b =>
        simp only
        split
        · rfl
        · next hn =>
          cases hx : q.enqueued x with
          | false => rfl
          | true =>
            obtain ⟨b', hb', h1, h2⟩ := h.2.inside x ((h.1 x).2 hx)
            rw [hb] at hb'; cases hb'
            exact absurd ⟨h1, h2⟩ hn
    · unfold StateOrderQ.clear
      cases q.back <;> exact ⟨fun i hi => absurd hi (Set.notMem_empty i), fun b hb => by cases hb⟩
    · unfold StateOrderQ.clear
      cases q.back <;> rfl

/-- What is known about the numbers given to `TopOrderQueue::from_precomputed_order`. -/
structure OrderOk (order : List Nat) (n : Nat) : Prop where
  length : order.length = n
  lt : ∀ o ∈ order, o < n
  nodup : order.Nodup

/-- Topological-order queues: the waiting state with the smallest number comes first. -/
def topOrderLaw (order : List Nat) (n : Nat) (ho : OrderOk order n) (ok : Option StateId → StateId → Prop)
    (hok : ∀ c s, ok c s → s < n) : QueueLaw TopOrderQ.ops ok (fun s x => order[s]?.getD 0 < order[x]?.getD 0) where
  Rep _ q S := q.order = order ∧ q.state.length = n ∧ (∀ x, x ∈ S ↔ ∃ i, q.state[i]? = some (some x)) ∧
    (∀ (i : Nat) x, q.state[i]? = some (some x) → order[x]? = some i) ∧ Cursor q.front q.back (fun i => ∃ x, q.state[i]? = some (some x))
  size q := (q.state.filter Option.isSome).length
  enqueue {c q S s} h hs := by
    obtain ⟨h1, h2, h3, h4, h5⟩ := h
    have hsn := hok c s hs
    have hlen := ho.length
    obtain ⟨o, hoS⟩ : ∃ o, order[s]? = some o := ⟨order[s], by rw [List.getElem?_eq_getElem (by omega)]⟩
    have hon : o < n := ho.lt o (List.mem_of_getElem? hoS)
    have hinj : ∀ x, order[x]? = some o → x = s := by
      intro x hx
      obtain ⟨hx1, hx2⟩ := List.getElem?_eq_some_iff.1 hx
      obtain ⟨hs1, hs2⟩ := List.getElem?_eq_some_iff.1 hoS
      exact (List.Nodup.getElem_inj_iff ho.nodup).1 (hx2.trans hs2.symm)
    have hset : ∀ i : Nat, (q.state.set o (some s))[i]? = if o = i then some (some s) else q.state[i]? := by
      intro i
      rw [List.getElem?_set, h2]
      by_cases hio : o = i
      · subst hio; simp [hon]
      · simp [hio]
    refine ⟨⟨q.order, q.state.set o (some s), (StateOrderQ.bounds q.front q.back o).1, (StateOrderQ.bounds q.front q.back o).2⟩,
      ?_, ⟨h1, by simpa using h2, ?_, ?_, ?_⟩, ?_⟩
    · simp [TopOrderQ.ops, TopOrderQ.enqueue, h1, hoS, h2, hon]
    · intro x
      simp only [Set.mem_union, Set.mem_singleton_iff, h3]
      constructor
      · rintro (⟨i, hi⟩ | rfl)
        · by_cases hio : o = i
          · subst hio
            have := hinj x (h4 _ _ hi)
            exact ⟨o, by rw [hset]; simp [this]⟩
          · exact ⟨i, by rw [hset]; simp [hio, hi]⟩
        · exact ⟨o, by rw [hset]; simp⟩
      · rintro ⟨i, hi⟩
        rw [hset] at hi
        by_cases hio : o = i
        · right
          subst hio
          simpa using hi.symm
        · left; exact ⟨i, by simpa [hio] using hi⟩
    · intro i x hi
      rw [hset] at hi
      by_cases hio : o = i
      · subst hio
        simp at hi
        rw [← hi, hoS]
      · exact h4 i x (by simpa [hio] using hi)
    · have := h5.enqueue o
      refine ⟨fun i hi => this.inside i ?_, fun b hb hle => ?_⟩
      · obtain ⟨x, hx⟩ := hi
        rw [hset] at hx
        by_cases hio : o = i
        · exact .inr hio.symm
        · left; exact ⟨x, by simpa [hio] using hx⟩
      · have hf := this.first b hb hle
        simp only [hset]
        rcases hf with ⟨x, hx⟩ | hf
        · by_cases hio : o = (StateOrderQ.bounds q.front q.back o).1
          · exact ⟨s, by simp [← hio]⟩
          · exact ⟨x, by simp [hio, hx]⟩
        · exact ⟨s, by simp [hf]⟩
    · simp only [← List.countP_eq_length_filter]
      rw [List.countP_set (by omega)]
      simp
  update {c q S s} h _ := ⟨q, rfl, h, le_rfl⟩
  dequeue {c q S} h := by
    obtain ⟨h1, h2, h3, h4, h5⟩ := id h
    by_cases he : q.isEmpty = true
    · have hS : S = ∅ := by
        ext x
        simp only [Set.mem_empty_iff_false, iff_false, h3]
        rintro ⟨i, hi⟩
        refine h5.none_of_empty (fun b hb => ?_) i ⟨x, hi⟩
        simpa [TopOrderQ.isEmpty, hb] using he
      refine .inr ⟨q, ?_, hS, by rw [← hS]; exact h⟩
      simp [TopOrderQ.ops, TopOrderQ.dequeue, he]
    · obtain ⟨b, hb, hle⟩ : ∃ b, q.back = some b ∧ q.front ≤ b := by
        unfold TopOrderQ.isEmpty at he
        cases hq : q.back with
        | none => rw [hq] at he; simp at he
        | some b => rw [hq] at he; exact ⟨b, rfl, by simpa using he⟩
      obtain ⟨s, hs⟩ := h5.first b hb hle
      have hfn : q.front < q.state.length := (List.getElem?_eq_some_iff.1 hs).1
      have hset : ∀ i : Nat, (q.state.set q.front none)[i]? = if q.front = i then some none else q.state[i]? := by
        intro i
        rw [List.getElem?_set]
        by_cases hio : q.front = i
        · subst hio; simp [hfn]
        · simp [hio]
      have hmem : ∀ i x, (q.state.set q.front none)[i]? = some (some x) ↔ q.state[i]? = some (some x) ∧ i ≠ q.front := by
        intro i x
        rw [hset]
        by_cases hio : q.front = i
        · subst hio; simp
        · simp [hio, Ne.symm hio]
      refine .inl ⟨s, ⟨q.order, q.state.set q.front none,
        advance (fun i => ((q.state.set q.front none)[i]?.getD none).isSome) (b + 1 - q.front) q.front, some b⟩,
        {x | ∃ i, q.state[i]? = some (some x) ∧ i ≠ q.front}, ?_, (h3 s).2 ⟨_, hs⟩, ⟨h1, by simpa using h2, ?_, ?_, ?_⟩, ?_, ?_, ?_, ?_⟩
      · simp [TopOrderQ.ops, TopOrderQ.dequeue, he, hb, hs]
      · intro x
        simp only [hmem]
        rfl
      · intro i x hx
        exact h4 i x ((hmem i x).1 hx).1
      · have := Cursor.dequeue (hb ▸ h5) hle (fun i => ((q.state.set q.front none)[i]?.getD none).isSome) fun i => by
          rw [hset]
          by_cases hio : q.front = i
          · subst hio; simp
          · simp only [hio, if_false, ne_eq, Ne.symm hio, not_false_eq_true, and_true]
            cases hq : q.state[i]? with
            | none => simp
            | some y => cases y <;> simp
        refine ⟨fun i hi => this.inside i ?_, fun b' hb' hle' => ?_⟩
        · obtain ⟨x, hx⟩ := hi
          exact ⟨⟨x, ((hmem i x).1 hx).1⟩, ((hmem i x).1 hx).2⟩
        · obtain ⟨⟨x, hx⟩, hne⟩ := this.first b' hb' hle'
          exact ⟨x, (hmem _ x).2 ⟨hx, hne⟩⟩
      · rintro x ⟨i, hi, -⟩
        exact (h3 x).2 ⟨i, hi⟩
      · intro x hx
        obtain ⟨i, hi⟩ := (h3 x).1 hx
        by_cases hif : i = q.front
        · right
          subst hif
          rw [hs] at hi
          cases hi; rfl
        · left; exact ⟨i, hi, hif⟩
      · rintro x ⟨i, hi, hne⟩
        rw [h4 _ _ hi, h4 _ _ hs]
        obtain ⟨b', hb', h1', h2'⟩ := h5.inside i ⟨x, hi⟩
        simp only [Option.getD_some]
        omega
      · simp only [← List.countP_eq_length_filter]
        rw [List.countP_set hfn]
        have hg : q.state[q.front] = some s := (List.getElem?_eq_some_iff.1 hs).2
        have hpos : 0 < q.state.countP Option.isSome := List.countP_pos_iff.2 ⟨_, List.getElem_mem hfn, by rw [hg]; rfl⟩
        simp [hg]
        exact List.countP_pos_iff.1 hpos
  isEmpty {c q S} h := by
    obtain ⟨h1, h2, h3, h4, h5⟩ := h
    refine ⟨q.isEmpty, rfl, ?_⟩
    constructor
    · intro he
      refine Set.eq_empty_iff_forall_notMem.2 fun x hx => ?_
      obtain ⟨i, hi⟩ := (h3 x).1 hx
      refine h5.none_of_empty (fun b hb => ?_) i ⟨x, hi⟩
      simpa [TopOrderQ.isEmpty, hb] using he
    · intro hS
      unfold TopOrderQ.isEmpty
      cases hb : q.back with
      | none => rfl
      | some b =>
        simp only [decide_eq_true_eq]
        by_contra hlt
        obtain ⟨x, hx⟩ := h5.first b hb (by omega)
        have := (h3 x).2 ⟨_, hx⟩
        rw [hS] at this
        exact this
  head {c q S} h hne := by
    obtain ⟨h1, h2, h3, h4, h5⟩ := h
    obtain ⟨x, hx⟩ := hne
    obtain ⟨i, hi⟩ := (h3 x).1 hx
    obtain ⟨b, hb, h6, h7⟩ := h5.inside i ⟨x, hi⟩
    obtain ⟨s, hs⟩ := h5.first b hb (by omega)
    have he : q.isEmpty = false := by
      simp only [TopOrderQ.isEmpty, hb, decide_eq_false_iff_not]
      omega
    have hd : ∃ q', TopOrderQ.ops.dequeue q = .ok (some s, q') := by
      simp only [TopOrderQ.ops, TopOrderQ.dequeue, he, hs, hb]
      exact ⟨_, rfl⟩
    obtain ⟨q', hd⟩ := hd
    exact ⟨s, q', by simp [TopOrderQ.ops, hs], hd⟩
  clear {c q S} h := by
    obtain ⟨h1, h2, h3, h4, h5⟩ := h
    have hnone : ∀ (i : Nat) x, q.clear.state[i]? ≠ some (some x) := by
      intro i x
      unfold TopOrderQ.clear
      cases hb : q.back with
      | none =>
        intro hx
        obtain ⟨b, hb', -⟩ := h5.inside i ⟨x, hx⟩
        rw [hb] at hb'; cases hb'
      | some b =>
        simp only [List.getElem?_mapIdx]
        cases hq : q.state[i]? with
        | none => simp
        | some y =>
          simp only [Option.map_some]
          split
          · simp
          · next hn =>
            intro hx
            cases hx
            obtain ⟨b', hb', h1, h2⟩ := h5.inside i ⟨x, hq⟩
            rw [hb] at hb'; cases hb'
            exact hn ⟨h1, h2⟩
    refine ⟨q.clear, rfl, ⟨?_, ?_, ?_, ?_, ?_⟩, ?_⟩
    · rw [← h1]; unfold TopOrderQ.clear; cases q.back <;> rfl
    · rw [← h2]; unfold TopOrderQ.clear; cases q.back <;> simp
    · intro x
      simp only [Set.mem_empty_iff_false, false_iff, not_exists]
      exact fun i => hnone i x
    · intro i x hx; exact absurd hx (hnone i x)
    · refine ⟨fun i ⟨x, hx⟩ => absurd hx (hnone i x), fun b hb => ?_⟩
      unfold TopOrderQ.clear at hb
      cases hq : q.back <;> rw [hq] at hb <;> cases hb
    · rw [List.length_eq_zero_iff, List.filter_eq_nil_iff]
      intro y hy
      obtain ⟨i, hi⟩ := List.getElem?_of_mem hy
      cases y with
      | none => simp
      | some x => exact absurd hi (hnone i x)

end Verif
