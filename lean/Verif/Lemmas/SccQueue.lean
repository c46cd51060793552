import Verif.Lemmas.Queues

/-! # The queue of components keeps its law -/

namespace Verif
universe u

namespace InnerQ

/-- The states in a queue. -/
def list : InnerQ → List StateId
  | trivial q => q.toList
  | fifo q => q

/-- Is it a `TrivialQueue`? -/
def single : InnerQ → Bool
  | trivial _ => true
  | fifo _ => false

theorem isEmpty_eq (q : InnerQ) : ops.isEmpty q = .ok q.list.isEmpty := by
  cases q with
  | trivial q => cases q <;> rfl
  | fifo q => rfl

theorem update_eq (q : InnerQ) (s : StateId) : ops.update q s = .ok q := by cases q <;> rfl

theorem enqueue_spec (q : InnerQ) (s : StateId) (h : q.single = true → ∀ x ∈ q.list, x = s) :
    ∃ q', ops.enqueue q s = .ok q' ∧ (∀ x, x ∈ q'.list ↔ x ∈ q.list ∨ x = s) ∧ q'.single = q.single ∧
      q'.list.length ≤ q.list.length + 1 := by
  cases q with
  | fifo q => exact ⟨.fifo (q ++ [s]), rfl, by simp [list], rfl, by simp [list]⟩
  | trivial q =>
    refine ⟨.trivial (some s), rfl, fun x => ?_, rfl, by simp [list]⟩
    have := h rfl x
    cases q with
    | none => simp [list]
    | some y => simp [list] at this ⊢; tauto

theorem dequeue_spec (q : InnerQ) {s : StateId} {l : List StateId} (h : q.list = s :: l) :
    ∃ q', ops.dequeue q = .ok (some s, q') ∧ q'.list = l ∧ q'.single = q.single := by
  cases q with
  | fifo q =>
    simp only [list] at h
    subst h
    exact ⟨.fifo l, rfl, rfl, rfl⟩
  | trivial q =>
    cases q with
    | none => simp [list] at h
    | some y =>
      simp [list] at h
      obtain ⟨rfl, rfl⟩ := h
      exact ⟨.trivial none, rfl, rfl, rfl⟩

theorem head_eq (q : InnerQ) : ops.head q = .ok q.list.head? := by
  cases q with
  | trivial q => cases q <;> rfl
  | fifo q => rfl

theorem clear_spec (q : InnerQ) : ∃ q', ops.clear q = .ok q' ∧ q'.list = [] ∧ q'.single = q.single := by
  cases q with
  | fifo q => exact ⟨.fifo [], rfl, rfl, rfl⟩
  | trivial q => exact ⟨.trivial none, rfl, rfl, rfl⟩

end InnerQ

theorem sum_map_set {α : Type u} (g : α → Nat) : ∀ (l : List α) (i : Nat) (x y : α), l[i]? = some x →
    ((l.set i y).map g).sum + g x = (l.map g).sum + g y
  | [], i, x, y, h => by simp at h
  | a :: l, 0, x, y, h => by simp at h; subst h; simp; omega
  | a :: l, i + 1, x, y, h => by
    simp at h
    have := sum_map_set g l i x y h
    simp only [List.set_cons_succ, List.map_cons, List.sum_cons]
    omega

namespace SccQ

theorem updateFront_spec (qs : List InnerQ) : ∀ n i, i + n ≤ qs.length →
    ∃ j, updateFront InnerQ.ops qs n i = .ok j ∧ i ≤ j ∧ j ≤ i + n ∧
      (∀ (k : Nat) q, i ≤ k → k < j → qs[k]? = some q → q.list = []) ∧ (j < i + n → ∃ q s l, qs[j]? = some q ∧ q.list = s :: l)
  | 0, i, h => ⟨i, rfl, le_rfl, le_rfl, fun k q a b => by omega, fun a => by omega⟩
  | n + 1, i, h => by
    obtain ⟨q, hq⟩ : ∃ q, qs[i]? = some q := ⟨qs[i], by rw [List.getElem?_eq_getElem (by omega)]⟩
    unfold updateFront
    rw [hq]
    simp only [InnerQ.isEmpty_eq]
    cases hl : q.list with
    | nil =>
      obtain ⟨j, e, a, b, c, d⟩ := updateFront_spec qs n (i + 1) (by omega)
      refine ⟨j, by simpa using e, by omega, by omega, ?_, fun hj => d (by omega)⟩
      intro k q' h1 h2 h3
      rcases Nat.lt_or_ge i k with h4 | h4
      · exact c k q' (by omega) h2 h3
      · have : k = i := by omega
        subst this
        rw [hq] at h3; cases h3; exact hl
    | cons s l =>
      exact ⟨i, by simp, le_rfl, by omega, fun k q a b => by omega, fun _ => ⟨q, s, l, hq, hl⟩⟩

/-- The state of the queue: `m` components, `sccs[s]` is the component of `s`. -/
structure Inv (sccs : List Nat) (m : Nat) (c : Option StateId) (q : SccQ InnerQ) (S : Set StateId) : Prop where
  keys : q.sccs = sccs
  len : q.queues.length = m
  mem : ∀ x, x ∈ S ↔ ∃ (i : Nat) (Q : InnerQ), q.queues[i]? = some Q ∧ x ∈ Q.list
  cls : ∀ (i : Nat) (Q : InnerQ) x, q.queues[i]? = some Q → x ∈ Q.list → sccs[x]? = some i
  single : ∀ (i : Nat) (Q : InnerQ), q.queues[i]? = some Q → Q.single = true → ∀ (x y : Nat), sccs[x]? = some i → sccs[y]? = some i → x = y
  inside : ∀ (i : Nat) (Q : InnerQ) x, q.queues[i]? = some Q → x ∈ Q.list → q.front ≤ i ∧ (i : Int) ≤ q.back
  last : ((q.front : Int) < q.back ∨ (c = none ∧ (q.front : Int) ≤ q.back)) →
    ∃ (Q : InnerQ) (x : StateId), q.queues[q.back.toNat]? = some Q ∧ x ∈ Q.list
  lt : (q.front : Int) ≤ q.back → q.back < m
  idle : q.back < q.front → q.front = 0
  cur : ∀ v, c = some v → sccs[v]? = some q.front ∧ (q.front : Int) ≤ q.back

variable {sccs : List Nat} {m : Nat} {c : Option StateId} {q : SccQ InnerQ} {S : Set StateId}

theorem Inv.enqueue (h : Inv sccs m c q S) {s i : Nat} (hs : sccs[s]? = some i) (hi : i < m)
    (hc : ∀ v, c = some v → ∃ k, sccs[v]? = some k ∧ k ≤ i) :
    ∃ q', (SccQ.ops InnerQ.ops).enqueue q s = .ok q' ∧ Inv sccs m c q' (S ∪ {s}) ∧
      (q'.queues.map (fun Q => Q.list.length)).sum ≤ (q.queues.map (fun Q => Q.list.length)).sum + 1 := by
  obtain ⟨Q, hQ⟩ : ∃ Q, q.queues[i]? = some Q := ⟨q.queues[i]'(by rw [h.len]; exact hi), by rw [List.getElem?_eq_getElem]⟩
  obtain ⟨Q', e, hl, hsg, hlen⟩ := Q.enqueue_spec s (fun hsg x hx => h.single i Q hQ hsg x s (h.cls i Q x hQ hx) hs)
  have hset : ∀ k : Nat, (q.queues.set i Q')[k]? = if i = k then some Q' else q.queues[k]? := by
    intro k
    rw [List.getElem?_set, h.len]
    by_cases hik : i = k
    · subst hik; simp [hi]
    · simp [hik]
  obtain ⟨fb, hfb⟩ : ∃ fb : Nat × Int, fb = if q.back < q.front then (i, (i : Int))
      else if q.back < i then (q.front, (i : Int)) else if i < q.front then (i, q.back) else (q.front, q.back) := ⟨_, rfl⟩
  have hfront : ∀ v, c = some v → q.front ≤ i ∧ (q.front : Int) ≤ q.back := by
    intro v hv
    obtain ⟨k, h1, h2⟩ := hc v hv
    obtain ⟨h3, h4⟩ := h.cur v hv
    rw [h1] at h3; cases h3
    exact ⟨h2, h4⟩
  refine ⟨⟨fb.1, fb.2, q.queues.set i Q', q.sccs⟩, ?_, ⟨h.keys, by simpa using h.len, ?_, ?_, ?_, ?_, ?_, ?_, ?_, ?_⟩, ?_⟩
  · simp only [ops, SccQ.enqueue, h.keys, hs, hQ, e]
    rw [hfb]
  · intro x
    rw [Set.mem_union, Set.mem_singleton_iff, h.mem]
    constructor
    · rintro (⟨k, P, hk, hx⟩ | rfl)
      · by_cases hik : i = k
        · subst hik
          rw [hQ] at hk; cases hk
          exact ⟨i, Q', by rw [hset]; simp, (hl x).2 (.inl hx)⟩
        · exact ⟨k, P, by rw [hset]; simpa [hik] using hk, hx⟩
      · exact ⟨i, Q', by rw [hset]; simp, (hl x).2 (.inr rfl)⟩
    · rintro ⟨k, P, hk, hx⟩
      rw [hset] at hk
      by_cases hik : i = k
      · subst hik
        simp at hk
        subst hk
        rcases (hl x).1 hx with hx | rfl
        · exact .inl ⟨i, Q, hQ, hx⟩
        · exact .inr rfl
      · exact .inl ⟨k, P, by simpa [hik] using hk, hx⟩
  · intro k P x hk hx
    rw [hset] at hk
    by_cases hik : i = k
    · subst hik
      simp at hk
      subst hk
      rcases (hl x).1 hx with hx | rfl
      · exact h.cls i Q x hQ hx
      · exact hs
    · exact h.cls k P x (by simpa [hik] using hk) hx
  · intro k P hk hp
    rw [hset] at hk
    by_cases hik : i = k
    · subst hik
      simp at hk
      subst hk
      exact h.single i Q hQ (by rw [← hsg]; exact hp)
    · exact h.single k P (by simpa [hik] using hk) hp
  · intro k P x hk hx
    rw [hset] at hk
    have old : ∀ (Q : InnerQ), q.queues[k]? = some Q → x ∈ Q.list → fb.1 ≤ k ∧ (k : Int) ≤ fb.2 := by
      intro Q hQ hx
      obtain ⟨h1, h2⟩ := h.inside k Q x hQ hx
      rw [hfb]
      split
      · omega
      · split
        · simp; omega
        · split <;> simp <;> omega
    by_cases hik : i = k
    · subst hik
      simp at hk
      subst hk
      rcases (hl x).1 hx with hx | rfl
      · exact old Q hQ hx
      · rw [hfb]
        split
        · simp
        · split
          · simp; omega
          · split <;> simp <;> omega
    · exact old P (by simpa [hik] using hk) hx
  · intro hcond
    have new : fb.2 = (i : Int) → ∃ (Q : InnerQ) (x : StateId), (q.queues.set i Q')[fb.2.toNat]? = some Q ∧ x ∈ Q.list := by
      intro hb
      rw [hb]
      exact ⟨Q', s, by rw [hset]; simp, (hl s).2 (.inr rfl)⟩
    have old : fb.2 = q.back → (∃ (Q : InnerQ) (x : StateId), q.queues[q.back.toNat]? = some Q ∧ x ∈ Q.list) →
        ∃ (Q : InnerQ) (x : StateId), (q.queues.set i Q')[fb.2.toNat]? = some Q ∧ x ∈ Q.list := by
      rintro hb ⟨P, x, hP, hx⟩
      rw [hb]
      by_cases hik : i = q.back.toNat
      · rw [hik, hP] at hQ; cases hQ
        exact ⟨Q', x, by rw [hset]; simp [hik], (hl x).2 (.inl hx)⟩
      · exact ⟨P, x, by rw [hset]; simpa [hik] using hP, hx⟩
    change _ ∨ _ at hcond
    simp only at hcond
    by_cases hA : q.back < q.front
    · exact new (by rw [hfb, if_pos hA])
    · by_cases hB : q.back < i
      · exact new (by rw [hfb, if_neg hA, if_pos hB])
      · have hback : fb.2 = q.back := by
          rw [hfb, if_neg hA, if_neg hB]
          split <;> rfl
        by_cases hC : q.back = i
        · exact new (by rw [hback, hC])
        · cases hcc : c with
          | none => exact old hback (h.last (.inr ⟨hcc, by omega⟩))
          | some v =>
            obtain ⟨h1, h2⟩ := hfront v hcc
            exact old hback (h.last (.inl (by omega)))
  · intro _
    have := h.lt
    simp only
    rw [hfb]
    split
    · simp; omega
    · split
      · simp; omega
      · split <;> simp <;> omega
  · intro hlt
    simp only at hlt
    rw [hfb] at hlt
    exfalso
    revert hlt
    split
    · simp
    · split
      · simp; omega
      · split <;> simp <;> omega
  · intro v hv
    obtain ⟨h1, h2⟩ := hfront v hv
    obtain ⟨h3, h4⟩ := h.cur v hv
    simp only
    rw [hfb, if_neg (by omega)]
    split
    · exact ⟨h3, by simp; omega⟩
    · rw [if_neg (by omega)]
      exact ⟨h3, by simp; omega⟩
  · have := sum_map_set (fun Q : InnerQ => Q.list.length) q.queues i Q Q' hQ
    simp only at this ⊢
    omega

theorem Inv.update (h : Inv sccs m c q S) {s i : Nat} (hs : sccs[s]? = some i) (hi : i < m) :
    (SccQ.ops InnerQ.ops).update q s = .ok q := by
  obtain ⟨Q, hQ⟩ : ∃ Q, q.queues[i]? = some Q := ⟨q.queues[i]'(by rw [h.len]; exact hi), by rw [List.getElem?_eq_getElem]⟩
  simp only [ops, SccQ.update, h.keys, hs, hQ, InnerQ.update_eq]
  have : q.queues.set i Q = q.queues := by
    refine List.ext_getElem? fun k => ?_
    rw [List.getElem?_set]
    split
    · next hik =>
      subst hik
      rw [hQ, if_pos (by rw [h.len]; exact hi)]
    · rfl
  rw [this, ← h.keys]

theorem Inv.dequeue (h : Inv sccs m c q S) :
    (∃ s q' S', (SccQ.ops InnerQ.ops).dequeue q = .ok (some s, q') ∧ s ∈ S ∧ Inv sccs m (some s) q' S' ∧ S' ⊆ S ∧ S ⊆ S' ∪ {s} ∧
      (∀ x ∈ S', sccs[s]?.getD 0 ≤ sccs[x]?.getD 0) ∧
      (q'.queues.map (fun Q => Q.list.length)).sum < (q.queues.map (fun Q => Q.list.length)).sum) ∨
    ((SccQ.ops InnerQ.ops).dequeue q = .ok (none, q) ∧ S = ∅) := by
  by_cases hne : ∃ (i : Nat) (Q : InnerQ) (x : StateId), q.queues[i]? = some Q ∧ x ∈ Q.list
  · left
    obtain ⟨i, Q, x, hQ, hx⟩ := hne
    obtain ⟨hi1, hi2⟩ := h.inside i Q x hQ hx
    have hm := h.lt (by omega)
    have he : SccQ.isEmpty InnerQ.ops q = .ok false := by
      unfold SccQ.isEmpty
      by_cases h1 : (q.front : Int) < q.back
      · rw [if_pos h1]
      · rw [if_neg h1, if_neg (by omega)]
        have : i = q.front := by omega
        subst this
        simp only [hQ, InnerQ.isEmpty_eq]
        cases hl : Q.list with
        | nil => rw [hl] at hx; cases hx
        | cons _ _ => rfl
    obtain ⟨j, e, a1, a2, a3, a4⟩ := updateFront_spec q.queues (q.back + 1 - q.front).toNat q.front (by rw [h.len]; omega)
    have hji : j ≤ i := by
      by_contra hlt
      rw [a3 i Q hi1 (by omega) hQ] at hx
      cases hx
    obtain ⟨P, s, l, hP, hl⟩ := a4 (by omega)
    obtain ⟨P', e', hl', hsg⟩ := P.dequeue_spec hl
    have hjm : j < m := by omega
    have hset : ∀ k : Nat, (q.queues.set j P')[k]? = if j = k then some P' else q.queues[k]? := by
      intro k
      rw [List.getElem?_set, h.len]
      by_cases hik : j = k
      · subst hik; simp [hjm]
      · simp [hik]
    have hsub : ∀ y, y ∈ P'.list → y ∈ P.list := by
      intro y hy
      rw [hl'] at hy
      rw [hl]
      exact List.mem_cons_of_mem _ hy
    refine ⟨s, ⟨j, q.back, q.queues.set j P', q.sccs⟩,
      {y | ∃ (k : Nat) (Q : InnerQ), (q.queues.set j P')[k]? = some Q ∧ y ∈ Q.list}, ?_, (h.mem s).2 ⟨j, P, hP, by simp [hl]⟩,
      ⟨h.keys, by simpa using h.len, fun _ => Iff.rfl, ?_, ?_, ?_, ?_, ?_, ?_, ?_⟩, ?_, ?_, ?_, ?_⟩
    · simp only [ops, SccQ.dequeue, he, e, hP, e']
    · intro k R y hk hy
      rw [hset] at hk
      by_cases hjk : j = k
      · subst hjk
        simp at hk
        subst hk
        exact h.cls j P y hP (hsub y hy)
      · exact h.cls k R y (by simpa [hjk] using hk) hy
    · intro k R hk hp
      rw [hset] at hk
      by_cases hjk : j = k
      · subst hjk
        simp at hk
        subst hk
        exact h.single j P hP (by rw [← hsg]; exact hp)
      · exact h.single k R (by simpa [hjk] using hk) hp
    · intro k R y hk hy
      rw [hset] at hk
      by_cases hjk : j = k
      · subst hjk
        simp at hk
        subst hk
        obtain ⟨h1, h2⟩ := h.inside j P y hP (hsub y hy)
        exact ⟨le_rfl, h2⟩
      · have hk : q.queues[k]? = some R := by simpa [hjk] using hk
        obtain ⟨h1, h2⟩ := h.inside k R y hk hy
        refine ⟨?_, h2⟩
        by_contra hlt
        rw [a3 k R h1 (by simp at hlt; omega) hk] at hy
        cases hy
    · rintro (hlt | ⟨hc, -⟩)
      · simp only at hlt ⊢
        obtain ⟨R, y, hR, hy⟩ := h.last (.inl (by omega))
        refine ⟨R, y, ?_, hy⟩
        rw [hset, if_neg (by omega)]
        exact hR
      · cases hc
    · intro _; exact hm
    · intro hlt; simp only at hlt; omega
    · intro v hv
      cases hv
      exact ⟨h.cls j P s hP (by simp [hl]), by simp only; omega⟩
    · rintro y ⟨k, R, hk, hy⟩
      rw [hset] at hk
      rw [h.mem]
      by_cases hjk : j = k
      · subst hjk
        simp at hk
        subst hk
        exact ⟨j, P, hP, hsub y hy⟩
      · exact ⟨k, R, by simpa [hjk] using hk, hy⟩
    · intro y hy
      obtain ⟨k, R, hk, hy⟩ := (h.mem y).1 hy
      by_cases hjk : j = k
      · subst hjk
        rw [hP] at hk; cases hk
        rw [hl] at hy
        rcases List.mem_cons.1 hy with rfl | hy
        · exact .inr rfl
        · exact .inl ⟨j, P', by rw [hset]; simp, by rw [hl']; exact hy⟩
      · exact .inl ⟨k, R, by rw [hset]; simpa [hjk] using hk, hy⟩
    · rintro y ⟨k, R, hk, hy⟩
      rw [h.cls j P s hP (by simp [hl])]
      rw [hset] at hk
      by_cases hjk : j = k
      · subst hjk
        simp at hk
        subst hk
        rw [h.cls j P y hP (hsub y hy)]
      · have hk : q.queues[k]? = some R := by simpa [hjk] using hk
        rw [h.cls k R y hk hy]
        obtain ⟨h1, h2⟩ := h.inside k R y hk hy
        simp only [Option.getD_some]
        by_contra hlt
        rw [a3 k R h1 (by omega) hk] at hy
        cases hy
    · have := sum_map_set (fun Q : InnerQ => Q.list.length) q.queues j P P' hP
      have h1 : P.list.length = P'.list.length + 1 := by rw [hl, hl']; rfl
      simp only at this ⊢
      omega
  · right
    have hS : S = ∅ := by
      ext x
      rw [h.mem]
      simp only [Set.mem_empty_iff_false, iff_false]
      rintro ⟨i, Q, h1, h2⟩
      exact hne ⟨i, Q, x, h1, h2⟩
    refine ⟨?_, hS⟩
    have he : SccQ.isEmpty InnerQ.ops q = .ok true := by
      unfold SccQ.isEmpty
      by_cases h1 : (q.front : Int) < q.back
      · obtain ⟨Q, x, h2, h3⟩ := h.last (.inl h1)
        exact absurd ⟨_, Q, x, h2, h3⟩ hne
      · rw [if_neg h1]
        by_cases h2 : q.back < q.front
        · rw [if_pos h2]
        · rw [if_neg h2]
          have := h.lt (by omega)
          obtain ⟨Q, hQ⟩ : ∃ Q, q.queues[q.front]? = some Q :=
            ⟨q.queues[q.front]'(by rw [h.len]; omega), by rw [List.getElem?_eq_getElem]⟩
          simp only [hQ, InnerQ.isEmpty_eq]
          cases hl : Q.list with
          | nil => rfl
          | cons y _ => exact absurd ⟨q.front, Q, y, hQ, by simp [hl]⟩ hne
    simp only [ops, SccQ.dequeue, he]

theorem Inv.isEmpty (h : Inv sccs m c q S) : ∃ b, (SccQ.ops InnerQ.ops).isEmpty q = .ok b ∧ (b = true ↔ S = ∅) := by
  have hS : S = ∅ ↔ ∀ (i : Nat) (Q : InnerQ) x, q.queues[i]? = some Q → x ∉ Q.list := by
    rw [Set.eq_empty_iff_forall_notMem]
    constructor
    · intro hx i Q x hQ hxQ
      exact hx x ((h.mem x).2 ⟨i, Q, hQ, hxQ⟩)
    · intro hno x hx
      obtain ⟨i, Q, hQ, hxQ⟩ := (h.mem x).1 hx
      exact hno i Q x hQ hxQ
  simp only [ops]
  unfold SccQ.isEmpty
  by_cases h1 : (q.front : Int) < q.back
  · obtain ⟨Q, x, h2, h3⟩ := h.last (.inl h1)
    refine ⟨false, by rw [if_pos h1], ?_⟩
    simp only [Bool.false_eq_true, false_iff, hS]
    intro hno
    exact hno _ Q x h2 h3
  · by_cases h2 : q.back < q.front
    · refine ⟨true, by rw [if_neg h1, if_pos h2], ?_⟩
      simp only [true_iff, hS]
      intro i Q x hQ hx
      have := h.inside i Q x hQ hx
      omega
    · have hlt := h.lt (by omega)
      obtain ⟨Q, hQ⟩ : ∃ Q, q.queues[q.front]? = some Q :=
        ⟨q.queues[q.front]'(by rw [h.len]; omega), by rw [List.getElem?_eq_getElem]⟩
      refine ⟨Q.list.isEmpty, by rw [if_neg h1, if_neg h2]; simp only [hQ, InnerQ.isEmpty_eq], ?_⟩
      rw [hS, List.isEmpty_iff]
      constructor
      · intro hl i P x hP hx
        have := h.inside i P x hP hx
        have : i = q.front := by omega
        subst this
        rw [hQ] at hP; cases hP
        rw [hl] at hx; cases hx
      · intro hno
        exact List.eq_nil_iff_forall_not_mem.2 fun x => hno _ Q x hQ

theorem Inv.head (h : Inv sccs m c q S) (hne : S.Nonempty) :
    ∃ s q', (SccQ.ops InnerQ.ops).head q = .ok (some s) ∧ (SccQ.ops InnerQ.ops).dequeue q = .ok (some s, q') := by
  obtain ⟨b, he, hb⟩ := h.isEmpty
  have hbf : b = false := by
    cases b with
    | false => rfl
    | true => exact absurd (hb.1 rfl) hne.ne_empty
  subst hbf
  obtain ⟨x, hx⟩ := hne
  obtain ⟨i, Q, hQ, hx⟩ := (h.mem x).1 hx
  obtain ⟨hi1, hi2⟩ := h.inside i Q x hQ hx
  have hm := h.lt (by omega)
  obtain ⟨j, e, a1, a2, a3, a4⟩ := updateFront_spec q.queues (q.back + 1 - q.front).toNat q.front (by rw [h.len]; omega)
  have hji : j ≤ i := by
    by_contra hlt
    rw [a3 i Q hi1 (by omega) hQ] at hx
    cases hx
  obtain ⟨P, s, l, hP, hl⟩ := a4 (by omega)
  obtain ⟨P', e', -⟩ := P.dequeue_spec hl
  simp only [ops] at he
  have hd : ∃ q', (SccQ.ops InnerQ.ops).dequeue q = .ok (some s, q') := by
    simp only [ops, SccQ.dequeue, he, e, hP, e']
    exact ⟨_, rfl⟩
  obtain ⟨q', hd⟩ := hd
  exact ⟨s, q', by simp only [ops, SccQ.head, e, hP, InnerQ.head_eq, hl]; rfl, hd⟩

theorem clearFrom_spec : ∀ n i (qs : List InnerQ), i + n ≤ qs.length →
    ∃ qs', clearFrom InnerQ.ops n i qs = .ok qs' ∧ qs'.length = qs.length ∧
      ∀ (k : Nat) Q', qs'[k]? = some Q' → ∃ Q, qs[k]? = some Q ∧ Q'.single = Q.single ∧
        (i ≤ k → k < i + n → Q'.list = []) ∧ (¬ (i ≤ k ∧ k < i + n) → Q' = Q)
  | 0, i, qs, h => ⟨qs, rfl, rfl, fun k Q hQ => ⟨Q, hQ, rfl, fun a b => by omega, fun _ => rfl⟩⟩
  | n + 1, i, qs, h => by
    obtain ⟨Q, hQ⟩ : ∃ Q, qs[i]? = some Q := ⟨qs[i], by rw [List.getElem?_eq_getElem (by omega)]⟩
    obtain ⟨Q', e, hl, hsg⟩ := Q.clear_spec
    obtain ⟨qs', e', hlen, hk⟩ := clearFrom_spec n (i + 1) (qs.set i Q') (by simp; omega)
    refine ⟨qs', ?_, by simpa using hlen, ?_⟩
    · unfold clearFrom
      simp only [hQ, e, e']
    · intro k R hR
      obtain ⟨R', h1, h2, h3, h4⟩ := hk k R hR
      by_cases hik : i = k
      · subst hik
        rw [List.getElem?_set_self (by omega)] at h1
        cases h1
        have := h4 (by omega)
        subst this
        exact ⟨Q, hQ, hsg, fun _ _ => hl, fun hn => by omega⟩
      · rw [List.getElem?_set_ne hik] at h1
        exact ⟨R', h1, h2, fun a b => h3 (by omega) (by omega), fun hn => h4 (by omega)⟩

theorem Inv.clear (h : Inv sccs m c q S) :
    ∃ q', (SccQ.ops InnerQ.ops).clear q = .ok q' ∧ Inv sccs m none q' ∅ ∧ (q'.queues.map (fun Q => Q.list.length)).sum = 0 := by
  obtain ⟨qs, e, hlen, hk⟩ := clearFrom_spec (q.back + 1 - q.front).toNat q.front q.queues (by
    rw [h.len]
    by_cases hb : (q.front : Int) ≤ q.back
    · have := h.lt hb; omega
    · have := h.idle (by omega); omega)
  have hnil : ∀ Q ∈ qs, Q.list = [] := by
    intro Q hQ
    obtain ⟨k, hkk⟩ := List.getElem?_of_mem hQ
    obtain ⟨R, h1, h2, h3, h4⟩ := hk k Q hkk
    cases hl : Q.list with
    | nil => rfl
    | cons x l =>
      exfalso
      by_cases hin : q.front ≤ k ∧ k < q.front + (q.back + 1 - q.front).toNat
      · rw [h3 hin.1 hin.2] at hl; cases hl
      · have := h4 hin
        subst this
        obtain ⟨h5, h6⟩ := h.inside k Q x h1 (by simp [hl])
        exact hin ⟨h5, by omega⟩
  have hno : ∀ (i : Nat) (Q : InnerQ) x, qs[i]? = some Q → x ∉ Q.list := by
    intro i Q x hi hx
    rw [hnil Q (List.mem_of_getElem? hi)] at hx
    cases hx
  refine ⟨⟨0, -1, qs, q.sccs⟩, ?_, ⟨h.keys, hlen.trans h.len, ?_, ?_, ?_, ?_, ?_, ?_, ?_, ?_⟩, ?_⟩
  · simp only [ops, SccQ.clear, e]
  · intro x
    simp only [Set.mem_empty_iff_false, false_iff]
    rintro ⟨i, Q, h1, h2⟩
    exact hno i Q x h1 h2
  · intro i Q x h1 h2; exact absurd h2 (hno i Q x h1)
  · intro i Q h1 h2
    obtain ⟨R, h3, h4, -⟩ := hk i Q h1
    exact h.single i R h3 (by rw [← h4]; exact h2)
  · intro i Q x h1 h2; exact absurd h2 (hno i Q x h1)
  · intro hlt; simp at hlt
  · intro hlt; simp at hlt
  · intro _; rfl
  · intro v hv; cases hv
  · rw [List.sum_eq_zero_iff]
    intro x hx
    obtain ⟨Q, hQ, rfl⟩ := List.mem_map.1 hx
    rw [hnil Q hQ]; rfl

/-- A new queue of components. -/
theorem Inv.new {sccs : List Nat} {qs : List InnerQ} (hnil : ∀ Q ∈ qs, Q.list = [])
    (hs : ∀ (i : Nat) (Q : InnerQ), qs[i]? = some Q → Q.single = true → ∀ (x y : Nat), sccs[x]? = some i → sccs[y]? = some i → x = y) :
    Inv sccs qs.length none (SccQ.new qs sccs) ∅ := by
  have hno : ∀ (i : Nat) (Q : InnerQ) x, qs[i]? = some Q → x ∉ Q.list := by
    intro i Q x hi hx
    rw [hnil Q (List.mem_of_getElem? hi)] at hx
    cases hx
  refine ⟨rfl, rfl, ?_, ?_, hs, ?_, ?_, ?_, ?_, ?_⟩
  · intro x
    simp only [Set.mem_empty_iff_false, false_iff]
    rintro ⟨i, Q, h1, h2⟩
    exact hno i Q x h1 h2
  · intro i Q x h1 h2; exact absurd h2 (hno i Q x h1)
  · intro i Q x h1 h2; exact absurd h2 (hno i Q x h1)
  · intro hlt; simp [SccQ.new] at hlt
  · intro hlt; simp [SccQ.new] at hlt
  · intro _; rfl
  · intro v hv; cases hv

end SccQ

/-- Queues of components: states of smaller components first, provided that no transition leads to a smaller component. -/
def sccLaw (sccs : List Nat) (m : Nat) (ok : Option StateId → StateId → Prop)
    (hok : ∀ c s, ok c s → ∃ i, sccs[s]? = some i ∧ i < m ∧ ∀ v, c = some v → ∃ k, sccs[v]? = some k ∧ k ≤ i) :
    QueueLaw (SccQ.ops InnerQ.ops) ok (fun s x => sccs[s]?.getD 0 ≤ sccs[x]?.getD 0) where
  Rep c q S := SccQ.Inv sccs m c q S
  size q := (q.queues.map (fun Q => Q.list.length)).sum
  enqueue {c q S s} h hs := by
    obtain ⟨i, h1, h2, h3⟩ := hok c s hs
    exact h.enqueue h1 h2 h3
  update {c q S s} h hs := by
    obtain ⟨i, h1, h2, h3⟩ := hok c s hs
    exact ⟨q, h.update h1 h2, h, le_rfl⟩
  dequeue {c q S} h := by
    rcases h.dequeue with h' | ⟨h1, h2⟩
    · exact .inl h'
    · exact .inr ⟨q, h1, h2, h2 ▸ h⟩
  isEmpty {c q S} h := h.isEmpty
  head {c q S} h hne := h.head hne
  clear {c q S} h := h.clear

end Verif
