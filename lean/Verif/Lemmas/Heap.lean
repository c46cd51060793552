import Verif.Model.Heap
import Mathlib.Data.List.Perm.Basic
import Mathlib.Tactic.Common

/-! # The heap keeps a largest element at the top -/

namespace Verif
universe u

namespace Heap
variable {V : Type u}

/-- `less` is a strict weak order. -/
structure Weak (less : V → V → Bool) : Prop where
  asymm : ∀ a b, less a b = true → less b a = false
  ntrans : ∀ a b c, less a b = false → less b c = false → less a c = false

theorem swap_length (l : List V) (i j : Nat) : (swap l i j).length = l.length := by
  unfold swap; split <;> simp

theorem swap_get (l : List V) {i j : Nat} (hi : i < l.length) (hj : j < l.length) (k : Nat) :
    (swap l i j)[k]? = if k = j then l[i]? else if k = i then l[j]? else l[k]? := by
  unfold swap
  rw [List.getElem?_eq_getElem hi, List.getElem?_eq_getElem hj]
  simp only [List.getElem?_set, List.length_set]
  by_cases h1 : k = j
  · subst h1; simp [hj]
  · simp only [h1, if_false, Ne.symm h1]
    by_cases h2 : k = i
    · subst h2; simp [hi]
    · simp [h2, Ne.symm h2]

theorem swap_perm (l : List V) (i j : Nat) : (swap l i j).Perm l := by
  unfold swap
  split
  · next a b ha hb =>
    obtain ⟨h1, rfl⟩ := List.getElem?_eq_some_iff.1 ha
    obtain ⟨h2, rfl⟩ := List.getElem?_eq_some_iff.1 hb
    exact List.set_set_perm h1 h2
  · exact List.Perm.refl _

/-- Every element is at most its parent, when the positions in `ex` are left out. -/
def Good (less : V → V → Bool) (l : List V) (ex : Nat → Prop) : Prop :=
  ∀ k a b, 0 < k → ¬ ex k → l[(k - 1) / 2]? = some a → l[k]? = some b → less a b = false

variable {less : V → V → Bool}

theorem siftUp_perm (l : List V) (i : Nat) : (siftUp less l i).Perm l := by
  induction i using Nat.strongRecOn generalizing l with
  | ind i ih =>
    unfold siftUp
    split
    · split
      · split
        · exact (ih _ (by omega) _).trans (swap_perm ..)
        · exact List.Perm.refl _
      · exact List.Perm.refl _
    · exact List.Perm.refl _

theorem siftUp_good (hl : Weak less) (l : List V) (i : Nat) (hi : i < l.length) (hg : Good less l (· = i))
    (hx : ∀ k a b, 0 < i → 0 < k → (k - 1) / 2 = i → l[(i - 1) / 2]? = some a → l[k]? = some b → less a b = false) :
    Good less (siftUp less l i) (fun _ => False) := by
  induction i using Nat.strongRecOn generalizing l with
  | ind i ih =>
    unfold siftUp
    by_cases h0 : 0 < i
    · rw [dif_pos h0]
      have hp : (i - 1) / 2 < l.length := by omega
      obtain ⟨p, hpe⟩ : ∃ p, l[(i - 1) / 2]? = some p := ⟨_, List.getElem?_eq_getElem hp⟩
      obtain ⟨x, hxe⟩ : ∃ x, l[i]? = some x := ⟨_, List.getElem?_eq_getElem hi⟩
      simp only [hpe, hxe]
      by_cases hpx : less p x = true
      · rw [if_pos hpx]
        have hxp := hl.asymm p x hpx
        refine ih _ (by omega) _ (by rw [swap_length]; exact hp) ?_ ?_
        · intro k a b hk hne ha hb
          rw [swap_get l hi hp] at ha hb
          by_cases hki : k = i
          · subst hki
            rw [if_pos rfl] at ha
            rw [if_neg (by omega), if_pos rfl] at hb
            rw [hxe] at ha; rw [hpe] at hb
            cases ha; cases hb
            exact hxp
          · rw [if_neg hne, if_neg hki] at hb
            by_cases hk2 : (k - 1) / 2 = (i - 1) / 2
            · rw [if_pos hk2, hxe] at ha
              cases ha
              exact hl.ntrans _ _ _ hxp (hg k p b hk hki (by rw [hk2]; exact hpe) hb)
            · rw [if_neg hk2] at ha
              by_cases hk3 : (k - 1) / 2 = i
              · rw [if_pos hk3] at ha
                exact hx k a b h0 hk hk3 ha hb
              · rw [if_neg hk3] at ha
                exact hg k a b hk hki ha hb
        · intro k a b hp0 hk hkp ha hb
          rw [swap_get l hi hp] at ha hb
          rw [if_neg (by omega), if_neg (by omega)] at ha
          have hap := hg ((i - 1) / 2) a p hp0 (by omega) ha hpe
          by_cases hki : k = i
          · subst hki
            rw [if_neg (by omega), if_pos rfl, hpe] at hb
            cases hb
            exact hap
          · rw [if_neg (by omega), if_neg hki] at hb
            exact hl.ntrans _ _ _ hap (hg k p b hk hki (by rw [hkp]; exact hpe) hb)
      · rw [if_neg hpx]
        intro k a b hk _ ha hb
        by_cases hki : k = i
        · subst hki
          rw [hpe] at ha; rw [hxe] at hb
          cases ha; cases hb
          simpa using hpx
        · exact hg k a b hk hki ha hb
    · rw [dif_neg h0]
      intro k a b hk _ ha hb
      exact hg k a b hk (by omega) ha hb

theorem siftDown_perm : ∀ n (l : List V) (i : Nat), (siftDown less n l i).Perm l
  | 0, l, i => List.Perm.refl _
  | n + 1, l, i => by
    unfold siftDown
    split
    · exact List.Perm.refl _
    · split
      · split
        · exact (siftDown_perm n _ _).trans (swap_perm ..)
        · exact List.Perm.refl _
      · exact List.Perm.refl _

theorem bigChild_spec (hl : Weak less) (l : List V) (i : Nat) :
    (bigChild less l i = none ∧ l.length ≤ 2 * i + 1) ∨
    ∃ c x, bigChild less l i = some c ∧ l[c]? = some x ∧ (c - 1) / 2 = i ∧ 0 < c ∧
      ∀ k b, 0 < k → (k - 1) / 2 = i → l[k]? = some b → less x b = false := by
  have hirr : ∀ a, less a a = false := by
    intro a
    cases h : less a a with
    | false => rfl
    | true => have := hl.asymm a a h; rw [h] at this; cases this
  unfold bigChild
  cases h1 : l[2 * i + 1]? with
  | none => exact .inl ⟨rfl, by simpa using h1⟩
  | some a =>
    right
    cases h2 : l[2 * i + 2]? with
    | none =>
      refine ⟨2 * i + 1, a, rfl, h1, by omega, by omega, ?_⟩
      intro k b hk hki hb
      rcases (show k = 2 * i + 1 ∨ k = 2 * i + 2 by omega) with rfl | rfl
      · rw [h1] at hb; cases hb; exact hirr _
      · rw [h2] at hb; cases hb
    | some c =>
      by_cases hac : less a c = true
      · refine ⟨2 * i + 2, c, by simp [hac], h2, by omega, by omega, ?_⟩
        intro k b hk hki hb
        rcases (show k = 2 * i + 1 ∨ k = 2 * i + 2 by omega) with rfl | rfl
        · rw [h1] at hb; cases hb; exact hl.asymm _ _ hac
        · rw [h2] at hb; cases hb; exact hirr _
      · refine ⟨2 * i + 1, a, by simp [hac], h1, by omega, by omega, ?_⟩
        intro k b hk hki hb
        rcases (show k = 2 * i + 1 ∨ k = 2 * i + 2 by omega) with rfl | rfl
        · rw [h1] at hb; cases hb; exact hirr _
        · rw [h2] at hb; cases hb; simpa using hac

theorem siftDown_good (hl : Weak less) : ∀ n (l : List V) (i : Nat), l.length ≤ n + i → i < l.length →
    Good less l (fun k => (k - 1) / 2 = i) →
    (∀ k a b, 0 < i → 0 < k → (k - 1) / 2 = i → l[(i - 1) / 2]? = some a → l[k]? = some b → less a b = false) →
    Good less (siftDown less n l i) (fun _ => False)
  | 0, l, i, hn, hi, _, _ => by omega
  | n + 1, l, i, hn, hi, hg, hx => by
    unfold siftDown
    rcases bigChild_spec hl l i with ⟨e, hlen⟩ | ⟨c, x, e, hc, hci, hc0, hmax⟩
    · simp only [e]
      intro k a b hk _ ha hb
      refine hg k a b hk ?_ ha hb
      intro hki
      have := (List.getElem?_eq_some_iff.1 hb).1
      omega
    · obtain ⟨cur, hcur⟩ : ∃ x, l[i]? = some x := ⟨_, List.getElem?_eq_getElem hi⟩
      have hcl : c < l.length := (List.getElem?_eq_some_iff.1 hc).1
      simp only [e, hc, hcur]
      by_cases hxc : less x cur = true
      · simp only [hxc, Bool.not_true, Bool.false_eq_true, if_false]
        intro k a b hk _ ha hb
        by_cases hki : (k - 1) / 2 = i
        · rw [hki, hcur] at ha
          cases ha
          exact hl.ntrans _ _ _ (hl.asymm _ _ hxc) (hmax k b hk hki hb)
        · exact hg k a b hk hki ha hb
      · have hxc : less x cur = false := by simpa using hxc
        simp only [hxc, Bool.not_false, if_true]
        refine siftDown_good hl n _ c (by rw [swap_length]; omega) (by rw [swap_length]; exact hcl) ?_ ?_
        · intro k a b hk hkc ha hb
          rw [swap_get l hi hcl] at ha hb
          rw [if_neg hkc] at ha
          by_cases hki : (k - 1) / 2 = i
          · rw [if_pos hki, hc] at ha
            cases ha
            by_cases hk2 : k = c
            · rw [if_pos hk2, hcur] at hb
              cases hb; exact hxc
            · rw [if_neg hk2, if_neg (by omega)] at hb
              exact hmax k b hk hki hb
          · rw [if_neg hki] at ha
            have hk2 : k ≠ c := by rintro rfl; exact hki hci
            rw [if_neg hk2] at hb
            by_cases hk3 : k = i
            · subst hk3
              rw [if_pos rfl, hc] at hb
              cases hb
              exact hx c a x hk hc0 hci ha hc
            · rw [if_neg hk3] at hb
              exact hg k a b hk hki ha hb
        · intro k a b _ hk hkc ha hb
          rw [swap_get l hi hcl] at ha hb
          rw [if_neg (by omega), if_pos (by omega), hc] at ha
          cases ha
          rw [if_neg (by omega), if_neg (by omega)] at hb
          exact hg k x b hk (by omega) (by rw [hkc]; exact hc) hb

/-- A heap. -/
def IsHeap (less : V → V → Bool) (l : List V) : Prop := Good less l (fun _ => False)

theorem isHeap_nil : IsHeap less ([] : List V) := by intro k a b _ _ ha; simp at ha

theorem push_perm (l : List V) (v : V) : (push less l v).Perm (v :: l) :=
  (siftUp_perm _ _).trans (List.perm_append_comm (l₁ := l) (l₂ := [v]))

theorem push_heap (hl : Weak less) {l : List V} (h : IsHeap less l) (v : V) : IsHeap less (push less l v) := by
  refine siftUp_good hl _ _ (by simp) ?_ ?_
  · intro k a b hk hne ha hb
    have hkl : k < l.length := by
      have := (List.getElem?_eq_some_iff.1 hb).1
      simp at this; omega
    rw [List.getElem?_append_left (by omega)] at ha hb
    exact h k a b hk (fun h => h) ha hb
  · intro k a b _ hk hki _ hb
    have := (List.getElem?_eq_some_iff.1 hb).1
    simp at this; omega

/-- Nothing in a heap is larger than the top. -/
theorem top_max (hl : Weak less) {l : List V} (h : IsHeap less l) {top : V} (ht : l[0]? = some top) :
    ∀ x ∈ l, less top x = false := by
  have hirr : less top top = false := by
    cases h : less top top with
    | false => rfl
    | true => have := hl.asymm _ _ h; rw [h] at this; cases this
  have key : ∀ (k : Nat) x, l[k]? = some x → less top x = false := by
    intro k
    induction k using Nat.strongRecOn with
    | ind k ih =>
      intro x hx
      rcases Nat.eq_zero_or_pos k with rfl | hk
      · rw [ht] at hx; cases hx; exact hirr
      · have hkl := (List.getElem?_eq_some_iff.1 hx).1
        have hp : (k - 1) / 2 < l.length := by omega
        exact hl.ntrans _ _ _ (ih _ (by omega) _ (List.getElem?_eq_getElem hp))
          (h k _ x hk (fun h => h) (List.getElem?_eq_getElem hp) hx)
  intro x hx
  obtain ⟨k, hk⟩ := List.getElem?_of_mem hx
  exact key k x hk

theorem pop_spec (hl : Weak less) {l : List V} (h : IsHeap less l) (hne : l ≠ []) :
    ∃ v l', pop less l = .ok (v, l') ∧ l.Perm (v :: l') ∧ (∀ x ∈ l, less v x = false) ∧ IsHeap less l' := by
  cases l with
  | nil => exact absurd rfl hne
  | cons top rest =>
    have hmax := top_max hl h (top := top) rfl
    unfold pop
    cases hr : rest.getLast? with
    | none =>
      have : rest = [] := by simpa using hr
      subst this
      exact ⟨top, [], rfl, List.Perm.refl _, hmax, isHeap_nil⟩
    | some x =>
      have hrest : rest = rest.dropLast ++ [x] := (List.dropLast_append_getLast? x hr).symm
      refine ⟨top, siftDown less rest.length (x :: rest.dropLast) 0, by simp only [hr], ?_, hmax, ?_⟩
      · refine List.Perm.cons _ (((siftDown_perm _ _ _).trans ?_).symm)
        conv_rhs => rw [hrest]
        exact (List.perm_append_comm (l₁ := rest.dropLast) (l₂ := [x])).symm
      · have hlen : (x :: rest.dropLast).length = rest.length := by
          rw [hrest]; simp
        refine siftDown_good hl _ _ _ (by omega) (by simp) ?_ (fun k a b h0 => by omega)
        intro k a b hk hne ha hb
        have hget : ∀ j : Nat, 0 < j → (x :: rest.dropLast)[j]? = some a ∨ (x :: rest.dropLast)[j]? = some b →
            (x :: rest.dropLast)[j]? = (top :: rest)[j]? := by
          intro j hj hjs
          obtain ⟨j, rfl⟩ := Nat.exists_eq_succ_of_ne_zero (by omega : j ≠ 0)
          have hlt : j < rest.dropLast.length := by
            rcases hjs with h | h
            all_goals
              have := (List.getElem?_eq_some_iff.1 h).1
              simp at this
              simp; omega
          simp only [List.getElem?_cons_succ]
          conv_rhs => rw [hrest]
          rw [List.getElem?_append_left hlt]
        rw [hget k hk (.inr hb)] at hb
        rw [hget _ (by omega) (.inl ha)] at ha
        exact h k a b hk (fun h => h) ha hb

end Heap
end Verif
