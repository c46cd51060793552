import Verif.Spec.Partition
import Verif.Model.Dfs
import Mathlib.Data.List.Basic

/-! # Doubly linked lists inside arrays -/

namespace Verif
namespace Part

/-- The contents of a partition as functions. -/
structure View (p : Part) (n nc : Nat) (E : Nat → PElt) (C : Nat → PCls) (v : List Nat) (k : Nat) : Prop where
  hn : p.elements.length = n
  hnc : p.classes.length = nc
  elt : ∀ e, e < n → p.elements[e]? = some (E e)
  cls : ∀ c, c < nc → p.classes[c]? = some (C c)
  visited : p.visited = v
  counter : p.yesCounter = k

variable {p : Part} {n nc : Nat} {E : Nat → PElt} {C : Nat → PCls} {v : List Nat} {k : Nat}

theorem View.eltOk (h : View p n nc E C v k) {e} (he : e < n) : p.elt e = .ok (E e) := by
  simp [Part.elt, h.elt e he]

theorem View.clsOk (h : View p n nc E C v k) {c} (hc : c < nc) : p.cls c = .ok (C c) := by
  simp [Part.cls, h.cls c hc]

theorem View.modElt (h : View p n nc E C v k) {e} (he : e < n) (f) :
    ∃ p', p.modElt e f = .ok p' ∧ View p' n nc (upd E e (f (E e))) C v k := by
  refine ⟨{ p with elements := p.elements.modify e f }, by simp [Part.modElt, h.hn, he], by simp [h.hn], h.hnc, ?_, h.cls, h.visited, h.counter⟩
  intro x hx
  simp only [List.getElem?_modify, h.elt x hx, upd]
  by_cases hxe : e = x
  · subst hxe; simp
  · have : ¬ x = e := fun e => hxe e.symm
    simp [hxe, this]

theorem View.modCls (h : View p n nc E C v k) {c} (hc : c < nc) (f) :
    ∃ p', p.modCls c f = .ok p' ∧ View p' n nc E (upd C c (f (C c))) v k := by
  refine ⟨{ p with classes := p.classes.modify c f }, by simp [Part.modCls, h.hnc, hc], h.hn, by simp [h.hnc], h.elt, ?_, h.visited, h.counter⟩
  intro x hx
  simp only [List.getElem?_modify, h.cls x hx, upd]
  by_cases hxe : c = x
  · subst hxe; simp
  · have : ¬ x = c := fun e => hxe e.symm
    simp [hxe, this]

/-- Setting the previous element of `i`, if there is one. -/
def setPrevF (E : Nat → PElt) (i v : Int) : Nat → PElt :=
  if i ≥ 0 then upd E i.toNat { E i.toNat with prev := v } else E

theorem View.setPrev (h : View p n nc E C v k) {i : Int} (hi : i.toNat < n) (x : Int) :
    ∃ p', p.setPrev i x = .ok p' ∧ View p' n nc (setPrevF E i x) C v k := by
  unfold Part.setPrev setPrevF
  split
  · exact h.modElt hi _
  · exact ⟨p, rfl, h⟩

/-- The first element, `-1` if there is none. -/
def hd : List Nat → Int
  | [] => -1
  | e :: _ => e

/-- The elements of `l` are linked in this order, in both directions; `pr` is before the first one. -/
def DL (E : Nat → PElt) : Int → List Nat → Prop
  | _, [] => True
  | pr, e :: l => (E e).prev = pr ∧ (E e).next = hd l ∧ DL E e l

theorem DL.congr {E E' : Nat → PElt} {pr l} (h : DL E pr l) (he : ∀ e ∈ l, (E' e).prev = (E e).prev ∧ (E' e).next = (E e).next) :
    DL E' pr l := by
  induction l generalizing pr with
  | nil => trivial
  | cons a l ih =>
    obtain ⟨h1, h2, h3⟩ := h
    have := he a (by simp)
    exact ⟨this.1.trans h1, this.2.trans h2, ih h3 fun e hm => he e (by simp [hm])⟩

/-- Another previous element for the first one. -/
theorem DL.setPrev {E : Nat → PElt} {pr l} (h : DL E pr l) (hn : l.Nodup) (x : Int) : DL (setPrevF E (hd l) x) x l := by
  cases l with
  | nil => trivial
  | cons a l =>
    obtain ⟨h1, h2, h3⟩ := h
    rw [List.nodup_cons] at hn
    have e : setPrevF E (hd (a :: l)) x = upd E a { E a with prev := x } := by simp [setPrevF, hd]
    rw [e]
    refine ⟨by simp [upd], by simp [upd, h2], h3.congr fun z hz => ?_⟩
    have : z ≠ a := fun e => hn.1 (e ▸ hz)
    simp [upd, this]

theorem setPrevF_other {E : Nat → PElt} {l : List Nat} {x : Int} {z : Nat} (hz : z ∉ l) : setPrevF E (hd l) x z = E z := by
  unfold setPrevF
  split
  · cases l with
    | nil => simp [hd] at *
    | cons a l =>
      have : z ≠ a := fun e => hz (by simp [e])
      simp [hd, upd, this]
  · rfl

theorem setPrevF_data (E : Nat → PElt) (i x : Int) (z : Nat) :
    (setPrevF E i x z).classId = (E z).classId ∧ (setPrevF E i x z).yes = (E z).yes ∧ (setPrevF E i x z).next = (E z).next := by
  unfold setPrevF
  split
  · simp only [upd]; split
    · rename_i h; subst h; simp
    · simp
  · simp

/-- Putting an element in front. -/
theorem DL.push {E : Nat → PElt} {l} (h : DL E (-1) l) (hn : l.Nodup) {e : Nat} (he : e ∉ l) {x : PElt} (hx : x.next = hd l)
    (hp : x.prev = -1) : DL (upd (setPrevF E (hd l) e) e x) (-1) (e :: l) := by
  refine ⟨by simp [upd, hp], by simp [upd, hx], (h.setPrev hn e).congr fun z hz => ?_⟩
  have : z ≠ e := fun e' => he (e' ▸ hz)
  simp [upd, this]

/-- Unlinking an element. -/
def unlinkF (E : Nat → PElt) (x : PElt) : Nat → PElt :=
  setPrevF (if x.prev ≥ 0 then upd E x.prev.toNat { E x.prev.toNat with next := x.next } else E) x.next x.prev

theorem unlinkF_data (E : Nat → PElt) (x : PElt) (z : Nat) :
    (unlinkF E x z).classId = (E z).classId ∧ (unlinkF E x z).yes = (E z).yes := by
  unfold unlinkF
  obtain ⟨h1, h2, _⟩ := setPrevF_data (if x.prev ≥ 0 then upd E x.prev.toNat { E x.prev.toNat with next := x.next } else E) x.next x.prev z
  rw [h1, h2]
  split
  · simp only [upd]; split
    · rename_i h; subst h; simp
    · simp
  · simp

/-- The last element of `l`, or `pr`. -/
def lst (pr : Int) : List Nat → Int
  | [] => pr
  | e :: l => lst e l

theorem DL.at {E : Nat → PElt} {l1 : List Nat} {e : Nat} {l2 : List Nat} : ∀ {pr}, DL E pr (l1 ++ e :: l2) →
    (E e).prev = lst pr l1 ∧ (E e).next = hd l2 := by
  induction l1 with
  | nil => intro pr h; exact ⟨h.1, h.2.1⟩
  | cons a l ih => intro pr h; exact ih h.2.2

theorem lst_mem (l : List Nat) : ∀ (pr : Int), lst pr l = pr ∨ ∃ a ∈ l, lst pr l = (a : Int) := by
  induction l with
  | nil => intro pr; exact Or.inl rfl
  | cons a l ih =>
    intro pr
    rcases ih a with h | ⟨b, hb, h⟩
    · exact Or.inr ⟨a, by simp, h⟩
    · exact Or.inr ⟨b, by simp [hb], h⟩

/-- Elements that are not neighbours are not touched. -/
theorem unlinkF_other {E : Nat → PElt} {l1 l2 : List Nat} {e : Nat} (h : DL E (-1) (l1 ++ e :: l2)) {z : Nat}
    (hz : z ∉ l1 ++ e :: l2) : unlinkF E (E e) z = E z := by
  obtain ⟨hp, hn⟩ := h.at
  simp only [List.mem_append, List.mem_cons, not_or] at hz
  unfold unlinkF
  rw [hn, setPrevF_other hz.2.2]
  split
  · rename_i hge
    rcases lst_mem l1 (-1) with h' | ⟨a, ha, h'⟩
    · rw [hp, h'] at hge; omega
    · have : z ≠ a := fun e => hz.1 (e ▸ ha)
      simp [upd, hp, h', this]
  · rfl

/-- The list without the element. -/
theorem DL.unlink {E : Nat → PElt} {e : Nat} {l2 : List Nat} : ∀ {l1 : List Nat} {pr : Int},
    (∀ a : Nat, pr = (a : Int) → a ∉ l1 ++ e :: l2) → DL E pr (l1 ++ e :: l2) → (l1 ++ e :: l2).Nodup →
    DL (unlinkF E (E e)) pr (l1 ++ l2) := by
  intro l1
  induction l1 with
  | nil =>
    intro pr hpr h hn
    obtain ⟨h1, h2, h3⟩ := h
    rw [List.nil_append, List.nodup_cons] at hn
    have := (h3.setPrev hn.2 pr)
    unfold unlinkF
    rw [h1, h2, List.nil_append]
    split
    · rename_i hge
      obtain ⟨a, rfl⟩ : ∃ a : Nat, pr = a := ⟨pr.toNat, by omega⟩
      have ha := hpr a rfl
      simp only [List.nil_append, List.mem_cons, not_or] at ha
      refine this.congr ?_
      intro z hz
      have hza : z ≠ a := fun e => ha.2 (e ▸ hz)
      unfold setPrevF
      split
      · simp only [upd, Int.toNat_natCast, hza, if_false]
        split
        · rename_i hzh
          rw [← hzh]
          simp [hza]
        · exact ⟨rfl, rfl⟩
      · simp [upd, hza]
    · exact this
  | cons b l ih =>
    intro pr hpr h hn
    obtain ⟨h1, h2, h3⟩ := h
    rw [List.cons_append, List.nodup_cons] at hn
    have hrec := ih (pr := b) (fun a ha => by
      have : a = b := by exact_mod_cast ha.symm
      rw [this]; exact hn.1) h3 hn.2
    obtain ⟨hp, hx⟩ := h3.at
    rw [List.cons_append]
    refine ⟨?_, ?_, hrec⟩
    · have hb : b ∉ l2 := fun hm => hn.1 (by simp [hm])
      unfold unlinkF
      rw [hx, setPrevF_other hb]
      split
      · simp only [upd]
        split
        · rename_i hbe; rw [← hbe]; exact h1
        · exact h1
      · exact h1
    · have hb : b ∉ l2 := fun hm => hn.1 (by simp [hm])
      unfold unlinkF
      rw [hx, setPrevF_other hb, hp]
      cases l with
      | nil =>
        simp [lst, upd]
      | cons c l' =>
        have : hd ((c :: l') ++ l2) = hd ((c :: l') ++ e :: l2) := rfl
        have h2' : (E b).next = hd ((c :: l') ++ e :: l2) := h2
        rw [this, ← h2']
        rcases lst_mem (c :: l') (b : Int) with h' | ⟨a, ha, h'⟩
        · have hl : lst (b : Int) (c :: l') = lst (c : Int) l' := rfl
          rcases lst_mem l' (c : Int) with h'' | ⟨a, ha, h''⟩
          · rw [hl, h''] at h'
            have : c = b := by exact_mod_cast h'
            exact absurd (by simp [this]) hn.1
          · rw [hl, h''] at h'
            have : a = b := by exact_mod_cast h'
            exact absurd (by simp [← this, ha]) hn.1
        · rw [h']
          have : b ≠ a := fun e' => hn.1 (by rw [e']; exact List.mem_append_left _ ha)
          simp [upd, this]

theorem lst_neg {l : List Nat} : lst (-1) l ≥ 0 ↔ l ≠ [] := by
  cases l with
  | nil => simp [lst]
  | cons a l =>
    simp only [ne_eq, reduceCtorEq, not_false_eq_true, iff_true]
    rcases lst_mem l (a : Int) with h | ⟨b, _, h⟩ <;> simp only [lst] <;> rw [h] <;> omega

/-- The first element afterwards. -/
theorem hd_unlink {E : Nat → PElt} {l1 l2 : List Nat} {e : Nat} (h : DL E (-1) (l1 ++ e :: l2)) :
    hd (l1 ++ l2) = if (E e).prev ≥ 0 then hd (l1 ++ e :: l2) else (E e).next := by
  obtain ⟨hp, hn⟩ := h.at
  rw [hp, hn]
  cases l1 with
  | nil => simp [lst]
  | cons a l =>
    rw [if_pos (lst_neg.2 (by simp))]
    rfl

end Part
end Verif
