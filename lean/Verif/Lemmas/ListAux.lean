import Mathlib.Tactic.Common
import Mathlib.Data.List.Basic

/-! # Small list lemmas -/

namespace Verif
universe u v

theorem filterMap_congr' {α : Type u} {β : Type v} {l : List α} {f g : α → Option β} (h : ∀ x ∈ l, f x = g x) :
    l.filterMap f = l.filterMap g := by
  induction l with
  | nil => rfl
  | cons a l ih =>
    rw [List.filterMap_cons, List.filterMap_cons, h a (by simp), ih (fun x hx => h x (by simp [hx]))]

theorem getElem?_map_range {α : Type u} (n : Nat) (g : Nat → α) (q : Nat) :
    ((List.range n).map g)[q]? = if q < n then some (g q) else none := by
  rw [List.getElem?_map]
  by_cases h : q < n
  · rw [if_pos h, List.getElem?_eq_getElem (by simpa using h)]; simp
  · rw [if_neg h, List.getElem?_eq_none (by simpa using h)]; rfl

end Verif
