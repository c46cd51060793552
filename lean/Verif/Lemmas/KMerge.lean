import Verif.Spec.Minimize
import Mathlib.Data.List.Sort
import Mathlib.Data.List.Perm.Basic

/-!
# The heap of transition lists in minimization

The loop of `cyclic_minimize` (minimize.rs 537-569) takes the next transition from any of the lists whose next transition has the smallest label. Whatever it
chooses among those, it reads the lists as `HeapMerge` says.
-/

namespace Verif
universe u
variable {W : Type u}

/-- A run of the loop: `out` is what it reads from the lists `its`, none of which is empty. `pop` may take any list whose head has the smallest label. -/
inductive KMerge : List (List (Tr W)) → List (Tr W) → Prop
  | done : KMerge [] []
  | last {A B t out} : (∀ l ∈ A ++ B, ∀ u ∈ l.head?, t.ilabel ≤ u.ilabel) → KMerge (A ++ B) out → KMerge (A ++ [t] :: B) (t :: out)
  | push {A B t t' l its out} : (∀ l ∈ A ++ B, ∀ u ∈ l.head?, t.ilabel ≤ u.ilabel) → its.Perm ((t' :: l) :: (A ++ B)) → KMerge its out →
    KMerge (A ++ (t :: t' :: l) :: B) (t :: out)

theorem flatten_perm {α : Type u} {a b : List (List α)} (h : a.Perm b) : a.flatten.Perm b.flatten := by
  have := h.flatMap_right (fun x => x)
  simpa [List.flatMap_def] using this

theorem KMerge.perm {its : List (List (Tr W))} {out} (h : KMerge its out) : out.Perm its.flatten := by
  induction h with
  | done => exact .refl _
  | @last A B t out _ _ ih =>
    rw [List.flatten_append, List.flatten_cons]
    refine (ih.cons t).trans ?_
    rw [List.flatten_append, List.singleton_append]
    exact List.perm_middle.symm
  | @push A B t t' l its out _ hp _ ih =>
    rw [List.flatten_append, List.flatten_cons]
    refine ((ih.trans (flatten_perm hp)).cons t).trans ?_
    rw [List.flatten_cons, List.flatten_append, List.cons_append]
    refine List.Perm.trans ?_ List.perm_middle.symm
    refine List.Perm.cons _ ?_
    show ((t' :: l) ++ (A.flatten ++ B.flatten)).Perm (A.flatten ++ ((t' :: l) ++ B.flatten))
    exact List.perm_append_comm_assoc _ _ _

theorem KMerge.sorted {its : List (List (Tr W))} {out} (h : KMerge its out) (hs : ∀ l ∈ its, (l.map (·.ilabel)).Pairwise (· ≤ ·)) :
    (out.map (·.ilabel)).Pairwise (· ≤ ·) := by
  have low : ∀ {L : List (List (Tr W))} {t : Tr W}, (∀ l ∈ L, (l.map (·.ilabel)).Pairwise (· ≤ ·)) → (∀ l ∈ L, ∀ u ∈ l.head?, t.ilabel ≤ u.ilabel) →
      ∀ x ∈ L.flatten, t.ilabel ≤ x.ilabel := by
    intro L t h1 h2 x hx
    obtain ⟨l, hl, hxl⟩ := List.mem_flatten.1 hx
    cases l with
    | nil => cases hxl
    | cons u l =>
      have hu := h2 _ hl u rfl
      rcases List.mem_cons.1 hxl with rfl | hxl
      · exact hu
      · have := h1 _ hl
        rw [List.map_cons, List.pairwise_cons] at this
        exact hu.trans (this.1 _ (List.mem_map_of_mem hxl))
  induction h with
  | done => exact .nil
  | @last A B t out hmin hk ih =>
    have hs' : ∀ l ∈ A ++ B, (l.map (·.ilabel)).Pairwise (· ≤ ·) := fun l hl => hs l (by
      rcases List.mem_append.1 hl with h | h <;> simp [h])
    rw [List.map_cons, List.pairwise_cons]
    refine ⟨fun a ha => ?_, ih hs'⟩
    obtain ⟨x, hx, rfl⟩ := List.mem_map.1 ha
    exact low hs' hmin x (hk.perm.mem_iff.1 hx)
  | @push A B t t' l its out hmin hp hk ih =>
    have hs1 : ∀ l ∈ A ++ B, (l.map (·.ilabel)).Pairwise (· ≤ ·) := fun l hl => hs l (by
      rcases List.mem_append.1 hl with h | h <;> simp [h])
    have h0 := hs (t :: t' :: l) (by simp)
    rw [List.map_cons, List.pairwise_cons] at h0
    have hs' : ∀ l' ∈ (t' :: l) :: (A ++ B), (l'.map (·.ilabel)).Pairwise (· ≤ ·) := by
      intro l' hl'
      rcases List.mem_cons.1 hl' with rfl | hl'
      · exact h0.2
      · exact hs1 l' hl'
    rw [List.map_cons, List.pairwise_cons]
    refine ⟨fun a ha => ?_, ih fun l' hl' => hs' l' (hp.mem_iff.1 hl')⟩
    obtain ⟨x, hx, rfl⟩ := List.mem_map.1 ha
    have hx' := (flatten_perm hp).mem_iff.1 (hk.perm.mem_iff.1 hx)
    rw [List.flatten_cons] at hx'
    rcases List.mem_append.1 hx' with hx' | hx'
    · exact h0.1 _ (List.mem_map_of_mem hx')
    · exact low hs1 hmin x hx'

/-- Every way of choosing among the lists with the smallest next label gives a `HeapMerge`. -/
theorem HeapMerge.of_runs {merge : List (List (Tr W)) → List (Tr W)} (h : ∀ its, (∀ l ∈ its, l ≠ []) → KMerge its (merge its))
    (h0 : ∀ its, merge its = merge (its.filter fun l => !l.isEmpty)) : HeapMerge merge := by
  intro its hs
  have hk := h (its.filter fun l => !l.isEmpty) (by
    intro l hl
    rw [List.mem_filter] at hl
    rintro rfl
    simp at hl)
  rw [h0 its]
  refine ⟨hk.perm.trans ?_, hk.sorted fun l hl => hs l (List.mem_filter.1 hl).1⟩
  rw [List.flatten_filter_not_isEmpty]

/-- One such reading: the smallest label first, then the order in the lists. -/
def sortMerge (its : List (List (Tr W))) : List (Tr W) := its.flatten.insertionSort fun a b => a.ilabel ≤ b.ilabel

theorem sortMerge_ok : HeapMerge (sortMerge (W := W)) := by
  intro its _
  refine ⟨List.perm_insertionSort _ _, ?_⟩
  rw [List.pairwise_map]
  haveI : Std.Total (fun a b : Tr W => a.ilabel ≤ b.ilabel) := ⟨fun a b => Nat.le_total _ _⟩
  haveI : IsTrans (Tr W) (fun a b => a.ilabel ≤ b.ilabel) := ⟨fun a b c => Nat.le_trans⟩
  exact List.pairwise_insertionSort _ _

end Verif
