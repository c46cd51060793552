import Verif.Props.C12

/-!
# Evaluating the sorts

`List.mergeSort` does not reduce in the kernel. These equations replace it by an insertion sort, for concrete instances.
-/

namespace Verif
universe u
variable {W : Type u}

/-- Insertion before the first element that is not smaller. -/
def insTr {α : Type u} (le : α → α → Bool) (a : α) : List α → List α
  | [] => [a]
  | b :: l => if le a b then a :: b :: l else b :: insTr le a l

def insSort {α : Type u} (le : α → α → Bool) (l : List α) : List α := l.foldr (insTr le) []

theorem insTr_mid {α : Type u} (le : α → α → Bool) (a : α) (l₁ l₂ : List α) (h1 : ∀ b ∈ l₁, le a b = false) (h2 : ∀ b ∈ l₂.head?, le a b = true) :
    insTr le a (l₁ ++ l₂) = l₁ ++ a :: l₂ := by
  induction l₁ with
  | nil =>
    cases l₂ with
    | nil => rfl
    | cons b l => simp [insTr, h2 b rfl]
  | cons b l ih =>
    have := h1 b (by simp)
    rw [List.cons_append, insTr, this]
    simp only [Bool.false_eq_true, if_false]
    rw [ih fun b hb => h1 b (by simp [hb])]
    rfl

theorem mergeSort_ins {α : Type u} {le : α → α → Bool} (ht : ∀ a b c, le a b = true → le b c = true → le a c = true)
    (htot : ∀ a b, (le a b || le b a) = true) (l : List α) : l.mergeSort le = insSort le l := by
  induction l with
  | nil => rw [List.mergeSort_nil]; rfl
  | cons a l ih =>
    obtain ⟨l₁, l₂, h1, h2, h3⟩ := List.mergeSort_cons ht htot a l
    show _ = insTr le a (insSort le l)
    rw [← ih, h2, insTr_mid, h1]
    · intro b hb; simpa using h3 b hb
    · intro b hb
      have hs := List.pairwise_mergeSort ht htot (a :: l)
      rw [h1] at hs
      have := (List.pairwise_append.1 hs).2.1
      rw [List.pairwise_cons] at this
      exact this.1 b (List.mem_of_head? hb)

theorem sortTrsBy_ins {le : Tr W → Tr W → Bool} (ht : ∀ a b c, le a b = true → le b c = true → le a c = true)
    (htot : ∀ a b, (le a b || le b a) = true) (l : List (Tr W)) : sortTrsBy le l = insSort le l := mergeSort_ins ht htot l

namespace Fst

/-- `sort_trs` by insertion. -/
def sortTrsE (f : Fst W) (s : StateId) (le : Tr W → Tr W → Bool) : Fst W := f.modifySt s fun st => { st with trs := insSort le st.trs }

/-- `tr_sort` by insertion. -/
def trSortE (f : Fst W) (c : SortSide) : Fst W :=
  ((List.range f.numStates).foldl (fun f s => f.sortTrsE s c.le) f).setPropsMask (c.props f.props) Props.allMask

theorem trSort_eval (f : Fst W) (c : SortSide) : f.trSort c = f.trSortE c := by
  unfold trSort trSortE
  congr 1
  congr 1
  funext f s
  unfold sortTrs sortTrsE
  congr 1
  funext st
  congr 1
  apply sortTrsBy_ins
  · intro a b c' h1 h2
    cases c <;> simp only [SortSide.le, ilabelLe, olabelLe, decide_eq_true_eq] at * <;> omega
  · intro a b
    cases c <;> simp only [SortSide.le, ilabelLe, olabelLe, Bool.or_eq_true, decide_eq_true_eq] <;> omega

/-- `unique_trs` with an insertion sort. -/
def uniqueStE [DecidableEq W] (st : State W) : State W :=
  let ts := dedupTrs (insSort trLe st.trs)
  if st.niepsilons ≠ 0 ∨ st.noepsilons ≠ 0 then
    { st with
      trs := ts
      niepsilons := countEps (ts.map (·.ilabel))
      noepsilons := countEps (ts.map (·.olabel)) }
  else { st with trs := ts }

/-- `tr_unique` with an insertion sort. -/
def trUniqueE [DecidableEq W] (f : Fst W) : Fst W :=
  let g := (List.range f.numStates).foldl (fun f s => f.modifySt s uniqueStE) f
  let o := (f.props.and Props.arcsortMask).and Props.deleteArcsMask
  g.setPropsMask (if g.numStates = 0 then o.or Props.nullMask else o) Props.allMask

theorem trUnique_eval [DecidableEq W] (f : Fst W) : f.trUnique = f.trUniqueE := by
  have : (fun (f : Fst W) (s : StateId) => f.uniqueTrs s) = fun f s => f.modifySt s uniqueStE := by
    funext f s
    unfold uniqueTrs
    congr 1
    funext st
    unfold uniqueSt uniqueStE
    rw [sortTrsBy_ins trLe_trans trLe_total]
  unfold trUnique trUniqueE
  rw [this]

end Fst
end Verif
