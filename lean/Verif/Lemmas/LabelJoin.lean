import Verif.Model.LabelFilter
import Verif.Lemmas.LookLabel

/-!
# Reading a label that has been pushed

`readsP A l n s`: the paths of `n` transitions whose output begins with `l`, this label dropped.
-/

namespace Verif
universe u
variable {W : Type u} {FS : Type}

section
variable [CommMonoidWithZero W]

/-- The paths from `s` whose output begins with `l`, with the label dropped. -/
def readsP (A : Fst W) (l : Label) : Nat → StateId → Multiset (PathT W)
  | 0, _ => 0
  | n + 1, s => (A.trsOf s : Multiset (Tr W)).bind fun a =>
      if a.olabel = l then (A.pathsFrom n a.nextstate).map fun p => PathT.cat (strip a.ilabel, [], a.weight) p
      else if a.olabel = EPS then (readsP A l n a.nextstate).map fun p => PathT.cat (strip a.ilabel, [], a.weight) p
      else 0

/-- The paths that begin with the transition `t`. -/
def begins (B : Fst W) (t : Tr W) : Nat → Multiset (PathT W)
  | 0 => 0
  | m + 1 => (B.pathsFrom m t.nextstate).map fun p => t.asPath.cat p

theorem readsP_succ (A : Fst W) (l : Label) (n s) : readsP A l (n + 1) s = (A.trsOf s : Multiset (Tr W)).bind fun a =>
      if a.olabel = l then (A.pathsFrom n a.nextstate).map fun p => PathT.cat (strip a.ilabel, [], a.weight) p
      else if a.olabel = EPS then (readsP A l n a.nextstate).map fun p => PathT.cat (strip a.ilabel, [], a.weight) p
      else 0 := rfl

theorem readsP_canRead {A : Fst W} {l : Label} : ∀ {n s} {p : PathT W}, p ∈ readsP A l n s → A.CanRead false s l
  | 0, s, p, h => by simp [readsP] at h
  | n + 1, s, p, h => by
    rw [readsP_succ] at h
    obtain ⟨a, ha, h⟩ := Multiset.mem_bind.1 h
    have ha := Multiset.mem_coe.1 ha
    by_cases h1 : a.olabel = l
    · exact ⟨s, .refl, a, ha, h1⟩
    · rw [if_neg h1] at h
      by_cases h2 : a.olabel = EPS
      · rw [if_pos h2] at h
        obtain ⟨p', hp', -⟩ := Multiset.mem_map.1 h
        obtain ⟨q, hq, hr⟩ := readsP_canRead hp'
        exact ⟨q, .head ⟨a, ha, h2, rfl⟩ hq, hr⟩
      · rw [if_neg h2] at h; simp at h

/-- Joining with the paths that begin with a transition is reading its label first. -/
theorem join_begins {A B : Fst W} {t : Tr W} (h0 : t.ilabel ≠ EPS) (m : Nat) : ∀ n s, joinPaths (A.pathsFrom n s) (begins B t (m + 1)) =
    (joinPaths (readsP A t.ilabel n s) (B.pathsFrom m t.nextstate)).map fun p => PathT.cat ([], strip t.olabel, t.weight) p
  | 0, s => by
    have e0 : A.pathsFrom 0 s = finPath (A.finOf s) := by simp only [Fst.pathsFrom, finPath]; rfl
    simp only [readsP, join_zero_left, Multiset.map_zero]
    refine Multiset.eq_zero_of_forall_notMem fun r hr => ?_
    obtain ⟨p, hp, q, hq, e, _⟩ := mem_join.1 hr
    rw [e0] at hp
    obtain ⟨q', -, rfl⟩ := Multiset.mem_map.1 hq
    rw [(fin_nil hp).2] at e
    simp [PathT.cat, Tr.asPath, strip, h0] at e
  | n + 1, s => by
    rw [Fst.pathsFrom_succ, readsP_succ, join_bind_left, join_bind_left, Multiset.map_bind]
    refine Multiset.bind_congr fun a _ => ?_
    by_cases h1 : a.olabel = t.ilabel
    · rw [if_pos h1, join_map_left, Multiset.map_map]
      have ea : a.asPath = (strip a.ilabel, [t.ilabel], a.weight) := by simp [Tr.asPath, strip, h1, h0]
      have et : t.asPath = ([t.ilabel], strip t.olabel, t.weight) := by simp [Tr.asPath, strip, h0]
      simp only [begins, ea, et]
      rw [join_map_both, if_pos rfl]
      refine Multiset.map_congr rfl fun p _ => ?_
      simp [PathT.cat, mul_assoc, mul_left_comm]
    · rw [if_neg h1]
      by_cases h2 : a.olabel = EPS
      · rw [if_pos h2, join_map_left, Multiset.map_map]
        have ea : a.asPath = (strip a.ilabel, [], a.weight) := by simp [Tr.asPath, strip, h2]
        simp only [ea]
        rw [join_map_left, join_begins h0 m n, Multiset.map_map]
        refine Multiset.map_congr rfl fun p _ => ?_
        simp [PathT.cat, mul_left_comm]
      · rw [if_neg h2]
        have ea : a.asPath = (strip a.ilabel, [a.olabel], a.weight) := by simp [Tr.asPath, strip, h2]
        have et : t.asPath = ([t.ilabel], strip t.olabel, t.weight) := by simp [Tr.asPath, strip, h0]
        simp only [begins, ea, et]
        rw [join_map_both, if_neg (Ne.symm h1)]
        simp

end

/-! ### The matchers with at most one label -/

theorem LabelSet.contains_empty (k : Label) : LabelSet.empty.contains k = false := by
  simp [LabelSet.contains, LabelSet.empty]

theorem LabelSet.contains_one {l : Label} (h : l ≠ NO_LABEL) (k : Label) : (LabelSet.empty.insert l).contains k = decide (k = l) := by
  simp only [LabelSet.contains, LabelSet.empty, LabelSet.insert, true_or, if_true, h, false_or, List.filter_nil, List.nil_append, List.length_cons, List.length_nil]
  by_cases h1 : k < l ∨ k > l
  · rw [if_pos h1]; simp; omega
  · rw [if_neg h1]; simp; omega

/-- Without labels the matcher is the one it wraps. -/
theorem MultiEps.iterR_empty (ls lp : Bool) (it : Label → R (List (IterItem W))) (l : Label) : (⟨ls, lp, .empty⟩ : MultiEps).iterR it l = it l := by
  unfold MultiEps.iterR
  by_cases h0 : l = EPS
  · rw [if_pos h0, h0]
  · rw [if_neg h0]
    by_cases h1 : l = NO_LABEL
    · rw [if_pos h1, h1]; cases ls <;> simp [LabelSet.empty, firstWith]
    · rw [if_neg h1, LabelSet.contains_empty]; simp

/-- With one label and the loop flag, the matcher stays where it is on this label. -/
theorem MultiEps.iterR_loop {fl : Label} (h : fl ≠ NO_LABEL) (h0 : fl ≠ EPS) (it : Label → R (List (IterItem W))) (l : Label) :
    (⟨false, true, LabelSet.empty.insert fl⟩ : MultiEps).iterR it l = if l = fl then .ok [.epsLoop] else it l := by
  unfold MultiEps.iterR
  by_cases e0 : l = EPS
  · rw [if_pos e0, e0, if_neg (Ne.symm h0)]
  · rw [if_neg e0]
    by_cases e1 : l = NO_LABEL
    · rw [if_pos e1, e1, if_neg (Ne.symm h)]; rfl
    · rw [if_neg e1, LabelSet.contains_one h]
      by_cases e2 : l = fl <;> simp [e2]

/-- With one label and the list flag, the transitions with this label come along with the ε-transitions. -/
theorem MultiEps.iterR_list {fl : Label} {it : Label → R (List (IterItem W))} {x : Label → List (IterItem W)} (hx : ∀ l, it l = .ok (x l)) (l : Label) :
    (⟨true, false, LabelSet.empty.insert fl⟩ : MultiEps).iterR it l = if l = NO_LABEL then .ok (x fl ++ x NO_LABEL) else .ok (x l) := by
  unfold MultiEps.iterR
  by_cases e0 : l = EPS
  · rw [if_pos e0, e0, if_neg (by simp [NO_LABEL]), hx]
  · rw [if_neg e0]
    by_cases e1 : l = NO_LABEL
    · rw [if_pos e1, if_pos e1]
      cases hf : x fl with
      | nil => simp [LabelSet.empty, LabelSet.insert, firstWith, hx, hf]
      | cons y ys => simp [LabelSet.empty, LabelSet.insert, firstWith, hx, hf]
    · rw [if_neg e1, if_neg e1]; simp [hx]

end Verif
