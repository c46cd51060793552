import Verif.Model.FinalOps
import Verif.Lemmas.Total
import Verif.Lemmas.Append
import Verif.Props.C18
import Mathlib.Data.Multiset.Filter
import Mathlib.Algebra.BigOperators.Intervals
import Mathlib.Data.Matrix.Mul
import Mathlib.Data.Matrix.Reflection
import Mathlib.Tactic.Ring

/-! # C21: `add_super_final_state` and `rm_final_epsilon` -/

namespace Verif
open Fst
set_option linter.unusedSectionVars false
universe u

section super
variable {W : Type u} [Monoid W] [Zero W] [DecidableEq W]

namespace Fst

theorem finals_mem {f : Fst W} {s : StateId} {w : W} : (s, w) ∈ f.finals ↔ f.finOf s = some w := by
  unfold finals
  rw [List.mem_filterMap]
  constructor
  · rintro ⟨q, -, h⟩
    cases hq : f.finOf q with
    | none => rw [hq] at h; simp at h
    | some v => rw [hq] at h; simp at h; obtain ⟨rfl, rfl⟩ := h; exact hq
  · intro h; exact ⟨s, List.mem_range.2 (lt_of_finOf h), by rw [h]; rfl⟩

/-- The redirecting loop of `add_super_final_state` is a loop over all states. -/
theorem redirect_fold (f : Fst W) (sf : Nat) (g : Fst W) : f.finals.foldl (redirectFinal sf) g =
    (List.range f.numStates).foldl (fun g s => match f.finOf s with | some w => redirectFinal sf g (s, w) | none => g) g := by
  unfold finals
  generalize List.range f.numStates = l
  induction l generalizing g with
  | nil => rfl
  | cons s l ih =>
    rw [List.filterMap_cons]
    cases hw : f.finOf s with
    | none => simp [hw, ih]
    | some w => simp [hw, ih]

theorem redirect_spec (f : Fst W) :
    let h := f.finals.foldl (redirectFinal f.numStates) (f.addState.setFinal f.numStates 1)
    (∀ q, h.trsOf q = f.trsOf q ++ (match f.finOf q with
      | some w => [epsTr w f.numStates]
      | none => [])) ∧
    (∀ q, h.finOf q = if q = f.numStates then some 1 else none) ∧ h.numStates = f.numStates + 1 ∧ h.start = f.start ∧
    (f.Truthful → h.Truthful) := by
  intro h
  obtain ⟨h1, h2, h3, h4, h5⟩ := foldl_range_induct (fun n (h : Fst W) =>
      (∀ q, h.trsOf q = f.trsOf q ++ (if q < n then (match f.finOf q with
        | some w => [epsTr w f.numStates]
        | none => []) else [])) ∧
      (∀ q, h.finOf q = if q = f.numStates then some 1 else if q < n then none else f.finOf q) ∧ h.numStates = f.numStates + 1 ∧
      h.start = f.start ∧ (f.Truthful → h.Truthful))
      (fun g s => match f.finOf s with | some w => redirectFinal f.numStates g (s, w) | none => g) f.numStates
      (f.addState.setFinal f.numStates 1)
      ⟨by simp, by intro q; rw [setFinal_finOf]; by_cases hq : q = f.numStates <;> simp [hq], by simp, by simp,
        fun ht => truthful_setFinal (truthful_addStates ht 1) (by rw [addStates_numStates]; omega) _⟩
      (by
        rintro j h hj ⟨a, b, c, d, e⟩
        cases hw : f.finOf j with
        | none =>
          refine ⟨fun q => ?_, fun q => ?_, c, d, e⟩
          · simp only
            rw [a]
            by_cases hq : q = j
            · subst hq; simp [hw]
            · have : q < j + 1 ↔ q < j := by omega
              simp [this]
          · simp only
            rw [b]
            by_cases hq : q = j
            · subst hq; simp [hw]
            · have : q < j + 1 ↔ q < j := by omega
              simp [this]
        | some w =>
          simp only [redirectFinal]
          refine ⟨fun q => ?_, fun q => ?_, by simp [c], by simp [d], fun x => truthful_addTr (truthful_delFinal (e x) (by omega))
            (by rw [delFinal_numStates, c]; omega) _⟩
          · rw [addTr_trsOf, delFinal_trsOf, delFinal_numStates, c]
            by_cases hq : q = j
            · subst hq; simp [hw, a]; omega
            · have : q < j + 1 ↔ q < j := by omega
              simp [this, hq, a]
          · rw [addTr_finOf, delFinal_finOf, b]
            by_cases hq : q = j
            · subst hq
              have : q ≠ f.numStates := by omega
              simp [this]
            · have : q < j + 1 ↔ q < j := by omega
              simp [this, hq])
  have e : h = (List.range f.numStates).foldl (fun g s => match f.finOf s with | some w => redirectFinal f.numStates g (s, w) | none => g)
      (f.addState.setFinal f.numStates 1) := redirect_fold f _ _
  rw [e]
  refine ⟨fun q => ?_, fun q => ?_, h3, h4, h5⟩
  · rw [h1]
    by_cases hq : q < f.numStates
    · simp [hq]
    · simp [hq, finOf_of_ge (f := f) (Nat.le_of_not_lt hq)]
  · rw [h2]
    by_cases hq : q < f.numStates
    · simp [hq]
    · simp [hq, finOf_of_ge (f := f) (Nat.le_of_not_lt hq)]

end Fst

/-- C21, first part: after `add_super_final_state` the returned state is the only final state and has final weight one. Either the FST
already was so and nothing changes, or the returned state is new and every accepting path of length `n` becomes one of length `n + 1`
with the same labels and weight. Flags stay true. -/
theorem C21_super_final (f : Fst W) (hw : f.WF) : let (g, sf) := f.addSuperFinal
    (∀ q w, g.finOf q = some w ↔ q = sf ∧ w = 1) ∧
    ((g = f ∧ sf < f.numStates) ∨ (sf = f.numStates ∧ g.numStates = f.numStates + 1 ∧ g.start = f.start ∧
      ∀ n, g.accPaths n = delay 1 f.accPaths n)) ∧ (f.Truthful → g.Truthful) := by
  have hnew : let h := f.finals.foldl (redirectFinal f.numStates) (f.addState.setFinal f.numStates 1)
      (∀ q w, h.finOf q = some w ↔ q = f.numStates ∧ w = 1) ∧ h.numStates = f.numStates + 1 ∧ h.start = f.start ∧
      (∀ n, h.accPaths n = delay 1 f.accPaths n) ∧ (f.Truthful → h.Truthful) := by
    intro h
    obtain ⟨h1, h2, h3, h4, h5⟩ := redirect_spec f
    refine ⟨fun q w => ?_, h3, h4, ?_, h5⟩
    · show h.finOf q = some w ↔ _
      rw [h2]
      by_cases hq : q = f.numStates <;> simp [hq, eq_comm]
    · have key : ∀ n s, s < f.numStates → h.pathsFrom (n + 1) s = f.pathsFrom n s := by
        intro n
        have hend : ∀ m, h.pathsFrom m f.numStates = if m = 0 then {([], [], 1)} else 0 := by
          intro m
          cases m with
          | zero => rw [pathsFrom_zero, h2]; simp
          | succ m => rw [pathsFrom_succ, h1, trsOf_of_ge (Nat.le_refl _), finOf_of_ge (Nat.le_refl _)]; simp
        induction n with
        | zero =>
          intro s hs
          have h0 : ∀ q, q < f.numStates → h.pathsFrom 0 q = 0 := by
            intro q hq
            have : q ≠ f.numStates := by omega
            rw [pathsFrom_zero, h2]; simp [this]
          rw [pathsFrom_succ, h1, pathsFrom_zero, ← Multiset.coe_add, Multiset.add_bind]
          have : (f.trsOf s : Multiset (Tr W)).bind (fun t => (h.pathsFrom 0 t.nextstate).map fun p => t.asPath.cat p) = 0 := by
            rw [← Multiset.bind_zero (f.trsOf s : Multiset (Tr W))]
            refine Multiset.bind_congr fun t ht => ?_
            rw [h0 _ (hw.next_lt s t (by simpa using ht))]; rfl
          rw [this, zero_add]
          cases hfs : f.finOf s with
          | none => simp
          | some w => simp [epsTr, hend, Tr.asPath, PathT.cat, strip]
        | succ n ih =>
          intro s hs
          rw [pathsFrom_succ, h1, pathsFrom_succ, ← Multiset.coe_add, Multiset.add_bind]
          have : (f.trsOf s : Multiset (Tr W)).bind (fun t => (h.pathsFrom (n + 1) t.nextstate).map fun p => t.asPath.cat p) =
              (f.trsOf s : Multiset (Tr W)).bind (fun t => (f.pathsFrom n t.nextstate).map fun p => t.asPath.cat p) := by
            refine Multiset.bind_congr fun t ht => ?_
            rw [ih _ (hw.next_lt s t (by simpa using ht))]
          rw [this]
          cases hfs : f.finOf s with
          | none => simp
          | some w => simp [epsTr, hend]
      intro n
      have h4' : h.start = f.start := h4
      cases hs : f.start with
      | none =>
        rw [accPaths_none (h4'.trans hs)]
        cases n <;> simp [accPaths_none hs]
      | some i =>
        have hi := hw.start_lt i hs
        rw [accPaths_some (h4'.trans hs)]
        cases n with
        | zero =>
          have : i ≠ f.numStates := by omega
          rw [pathsFrom_zero, h2]; simp [this]
        | succ n => rw [key n i hi, delay_one_succ, accPaths_some hs]
  obtain ⟨n1, n2, n3, n4, n5⟩ := hnew
  have hgen : ∀ g, g = f.finals.foldl (redirectFinal f.numStates) (f.addState.setFinal f.numStates 1) →
      (∀ q w, g.finOf q = some w ↔ q = f.numStates ∧ w = 1) ∧
      ((g = f ∧ f.numStates < f.numStates) ∨ (f.numStates = f.numStates ∧ g.numStates = f.numStates + 1 ∧ g.start = f.start ∧
      ∀ n, g.accPaths n = delay 1 f.accPaths n)) ∧ (f.Truthful → g.Truthful) := by
    rintro g rfl
    exact ⟨n1, .inr ⟨rfl, n2, n3, n4⟩, n5⟩
  obtain ⟨r, hr⟩ : ∃ r, r = f.addSuperFinal := ⟨_, rfl⟩
  rw [← hr]
  unfold addSuperFinal at hr
  split at hr
  · rename_i s w hf
    split at hr
    · rename_i h1
      subst hr
      subst h1
      have hm : ∀ q v, f.finOf q = some v ↔ q = s ∧ v = 1 := by
        intro q v
        rw [← finals_mem, hf]; simp
      exact ⟨hm, .inl ⟨rfl, lt_of_finOf ((hm s 1).2 ⟨rfl, rfl⟩)⟩, id⟩
    · subst hr; exact hgen _ (by rw [hf])
  · subst hr; exact hgen _ rfl

end super

/-! ## `rm_final_epsilon` -/

section rm
variable {W : Type u}

/-- Deleting the positions that satisfy `p`. -/
theorem delTrIdx_filter (p : Tr W → Bool) (st : State W) : ∀ (l pre : List (Tr W)), st.trs = pre ++ l →
    ∃ st', delTrIdx st (((l.zipIdx pre.length).filter fun x => p x.1).map (·.2)) = .ok st' ∧
      st'.trs = pre ++ l.filter (fun t => !p t) ∧ st'.fin = st.fin := by
  intro l
  induction l with
  | nil => intro pre h; exact ⟨st, rfl, by simpa using h, rfl⟩
  | cons t l ih =>
    intro pre h
    obtain ⟨st', h1, h2, h3⟩ := ih (pre ++ [t]) (by simp [h])
    rw [List.length_append, List.length_singleton] at h1
    rw [List.zipIdx_cons, List.filter_cons]
    cases hp : p t with
    | false =>
      rw [if_neg (by simp)]
      exact ⟨st', h1, by rw [h2]; simp [hp], h3⟩
    | true =>
      rw [if_pos rfl, List.map_cons, delTrIdx, h1]
      have : st'.trs[pre.length]? = some t := by rw [h2]; simp
      simp only [this]
      refine ⟨_, rfl, ?_, h3⟩
      simp only [h2, hp]
      rw [List.append_assoc, List.eraseIdx_append_of_length_le (Nat.le_refl _)]
      simp [hp]

variable [Zero W] [One W] [DecidableEq W]

namespace Fst

theorem delTrsIdSorted_filter (f : Fst W) (p : Tr W → Bool) (s : StateId) (hs : s < f.numStates) :
    ∃ g, f.delTrsIdSorted s (((f.trsOf s).zipIdx.filter fun x => p x.1).map (·.2)) = .ok g ∧ g.numStates = f.numStates ∧
      g.start = f.start ∧ (∀ q, g.finOf q = f.finOf q) ∧
      ∀ q, g.trsOf q = if q = s then (f.trsOf q).filter (fun t => !p t) else f.trsOf q := by
  have hst : f.states[s]? = some (f.states[s]'hs) := List.getElem?_eq_getElem hs
  have ht := trsOf_of_lt hs
  have hf := finOf_of_lt hs
  obtain ⟨st', h1, h2, h3⟩ := delTrIdx_filter p (f.states[s]'hs) (f.trsOf s) [] (by simp [ht])
  unfold delTrsIdSorted
  rw [hst]
  simp only
  have h1' : delTrIdx (f.states[s]'hs) (((f.trsOf s).zipIdx.filter fun x => p x.1).map (·.2)) = .ok st' := h1
  rw [h1']
  refine ⟨_, rfl, by simp [numStates], rfl, fun q => ?_, fun q => ?_⟩
  · rw [set_finOf f s st' _ hs]
    by_cases hq : q = s
    · subst hq; simp [h3, hf]
    · simp [hq]
  · rw [set_trsOf f s st' _ hs]
    by_cases hq : q = s
    · subst hq; simp [h2]
    · simp [hq]

variable [Add W] [Mul W]

/-- The final weight of `s` after the loop of `rm_final_epsilon`. -/
def rmFin (f : Fst W) (dead : StateId → Bool) (s : StateId) : Option W :=
  if (f.trsOf s).filter (toDeadEnd dead) = [] then f.finOf s
  else if f.rmFinalWeight dead s = 0 then f.finOf s else some (f.rmFinalWeight dead s)

theorem rmFinalIdx_nil (f : Fst W) (dead : StateId → Bool) (s) : f.rmFinalIdx dead s = [] ↔ (f.trsOf s).filter (toDeadEnd dead) = [] := by
  unfold rmFinalIdx
  rw [List.map_eq_nil_iff, List.filter_eq_nil_iff, List.filter_eq_nil_iff]
  constructor
  · intro h t ht
    obtain ⟨i, hi, rfl⟩ := List.mem_iff_getElem.1 ht
    exact h ((f.trsOf s)[i], i) (List.mk_mem_zipIdx_iff_getElem?.2 (by simp [hi]))
  · rintro h ⟨t, i⟩ hti
    have := List.mk_mem_zipIdx_iff_getElem?.1 hti
    exact h t (List.mem_of_getElem? this)

/-- The loop of `rm_final_epsilon`. -/
theorem rmFinal_loop (f : Fst W) (hw : f.WF) (dead : StateId → Bool) : ∃ g,
    (List.range f.numStates).foldl (rmFinalStep dead) (.ok f) = .ok g ∧ g.numStates = f.numStates ∧ g.start = f.start ∧
    (∀ q, g.trsOf q = (f.trsOf q).filter fun t => !toDeadEnd dead t) ∧ (f.Truthful → g.Truthful) ∧
    ((∀ q t, dead q = true → t ∈ f.trsOf q → dead t.nextstate = false) → ∀ q, g.finOf q = f.rmFin dead q) := by
  obtain ⟨g, h1, h2, h3, h4, h5, h6⟩ := foldl_range_induct (fun n (r : R (Fst W)) => ∃ g, r = .ok g ∧ g.numStates = f.numStates ∧
      g.start = f.start ∧ (∀ q, g.trsOf q = if q < n then (f.trsOf q).filter fun t => !toDeadEnd dead t else f.trsOf q) ∧
      (f.Truthful → g.Truthful) ∧
      ((∀ q t, dead q = true → t ∈ f.trsOf q → dead t.nextstate = false) → ∀ q, g.finOf q = if q < n then f.rmFin dead q else f.finOf q))
    (rmFinalStep dead) f.numStates (.ok f) ⟨f, rfl, rfl, rfl, by simp, id, by simp⟩
    (by
      rintro j r hj ⟨g, rfl, a, b, c, d, e⟩
      have htj : g.trsOf j = f.trsOf j := by rw [c]; simp
      have hidx : g.rmFinalIdx dead j = f.rmFinalIdx dead j := by unfold rmFinalIdx; rw [htj]
      unfold rmFinalStep
      simp only
      by_cases hnil : g.rmFinalIdx dead j = []
      · rw [if_pos hnil]
        rw [hidx, rmFinalIdx_nil] at hnil
        have hall : (f.trsOf j).filter (fun t => !toDeadEnd dead t) = f.trsOf j := by
          rw [List.filter_eq_self]
          intro t ht
          have := List.filter_eq_nil_iff.1 hnil t ht
          simpa using this
        refine ⟨g, rfl, a, b, fun q => ?_, d, fun hd q => ?_⟩
        · rw [c]
          by_cases hq : q = j
          · subst hq; simp [hall]
          · have : q < j + 1 ↔ q < j := by omega
            simp [this]
        · rw [e hd]
          by_cases hq : q = j
          · subst hq; simp [rmFin, hnil]
          · have : q < j + 1 ↔ q < j := by omega
            simp [this]
      · rw [if_neg hnil]
        obtain ⟨g1, hg1⟩ : ∃ g1, g1 = (if g.rmFinalWeight dead j = 0 then g else g.setFinal j (g.rmFinalWeight dead j)) := ⟨_, rfl⟩
        rw [← hg1]
        have x : g1.numStates = g.numStates ∧ g1.start = g.start ∧ (∀ q, g1.trsOf q = g.trsOf q) ∧ (f.Truthful → g1.Truthful) ∧
            ∀ q, g1.finOf q = if q = j then (if g.rmFinalWeight dead j = 0 then g.finOf q else some (g.rmFinalWeight dead j)) else g.finOf q := by
          rw [hg1]
          by_cases hz : g.rmFinalWeight dead j = 0
          · rw [if_pos hz]
            exact ⟨rfl, rfl, fun _ => rfl, d, fun q => by rw [if_pos hz]; simp⟩
          · rw [if_neg hz]
            refine ⟨by simp, by simp, by simp, fun ht => truthful_setFinal (d ht) (by omega) _, fun q => ?_⟩
            rw [setFinal_finOf, if_neg hz]
            by_cases hq : q = j <;> simp [hq, a, hj]
        obtain ⟨x1, x2, x3, x4, x5⟩ := x
        have hidx1 : g.rmFinalIdx dead j = ((g1.trsOf j).zipIdx.filter fun y => toDeadEnd dead y.1).map (·.2) := by
          unfold rmFinalIdx; rw [x3]
        obtain ⟨g2, y1, y2, y3, y4, y5⟩ := delTrsIdSorted_filter g1 (toDeadEnd dead) j (by omega)
        rw [← hidx1] at y1
        refine ⟨g2, y1, by omega, by rw [y3, x2, b], fun q => ?_, fun ht => truthful_delTrsIdSorted (x4 ht) y1, fun hd q => ?_⟩
        · rw [y5, x3, c]
          by_cases hq : q = j
          · subst hq; simp
          · have : q < j + 1 ↔ q < j := by omega
            simp [this, hq]
        · -- the weights read by the loop are those of `f`
          have hdead : ∀ q, dead q = true → g.finOf q = f.finOf q := by
            intro q hq
            rw [e hd]
            split
            · unfold rmFin
              rw [if_pos]
              rw [List.filter_eq_nil_iff]
              intro t ht
              simp [toDeadEnd, hd q t hq ht]
            · rfl
          have hfj : g.finOf j = f.finOf j := by rw [e hd]; simp
          have hrw : g.rmFinalWeight dead j = f.rmFinalWeight dead j := by
            unfold rmFinalWeight
            rw [htj, hfj]
            have : ∀ (l : List (Tr W)), (∀ t ∈ l, toDeadEnd dead t = true) → ∀ w : W,
                l.foldl (fun w t => w + (g.finOf t.nextstate).getD 0 * t.weight) w =
                l.foldl (fun w t => w + (f.finOf t.nextstate).getD 0 * t.weight) w := by
              intro l hl
              induction l with
              | nil => intro w; rfl
              | cons t l ih =>
                intro w
                rw [List.foldl_cons, List.foldl_cons, ih (fun t ht => hl t (List.mem_cons_of_mem _ ht))]
                have := hl t List.mem_cons_self
                unfold toDeadEnd at this
                simp only [Bool.and_eq_true] at this
                rw [hdead _ this.1.1]
            exact this _ (fun t ht => (List.mem_filter.1 ht).2) _
          rw [y4, x5]
          by_cases hq : q = j
          · subst hq
            have hne : (f.trsOf q).filter (toDeadEnd dead) ≠ [] := by
              intro h; exact hnil (by rw [hidx]; exact (rmFinalIdx_nil f dead q).2 h)
            rw [if_pos rfl, if_pos (Nat.lt_succ_self q), hrw, hfj]
            unfold rmFin
            rw [if_neg hne]
          · have : q < j + 1 ↔ q < j := by omega
            simp only [hq, if_false, this]
            exact e hd q)
  refine ⟨g, h1, h2, h3, fun q => ?_, h5, fun hd q => ?_⟩
  · rw [h4]
    by_cases hq : q < f.numStates
    · simp [hq]
    · simp [hq, trsOf_of_ge (f := f) (Nat.le_of_not_lt hq)]
  · rw [h6 hd]
    by_cases hq : q < f.numStates
    · simp [hq]
    · simp [hq, rmFin, trsOf_of_ge (f := f) (Nat.le_of_not_lt hq)]

end Fst
end rm

section paths
variable {W : Type u} [CommSemiring W] [DecidableEq W]

namespace Fst

/-- Paths of length `n` without a transition in `D`. -/
def pathsOff (f : Fst W) (D : Tr W → Bool) : Nat → StateId → Multiset (PathT W)
  | 0, s => f.pathsFrom 0 s
  | n + 1, s => (((f.trsOf s).filter fun t => !D t) : Multiset (Tr W)).bind fun t =>
      (f.pathsOff D n t.nextstate).map fun p => t.asPath.cat p

/-- Paths of length `n` whose last transition is the only one in `D`. -/
def pathsInto (f : Fst W) (D : Tr W → Bool) : Nat → StateId → Multiset (PathT W)
  | 0, _ => 0
  | 1, s => ((f.trsOf s).filter D : Multiset (Tr W)).bind fun t => (f.pathsFrom 0 t.nextstate).map fun p => t.asPath.cat p
  | n + 2, s => (((f.trsOf s).filter fun t => !D t) : Multiset (Tr W)).bind fun t =>
      (f.pathsInto D (n + 1) t.nextstate).map fun p => t.asPath.cat p

theorem bind_filter_split {α β : Type*} (l : List α) (D : α → Bool) (F : α → Multiset β) :
    (l : Multiset α).bind F = ((l.filter D : List α) : Multiset α).bind F + ((l.filter fun t => !D t : List α) : Multiset α).bind F := by
  induction l with
  | nil => simp
  | cons a l ih =>
    rw [← Multiset.cons_coe, Multiset.cons_bind, ih]
    cases h : D a
    · simp only [List.filter_cons, h, Bool.not_false, if_true, Bool.false_eq_true, if_false]
      rw [← Multiset.cons_coe, Multiset.cons_bind]; exact add_left_comm _ _ _
    · simp only [List.filter_cons, h, Bool.not_true, if_true, Bool.false_eq_true, if_false]
      rw [← Multiset.cons_coe, Multiset.cons_bind]; exact (add_assoc _ _ _).symm

theorem paths_split (f : Fst W) (D : Tr W → Bool) (hD : ∀ s t n, t ∈ f.trsOf s → D t = true → f.pathsFrom (n + 1) t.nextstate = 0) :
    ∀ n s, f.pathsFrom n s = f.pathsInto D n s + f.pathsOff D n s := by
  intro n
  induction n with
  | zero => intro s; simp [pathsInto, pathsOff]
  | succ n ih =>
    intro s
    rw [pathsFrom_succ, bind_filter_split _ D]
    cases n with
    | zero => rfl
    | succ n =>
      have h0 : ((f.trsOf s).filter D : Multiset (Tr W)).bind
          (fun t => (f.pathsFrom (n + 1) t.nextstate).map fun p => t.asPath.cat p) = 0 := by
        rw [← Multiset.bind_zero ((f.trsOf s).filter D : Multiset (Tr W))]
        refine Multiset.bind_congr fun t ht => ?_
        have := List.mem_filter.1 (Multiset.mem_coe.1 ht)
        rw [hD s t n this.1 this.2]; rfl
      rw [h0, zero_add, pathsInto, pathsOff, ← Multiset.bind_add]
      refine Multiset.bind_congr fun t _ => ?_
      rw [ih, Multiset.map_add]

theorem total_add (A B : Multiset (PathT W)) (F) : total (A + B) F = total A F + total B F := by
  simp [total]

theorem total_zero_paths (f : Fst W) (s F) : total (f.pathsFrom 0 s) F = (f.finOf s).getD 0 * F [] [] := by
  rw [pathsFrom_zero]
  cases f.finOf s <;> simp [total]

end Fst

open Fst in
theorem rmFinal_total (f g : Fst W) (dead : StateId → Bool) (hzs : ∀ a b : W, a + b = 0 → a = 0)
    (ht : ∀ q, g.trsOf q = (f.trsOf q).filter fun t => !toDeadEnd dead t) (hf : ∀ q, g.finOf q = f.rmFin dead q) :
    ∀ n s F, total (g.pathsFrom n s) F = total (f.pathsOff (toDeadEnd dead) n s) F + total (f.pathsInto (toDeadEnd dead) (n + 1) s) F := by
  intro n
  induction n with
  | zero =>
    intro s F
    have hfin : (g.finOf s).getD 0 = f.rmFinalWeight dead s := by
      rw [hf]; unfold rmFin
      have hfold : ∀ (l : List (Tr W)) (w : W), ∃ v, l.foldl (fun w t => w + (f.finOf t.nextstate).getD 0 * t.weight) w = w + v := by
        intro l
        induction l with
        | nil => intro w; exact ⟨0, by simp⟩
        | cons t l ih => intro w; obtain ⟨v, hv⟩ := ih (w + (f.finOf t.nextstate).getD 0 * t.weight); exact ⟨_, by rw [List.foldl_cons, hv, add_assoc]⟩
      split
      · rename_i h; unfold rmFinalWeight; rw [h]; rfl
      · split
        · rename_i h
          rw [h]
          unfold rmFinalWeight at h
          obtain ⟨v, hv⟩ := hfold ((f.trsOf s).filter (toDeadEnd dead)) ((f.finOf s).getD 0)
          rw [hv] at h; exact hzs _ _ h
        · rfl
    rw [total_zero_paths, hfin, pathsOff, total_zero_paths, pathsInto, total_bind]
    unfold rmFinalWeight
    have : ∀ (l : List (Tr W)), (∀ t ∈ l, toDeadEnd dead t = true) → ∀ w : W,
        l.foldl (fun w t => w + (f.finOf t.nextstate).getD 0 * t.weight) w * F [] [] =
        w * F [] [] + ((l : Multiset (Tr W)).map fun t => total ((f.pathsFrom 0 t.nextstate).map fun p => t.asPath.cat p) F).sum := by
      intro l hl
      induction l with
      | nil => intro w; simp
      | cons t l ih =>
        intro w
        rw [List.foldl_cons, ih (fun t ht => hl t (List.mem_cons_of_mem _ ht)), ← Multiset.cons_coe, Multiset.map_cons, Multiset.sum_cons,
          total_cat, total_zero_paths]
        have := hl t List.mem_cons_self
        unfold toDeadEnd at this
        simp only [Bool.and_eq_true, decide_eq_true_eq] at this
        simp only [Tr.asPath, this.1.2, this.2, strip, if_true, List.nil_append]
        ring
    exact this _ (fun t ht => (List.mem_filter.1 ht).2) _
  | succ n ih =>
    intro s F
    rw [pathsFrom_succ, ht, total_bind, pathsOff, pathsInto, total_bind, total_bind, ← Multiset.sum_map_add]
    congr 1
    refine Multiset.map_congr rfl fun t _ => ?_
    rw [total_cat, total_cat, total_cat, ih, mul_add]

open Fst in
/-- C21, second part: `rm_final_epsilon` succeeds on every well-formed FST and preserves the total weight of every pair of strings, over
every commutative semiring in which sums of non-zero weights are non-zero: the accepting paths of `f` are divided into two groups `A`
and `B` such that the result assigns to the paths with `n` transitions the weight of the paths of `B` with `n` and of those of `A` with
`n + 1` transitions. Every state of the result lies on an accepting path and flags stay true. -/
theorem C21_rm_final_epsilon_partial (f : Fst W) (hw : f.WF) (hzs : ∀ a b : W, a + b = 0 → a = 0) : ∃ g, f.rmFinalEpsilon = .ok g ∧
    (∃ A B : Nat → Multiset (PathT W), A 0 = 0 ∧ (∀ n, f.accPaths n = A n + B n) ∧
      ∀ n x y, g.weightOf n x y = (((B n + A (n + 1)).filter fun p => p.1 = x ∧ p.2.1 = y).map fun p => p.2.2).sum) ∧
    (∀ q, q < g.numStates → g.Accessible q ∧ g.Coaccessible q) ∧ (f.Truthful → g.Truthful) := by
  obtain ⟨g, h1, h2, h3, h4, h5, h6⟩ := rmFinal_loop f hw (f.deadEnds (f.sccVisit fun _ => true).coaccess)
  obtain ⟨dead, hdead⟩ : ∃ d, d = f.deadEnds (f.sccVisit fun _ => true).coaccess := ⟨_, rfl⟩
  rw [← hdead] at h1 h4 h6
  have hgw : g.WF := ⟨fun i hi => by rw [h2]; exact hw.start_lt i (h3 ▸ hi), fun s t ht => by
    rw [h2]; rw [h4] at ht; exact hw.next_lt s t (List.mem_filter.1 ht).1⟩
  obtain ⟨k, ds, hk, -⟩ := C18_connect g hgw
  refine ⟨k, ?_, ?_, C18_trim g k hgw hk, fun tf => C18_flags g k hgw (h5 tf) hk⟩
  · unfold rmFinalEpsilon
    rw [if_neg (by rw [targetsOk_of_wf hw]; simp)]
    simp only
    rw [← hdead, h1]; exact hk
  · have hkp : ∀ n, k.accPaths n = g.accPaths n := C18_paths g k hgw hk
    cases hs : f.start with
    | none =>
      refine ⟨fun _ => 0, fun _ => 0, rfl, fun n => by rw [accPaths_none hs]; rfl, fun n x y => ?_⟩
      unfold weightOf
      rw [hkp, accPaths_none (h3.trans hs)]; rfl
    | some i =>
      have Rr := Scc.sccVisit_spec hw hs (fun _ => true)
      have hco : ∀ q, q < f.numStates → ((f.sccVisit fun _ => true).coaccess q = true ↔ f.Coaccessible q) := by
        intro q hq; rw [Rr.coaccess q hq, Scc.coAcc_true]
      have hdd : ∀ q t, dead q = true → t ∈ f.trsOf q → ¬ f.Coaccessible t.nextstate := by
        intro q t hq ht hc
        rw [hdead] at hq
        unfold deadEnds at hq
        simp only [Bool.and_eq_true, Bool.not_eq_true', List.any_eq_false] at hq
        exact hq.2 t ht ((hco _ (hw.next_lt q t ht)).2 hc)
      have hdf : ∀ q, dead q = true → f.IsFinal q := by
        intro q hq
        rw [hdead] at hq
        unfold deadEnds at hq
        simp only [Bool.and_eq_true] at hq
        exact hq.1
      have hD : ∀ s t n, t ∈ f.trsOf s → toDeadEnd dead t = true → f.pathsFrom (n + 1) t.nextstate = 0 := by
        intro s t n ht hd
        unfold toDeadEnd at hd
        simp only [Bool.and_eq_true] at hd
        rw [pathsFrom_succ, ← Multiset.bind_zero (f.trsOf t.nextstate : Multiset (Tr W))]
        refine Multiset.bind_congr fun t' ht' => ?_
        rw [pathsFrom_dead _ (hdd _ t' hd.1.1 (by simpa using ht'))]; rfl
      have h7 := h6 (by
        intro q t hq ht
        by_contra hc
        have hc' : dead t.nextstate = true := by simpa using hc
        exact hdd q t hq ht ⟨_, .refl, hdf _ hc'⟩)
      have hsplit := paths_split f (toDeadEnd dead) hD
      refine ⟨fun n => f.pathsInto (toDeadEnd dead) n i, fun n => f.pathsOff (toDeadEnd dead) n i, rfl, fun n => ?_, fun n x y => ?_⟩
      · rw [accPaths_some hs]; exact hsplit n i
      · rw [weightOf_eq_total, hkp, accPaths_some (h3.trans hs), rmFinal_total f g dead hzs h4 h7]
        have conv : ∀ A : Multiset (PathT W), ((A.filter fun p => p.1 = x ∧ p.2.1 = y).map fun p => p.2.2).sum =
            total A (fun x' y' => if x' = x ∧ y' = y then 1 else 0) := by
          intro A
          unfold total
          induction A using Multiset.induction_on with
          | empty => simp
          | cons a A ih =>
            rw [Multiset.map_cons, Multiset.sum_cons, ← ih, Multiset.filter_cons]
            by_cases h : a.1 = x ∧ a.2.1 = y <;> simp [h]
        rw [conv, total_add]

open Fst in
/-- C21 for FSTs with boundedly long accepting paths (for example acyclic ones): the total weight of every pair of strings is the same
before and after. -/
theorem C21_rm_final_epsilon_total_partial (f g : Fst W) (hw : f.WF) (hzs : ∀ a b : W, a + b = 0 → a = 0) (hg : f.rmFinalEpsilon = .ok g)
    (N : Nat) (hN : ∀ n, N ≤ n → f.accPaths n = 0) (x y : List Label) :
    ∑ n ∈ Finset.range N, g.weightOf n x y = ∑ n ∈ Finset.range N, f.weightOf n x y := by
  obtain ⟨g', h1, ⟨A, B, hA, h2, h3⟩, -⟩ := C21_rm_final_epsilon_partial f hw hzs
  rw [hg] at h1; cases h1
  obtain ⟨φ, hφ⟩ : ∃ φ : Multiset (PathT W) → W, φ = fun M => ((M.filter fun p => p.1 = x ∧ p.2.1 = y).map fun p => p.2.2).sum := ⟨_, rfl⟩
  have hadd : ∀ M M', φ (M + M') = φ M + φ M' := by intro M M'; simp [hφ]
  have h0 : φ 0 = 0 := by simp [hφ]
  have e1 : ∀ n, g.weightOf n x y = φ (B n) + φ (A (n + 1)) := by intro n; rw [h3, ← hadd, hφ]
  have e2 : ∀ n, f.weightOf n x y = φ (A n) + φ (B n) := by intro n; rw [← hadd, ← h2, hφ]; rfl
  have hAN : A N = 0 := by
    have := h2 N
    rw [hN N (Nat.le_refl _)] at this
    exact (add_eq_zero.1 this.symm).1
  simp only [e1, e2, Finset.sum_add_distrib]
  have : ∑ n ∈ Finset.range N, φ (A (n + 1)) + φ (A 0) = ∑ n ∈ Finset.range N, φ (A n) + φ (A N) := by
    rw [← Finset.sum_range_succ' (fun n => φ (A n)), ← Finset.sum_range_succ (fun n => φ (A n))]
  rw [hA, hAN, h0, add_zero, add_zero] at this
  rw [this, add_comm]

/-- Defect: over the integers a sum of non-zero weights can be zero; the code then deletes the ε-transitions but keeps the old final
weight. Here `f` gives the empty string the weight `-1 + 1 = 0`, the result gives it `-1`. -/
theorem C21_zero_sum_defect : ∃ f g : Fst Int, f.WF ∧ f.rmFinalEpsilon = .ok g ∧
    (f.weightOf 0 [] [] + f.weightOf 1 [] [] = 0) ∧ g.weightOf 0 [] [] = -1 ∧ ∀ n, 0 < n → g.accPaths n = 0 := by
  refine ⟨(((((Fst.new.addStates 2).setStart 0).setFinal 0 (-1)).setFinal 1 1).addTr 0 ⟨0, 0, 1, 1⟩), _, Fst.wf_of_wfB (by decide), rfl,
    by decide, by decide, ?_⟩
  intro n hn
  cases n with
  | zero => cases hn
  | succ n =>
    rw [accPaths_some (i := 0) rfl, Fst.pathsFrom_succ]; rfl

/-- Defect: the factors are in the wrong order (`final ⊗ transition`). Over 2×2 matrices the path `0 → 1` of weight `a * b` becomes
a final weight `b * a ≠ a * b`. -/
theorem C21_order_defect : ∃ f g : Fst (Matrix (Fin 2) (Fin 2) Nat), f.WF ∧ f.rmFinalEpsilon = .ok g ∧
    f.accPaths 1 = {([], [], !![1, 0; 0, 0])} ∧ g.accPaths 0 = {([], [], !![0, 0; 0, 1])} ∧ ∀ n, 0 < n → g.accPaths n = 0 := by
  refine ⟨((((Fst.new.addStates 2).setStart 0).setFinal 1 !![0, 0; 1, 0]).addTr 0 ⟨0, 0, !![0, 1; 0, 0], 1⟩), _,
    Fst.wf_of_wfB (by decide), rfl, by decide, by decide, ?_⟩
  intro n hn
  cases n with
  | zero => cases hn
  | succ n =>
    rw [accPaths_some (i := 0) rfl, Fst.pathsFrom_succ]; rfl

/-! ### Instances -/

/-- Two final states, one with weight other than one. -/
def exSuper : Fst Nat :=
  (((((Fst.new.addStates 3).setStart 0).setFinal 1 3).setFinal 2 5).addTr 0 ⟨1, 2, 2, 1⟩).addTr 0 ⟨0, 0, 7, 2⟩
example : exSuper.WF := Fst.wf_of_wfB (by decide)
example : exSuper.addSuperFinal.2 = 3 ∧ exSuper.addSuperFinal.1.accPaths 2 = {([1], [2], 6), ([], [], 35)} := by decide
example : (exSuper.rmFinalEpsilon.toOption.map fun g => (g.weightOf 0 [] [], g.weightOf 1 [1] [2], g.numStates)) = some (35, 6, 2) := by
  decide
example : ∀ a b : Nat, a + b = 0 → a = 0 := by omega

end paths
end Verif
