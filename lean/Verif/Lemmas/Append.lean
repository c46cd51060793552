import Verif.Lemmas.Relabel

/-! # Shapes built by union, concat and closure -/

namespace Verif
set_option linter.unusedSectionVars false
universe u v
variable {W : Type u} [Zero W] [One W] [DecidableEq W]
namespace Fst

theorem addTrFold_spec {α : Type*} (k : α → Tr W) (ts : List α) (f : Fst W) {s : Nat} (hs : s < f.numStates) :
    (∀ q, (ts.foldl (fun f t => f.addTr s (k t)) f).trsOf q = if q = s then f.trsOf s ++ ts.map k else f.trsOf q) ∧
    (∀ q, (ts.foldl (fun f t => f.addTr s (k t)) f).finOf q = f.finOf q) ∧
    (ts.foldl (fun f t => f.addTr s (k t)) f).numStates = f.numStates ∧
    (ts.foldl (fun f t => f.addTr s (k t)) f).start = f.start ∧
    (f.AllCounters → (ts.foldl (fun f t => f.addTr s (k t)) f).AllCounters) := by
  induction ts generalizing f with
  | nil => refine ⟨fun q => ?_, fun _ => rfl, rfl, rfl, id⟩; simp only [List.foldl_nil, List.map_nil, List.append_nil]; split
           · rename_i h; rw [h]
           · rfl
  | cons t ts ih =>
    rw [List.foldl_cons]
    obtain ⟨a, b, c, d, e⟩ := ih (f.addTr s (k t)) (by simpa using hs)
    refine ⟨?_, ?_, ?_, ?_, ?_⟩
    · intro q; rw [a]
      simp only [addTr_trsOf, hs, and_true]
      by_cases h : q = s <;> simp [h]
    · intro q; rw [b]; simp
    · rw [c]; simp
    · rw [d]; simp
    · intro h; exact e (allCounters_addTr h _ _)

theorem appendState_spec (n1 : Nat) (g f : Fst W) (s2 : Nat) :
    (∀ q, (appendState n1 g f s2).trsOf q =
      if q = f.numStates then (g.trsOf s2).map (shiftTr n1) else f.trsOf q) ∧
    (∀ q, (appendState n1 g f s2).finOf q = if q = f.numStates then g.finOf s2 else f.finOf q) ∧
    (appendState n1 g f s2).numStates = f.numStates + 1 ∧
    (appendState n1 g f s2).start = f.start ∧ (f.AllCounters → (appendState n1 g f s2).AllCounters) := by
  obtain ⟨m, hm⟩ : ∃ m, m = (match g.finOf s2 with
    | some w => f.addState.setFinal f.numStates w
    | none => f.addState) := ⟨_, rfl⟩
  have hA : appendState n1 g f s2 = (g.trsOf s2).foldl (fun h t => h.addTr f.numStates (shiftTr n1 t)) m := by
    rw [hm]; unfold appendState; cases g.finOf s2 <;> rfl
  rw [hA]
  clear hA
  have m1 : ∀ q, m.trsOf q = f.trsOf q := by intro q; rw [hm]; split <;> simp
  have m2 : ∀ q, m.finOf q = if q = f.numStates then g.finOf s2 else f.finOf q := by
    intro q; rw [hm]
    split
    · rename_i w hw
      rw [setFinal_finOf, hw]; simp
    · rename_i hw
      rw [hw, addState_finOf]
      split
      · rename_i h; rw [h, finOf_of_ge (Nat.le_refl _)]
      · rfl
  have m3 : m.numStates = f.numStates + 1 := by rw [hm]; split <;> simp
  have m4 : m.start = f.start := by rw [hm]; split <;> simp
  have m5 : f.AllCounters → m.AllCounters := by
    intro h; rw [hm]; split
    · exact allCounters_setFinal (allCounters_addStates h 1) _ _
    · exact allCounters_addStates h 1
  obtain ⟨a, b, c, d, e⟩ := addTrFold_spec (shiftTr n1) (g.trsOf s2) m (s := f.numStates) (by omega)
  refine ⟨?_, ?_, by rw [c, m3], by rw [d, m4], fun h => e (m5 h)⟩
  · intro q; rw [a, m1, m1, trsOf_of_ge (Nat.le_refl _), List.nil_append]
  · intro q; rw [b, m2]

theorem appendFst_spec (f g : Fst W) :
    (∀ q, (f.appendFst g).trsOf q =
      if q < f.numStates then f.trsOf q else (g.trsOf (q - f.numStates)).map (shiftTr f.numStates)) ∧
    (∀ q, (f.appendFst g).finOf q = if q < f.numStates then f.finOf q else g.finOf (q - f.numStates)) ∧
    (f.appendFst g).numStates = f.numStates + g.numStates ∧
    (f.appendFst g).start = f.start ∧ (f.AllCounters → (f.appendFst g).AllCounters) := by
  obtain ⟨h1, h2, h3, h4, h5⟩ := foldl_range_induct (fun n (h : Fst W) =>
      (∀ q, h.trsOf q = if q < f.numStates then f.trsOf q
        else if q - f.numStates < n then (g.trsOf (q - f.numStates)).map (shiftTr f.numStates) else []) ∧
      (∀ q, h.finOf q = if q < f.numStates then f.finOf q
        else if q - f.numStates < n then g.finOf (q - f.numStates) else none) ∧
      h.numStates = f.numStates + n ∧ h.start = f.start ∧
      (f.AllCounters → h.AllCounters)) (appendState f.numStates g) g.numStates f
      ⟨by intro q; split
          · rfl
          · simp only [Nat.not_lt_zero, if_false]; exact trsOf_of_ge (by omega),
       by intro q; split
          · rfl
          · simp only [Nat.not_lt_zero, if_false]; exact finOf_of_ge (by omega), rfl, rfl, id⟩
      (by
        rintro i h hi ⟨a, b, c, d, e⟩
        obtain ⟨a', b', c', d', e'⟩ := appendState_spec f.numStates g h i
        refine ⟨?_, ?_, by rw [c', c]; omega, by rw [d', d], fun x => e' (e x)⟩
        · intro q; rw [a', c]
          by_cases hq : q = f.numStates + i
          · subst hq
            simp
          · rw [if_neg hq, a q]
            by_cases h1 : q < f.numStates
            · simp [h1]
            · have : q - f.numStates < i + 1 ↔ q - f.numStates < i := by omega
              simp [h1, this]
        · intro q; rw [b', c]
          by_cases hq : q = f.numStates + i
          · subst hq
            simp
          · rw [if_neg hq, b q]
            by_cases h1 : q < f.numStates
            · simp [h1]
            · have : q - f.numStates < i + 1 ↔ q - f.numStates < i := by omega
              simp [h1, this])
  unfold appendFst
  refine ⟨?_, ?_, h3, h4, h5⟩
  · intro q; rw [h1]
    by_cases hq : q < f.numStates
    · simp [hq]
    · simp only [hq, if_false]
      split
      · rfl
      · rw [trsOf_of_ge (f := g) (by omega)]; rfl
  · intro q; rw [h2]
    by_cases hq : q < f.numStates
    · simp [hq]
    · simp only [hq, if_false]
      split
      · rfl
      · rw [finOf_of_ge (f := g) (by omega)]

/-- The appended copy of `g` has the paths of `g`, whatever the rest looks like. -/
theorem pathsFrom_shift [Mul W] {g h : Fst W} (n1 : Nat) (ht : ∀ q, h.trsOf (q + n1) = (g.trsOf q).map (shiftTr n1))
    (hf : ∀ q, h.finOf (q + n1) = g.finOf q) (n q) : h.pathsFrom n (q + n1) = g.pathsFrom n q :=
  pathsFrom_sub (fun q => q + n1) (fun _ => True) (fun s _ => ht s) (fun _ _ _ _ => trivial) (fun s _ => hf s) n q
    trivial

/-! ### concat -/

theorem concatState_spec (start2 : Option Nat) (n1 : Nat) (f : Fst W) (s : Nat) :
    (∀ q, (concatState start2 n1 f s).trsOf q = if q = s then f.trsOf s ++ (match f.finOf s, start2 with
      | some w, some s2 => [epsTr w (s2 + n1)]
      | _, _ => []) else f.trsOf q) ∧
    (∀ q, (concatState start2 n1 f s).finOf q = if q = s then none else f.finOf q) ∧
    (concatState start2 n1 f s).numStates = f.numStates ∧
    (concatState start2 n1 f s).start = f.start ∧ (f.AllCounters → (concatState start2 n1 f s).AllCounters) := by
  unfold concatState
  cases hw : f.finOf s with
  | none =>
    simp only
    refine ⟨?_, ?_, by simp, by simp, by simp⟩
    · intro q; split
      · rename_i h; simp [h]
      · rfl
    · intro q; split
      · rename_i h; rw [h, hw]
      · rfl
  | some w =>
    have hs : s < f.numStates := lt_of_finOf hw
    cases start2 with
    | none =>
      simp only
      refine ⟨?_, ?_, by simp, by simp, fun h => allCounters_delFinal h _⟩
      · intro q; simp only [delFinal_trsOf]; split
        · rename_i h; simp [h]
        · rfl
      · intro q; rw [delFinal_finOf]
    | some s2 =>
      simp only
      refine ⟨?_, ?_, by simp, by simp, fun h => allCounters_delFinal (allCounters_addTr h _ _) _⟩
      · intro q; simp only [delFinal_trsOf, addTr_trsOf, hs, and_true]
      · intro q; rw [delFinal_finOf]; simp

theorem concat_spec {f g : Fst W} (hs : f.start ≠ none) :
    (∀ q, (f.concat g).trsOf q = if q < f.numStates then f.trsOf q ++ (match f.finOf q, g.start with
        | some w, some s2 => [epsTr w (s2 + f.numStates)]
        | _, _ => [])
      else (g.trsOf (q - f.numStates)).map (shiftTr f.numStates)) ∧
    (∀ q, (f.concat g).finOf q = if q < f.numStates then none else g.finOf (q - f.numStates)) ∧
    (f.concat g).numStates = f.numStates + g.numStates ∧
    (f.concat g).start = f.start ∧ (f.AllCounters → (f.concat g).AllCounters) := by
  obtain ⟨a, b, c, d, e⟩ := appendFst_spec f g
  obtain ⟨h1, h2, h3, h4, h5⟩ := foldl_range_induct (fun n (h : Fst W) =>
      (∀ q, h.trsOf q = if q < f.numStates then (if q < n then f.trsOf q ++ (match f.finOf q, g.start with
          | some w, some s2 => [epsTr w (s2 + f.numStates)]
          | _, _ => []) else f.trsOf q)
        else (g.trsOf (q - f.numStates)).map (shiftTr f.numStates)) ∧
      (∀ q, h.finOf q = if q < f.numStates then (if q < n then none else f.finOf q) else g.finOf (q - f.numStates)) ∧
      h.numStates = f.numStates + g.numStates ∧ h.start = f.start ∧
      (f.AllCounters → h.AllCounters)) (concatState g.start f.numStates) f.numStates (f.appendFst g)
      ⟨by simpa using a, by simpa using b, c, d, e⟩
      (by
        rintro i h hi ⟨a, b, c, d, e⟩
        obtain ⟨a', b', c', d', e'⟩ := concatState_spec g.start f.numStates h i
        have hif : h.finOf i = f.finOf i := by rw [b]; simp [hi]
        have hit : h.trsOf i = f.trsOf i := by rw [a]; simp [hi]
        refine ⟨?_, ?_, by rw [c', c], by rw [d', d], fun x => e' (e x)⟩
        · intro q; rw [a', hif, hit]
          by_cases hq : q = i
          · subst hq; simp only [if_true, hi, Nat.lt_succ_self]
          · have : q < i + 1 ↔ q < i := by omega
            rw [if_neg hq, a q]; simp only [this]
        · intro q; rw [b']
          by_cases hq : q = i
          · subst hq; simp [hi]
          · have : q < i + 1 ↔ q < i := by omega
            rw [if_neg hq, b q]; simp [this])
  have key : ∀ h : Fst W, (f.concat g).states = h.states → (f.concat g).start = h.start →
      (∀ q, (f.concat g).trsOf q = h.trsOf q) ∧ (∀ q, (f.concat g).finOf q = h.finOf q) ∧
      (f.concat g).numStates = h.numStates := by
    intro h e1 _
    refine ⟨fun q => ?_, fun q => ?_, ?_⟩
    · rw [trsOf_eq, trsOf_eq, e1]
    · rw [finOf_eq, finOf_eq, e1]
    · unfold numStates; rw [e1]
  obtain ⟨i, hi⟩ := Option.ne_none_iff_exists'.1 hs
  have hst : (f.concat g).states = ((List.range f.numStates).foldl (concatState g.start f.numStates) (f.appendFst g)).states ∧
      (f.concat g).start = ((List.range f.numStates).foldl (concatState g.start f.numStates) (f.appendFst g)).start := by
    unfold concat
    rw [hi]
    cases g.start <;> exact ⟨rfl, rfl⟩
  obtain ⟨k1, k2, k3⟩ := key _ hst.1 hst.2
  refine ⟨?_, ?_, ?_, ?_, fun h => allCounters_states (h5 h) hst.1⟩
  · intro q; rw [k1, h1]
    by_cases hq : q < f.numStates <;> simp [hq]
  · intro q; rw [k2, h2]
    by_cases hq : q < f.numStates <;> simp [hq]
  · rw [k3, h3]
  · rw [hst.2, h4]

theorem concat_none {f g : Fst W} (hs : f.start = none) : f.concat g = f := by unfold concat; rw [hs]

/-! ### closure -/

theorem finals_fold_spec (i : Nat) (f : Fst W) :
    (∀ q, (f.finals.foldl (fun g p => g.addTr p.1 (epsTr p.2 i)) f).trsOf q = f.trsOf q ++ (match f.finOf q with
      | some w => [epsTr w i]
      | none => [])) ∧
    (∀ q, (f.finals.foldl (fun g p => g.addTr p.1 (epsTr p.2 i)) f).finOf q = f.finOf q) ∧
    (f.finals.foldl (fun g p => g.addTr p.1 (epsTr p.2 i)) f).numStates = f.numStates ∧
    (f.finals.foldl (fun g p => g.addTr p.1 (epsTr p.2 i)) f).start = f.start ∧
    (f.AllCounters → (f.finals.foldl (fun g p => g.addTr p.1 (epsTr p.2 i)) f).AllCounters) := by
  have e : ∀ (l : List Nat) (h : Fst W), (l.filterMap fun s => (f.finOf s).map fun w => (s, w)).foldl
      (fun g p => g.addTr p.1 (epsTr p.2 i)) h =
      l.foldl (fun g s => match f.finOf s with | some w => g.addTr s (epsTr w i) | none => g) h := by
    intro l
    induction l with
    | nil => intro h; rfl
    | cons s l ih =>
      intro h
      rw [List.filterMap_cons]
      cases hw : f.finOf s with
      | none => simp [hw, ih]
      | some w => simp [hw, ih]
  unfold finals
  rw [e]
  obtain ⟨h1, h2, h3, h4, h5⟩ := foldl_range_induct (fun n (h : Fst W) =>
      (∀ q, h.trsOf q = f.trsOf q ++ (if q < n then (match f.finOf q with
        | some w => [epsTr w i]
        | none => []) else [])) ∧
      (∀ q, h.finOf q = f.finOf q) ∧ h.numStates = f.numStates ∧ h.start = f.start ∧
      (f.AllCounters → h.AllCounters))
      (fun g s => match f.finOf s with | some w => g.addTr s (epsTr w i) | none => g) f.numStates f
      ⟨by simp, by simp, rfl, rfl, id⟩
      (by
        rintro j h hj ⟨a, b, c, d, e⟩
        cases hw : f.finOf j with
        | none =>
          refine ⟨fun q => ?_, b, c, d, e⟩
          simp only
          rw [a]
          by_cases hq : q = j
          · subst hq; simp [hw]
          · have : q < j + 1 ↔ q < j := by omega
            simp [this]
        | some w =>
          refine ⟨fun q => ?_, fun q => by simp [b], by simp [c], by simp [d], fun x => allCounters_addTr (e x) _ _⟩
          simp only
          rw [addTr_trsOf, c]
          by_cases hq : q = j
          · subst hq; simp [hj, a, hw]
          · have : q < j + 1 ↔ q < j := by omega
            simp [this, a, hq])
  refine ⟨?_, h2, h3, h4, h5⟩
  intro q; rw [h1]
  by_cases hq : q < f.numStates
  · simp [hq]
  · simp [hq, finOf_of_ge (f := f) (Nat.le_of_not_lt hq)]

end Fst
end Verif

namespace Verif
namespace Fst
set_option linter.unusedSectionVars false
universe u
variable {W : Type u} [Zero W] [One W] [DecidableEq W]

/-- `union` when the start state of `f` is not on a cycle. -/
theorem union_ia_spec {f g : Fst W} {i j : Nat} (hi : f.start = some i) (hj : g.start = some j) (hil : i < f.numStates) :
    (∀ q, (unionWith true f g).trsOf q = if q < f.numStates then
        (if q = i then f.trsOf i ++ [epsTr 1 (j + f.numStates)] else f.trsOf q)
      else (g.trsOf (q - f.numStates)).map (shiftTr f.numStates)) ∧
    (∀ q, (unionWith true f g).finOf q = if q < f.numStates then f.finOf q else g.finOf (q - f.numStates)) ∧
    (unionWith true f g).numStates = f.numStates + g.numStates ∧
    (unionWith true f g).start = some i ∧ (f.AllCounters → (unionWith true f g).AllCounters) := by
  obtain ⟨a, b, c, d, e⟩ := appendFst_spec f g
  have hd : (f.appendFst g).start = some i := by rw [d, hi]
  simp only [unionWith, hj, hd, if_true]
  refine ⟨?_, ?_, ?_, ?_, ?_⟩
  · intro q
    rw [setPropsMask_trsOf, addTr_trsOf, a, a, c]
    by_cases h1 : q = i
    · subst h1; simp [hil]; omega
    · simp [h1]
  · intro q; simp [b]
  · simp [c]
  · simp [hd]
  · intro h; exact allCounters_states (allCounters_addTr (e h) i (epsTr 1 (j + f.numStates))) rfl

/-- `union` through a new start state. -/
theorem union_new_spec {f g : Fst W} {i j : Nat} (hi : f.start = some i) (hj : g.start = some j) :
    (∀ q, (unionWith false f g).trsOf q = if q < f.numStates then f.trsOf q
      else if q = f.numStates + g.numStates then [epsTr 1 i, epsTr 1 (j + f.numStates)]
      else (g.trsOf (q - f.numStates)).map (shiftTr f.numStates)) ∧
    (∀ q, (unionWith false f g).finOf q = if q < f.numStates then f.finOf q else g.finOf (q - f.numStates)) ∧
    (unionWith false f g).numStates = f.numStates + g.numStates + 1 ∧
    (unionWith false f g).start = some (f.numStates + g.numStates) ∧
    (f.AllCounters → (unionWith false f g).AllCounters) := by
  obtain ⟨a, b, c, d, e⟩ := appendFst_spec f g
  have hd : (f.appendFst g).start = some i := by rw [d, hi]
  simp only [unionWith, hj, hd, Bool.false_eq_true, if_false]
  refine ⟨?_, ?_, ?_, ?_, ?_⟩
  · intro q
    rw [setPropsMask_trsOf, addTr_trsOf, addTr_trsOf]
    simp only [addTr_trsOf, setStart_trsOf, addState_trsOf, addTr_numStates, setStart_numStates, addState_numStates, c, a]
    by_cases h1 : q = f.numStates + g.numStates
    · subst h1
      have : ¬ f.numStates + g.numStates < f.numStates := by omega
      have h2 : g.trsOf g.numStates = [] := trsOf_of_ge (Nat.le_refl _)
      simp [this, h2]
    · simp [h1]
  · intro q; simp [b]
  · simp [c]
  · simp [c]
  · intro h
    exact allCounters_states (allCounters_addTr (allCounters_addTr (allCounters_setStart (allCounters_addStates (e h) 1) _)
      _ _) (f.appendFst g).numStates (epsTr 1 (j + f.numStates))) rfl

theorem closeLoops_spec {f : Fst W} {i : Nat} (hi : f.start = some i) :
    (∀ q, f.closeLoops.trsOf q = f.trsOf q ++ (match f.finOf q with
      | some w => [epsTr w i]
      | none => [])) ∧
    (∀ q, f.closeLoops.finOf q = f.finOf q) ∧
    f.closeLoops.numStates = f.numStates ∧ f.closeLoops.start = some i ∧
    (f.AllCounters → f.closeLoops.AllCounters) := by
  have := finals_fold_spec i f
  unfold closeLoops
  rw [hi]
  simpa only [hi] using this

theorem closeLoops_none {f : Fst W} (hi : f.start = none) : f.closeLoops = f := by unfold closeLoops; rw [hi]

theorem trsOf_numStates_closeLoops {f : Fst W} : f.numStates = f.closeLoops.numStates := by
  cases hi : f.start with
  | none => rw [closeLoops_none hi]
  | some i => rw [(closeLoops_spec hi).2.2.1]

theorem closure_plus_spec {f : Fst W} :
    (∀ q, (f.closure .plus).trsOf q = f.closeLoops.trsOf q) ∧ (∀ q, (f.closure .plus).finOf q = f.finOf q) ∧
    (f.closure .plus).numStates = f.numStates ∧ (f.closure .plus).start = f.start ∧
    (f.AllCounters → (f.closure .plus).AllCounters) := by
  unfold closure
  simp only [setPropsMask_trsOf, setPropsMask_finOf, setPropsMask_numStates, setPropsMask_start]
  cases hi : f.start with
  | none => rw [closeLoops_none hi]; exact ⟨fun _ => trivial, fun _ => rfl, rfl, hi, fun h => allCounters_states h rfl⟩
  | some i =>
    obtain ⟨a, b, c, d, e⟩ := closeLoops_spec hi
    exact ⟨fun _ => trivial, b, c, d, fun h => allCounters_states (e h) rfl⟩

theorem closure_star_spec {f : Fst W} :
    (∀ q, (f.closure .star).trsOf q = if q = f.numStates then (match f.start with
        | some i => [epsTr 1 i]
        | none => []) else f.closeLoops.trsOf q) ∧
    (∀ q, (f.closure .star).finOf q = if q = f.numStates then some 1 else f.finOf q) ∧
    (f.closure .star).numStates = f.numStates + 1 ∧ (f.closure .star).start = some f.numStates ∧
    (f.AllCounters → (f.closure .star).AllCounters) := by
  unfold closure
  simp only [setPropsMask_trsOf, setPropsMask_finOf, setPropsMask_numStates, setPropsMask_start]
  cases hi : f.start with
  | none =>
    rw [closeLoops_none hi]
    simp only [addState_start, hi]
    refine ⟨?_, ?_, by simp, by simp, fun h => allCounters_states
      (allCounters_setFinal (allCounters_setStart (allCounters_addStates h 1) f.numStates) f.numStates 1) rfl⟩
    · intro q
      by_cases h : q = f.numStates
      · subst h; simp [trsOf_of_ge]
      · simp [h]
    · intro q
      simp [setFinal_finOf]
  | some i =>
    obtain ⟨a, b, c, d, e⟩ := closeLoops_spec hi
    simp only [addState_start, d]
    refine ⟨?_, ?_, by simp [c], by simp [c], fun h => allCounters_states
      (allCounters_setFinal (allCounters_setStart (allCounters_addTr (allCounters_addStates (e h) 1) f.closeLoops.numStates (epsTr 1 i))
        f.closeLoops.numStates) f.closeLoops.numStates 1) rfl⟩
    · intro q
      rw [setFinal_trsOf, setStart_trsOf, addTr_trsOf]
      by_cases h : q = f.numStates
      · subst h
        have : f.closeLoops.trsOf f.numStates = [] := trsOf_of_ge (by rw [c])
        simp [c, this]
      · simp [h, c]
    · intro q
      simp [setFinal_finOf, c, b]

end Fst
end Verif
