import Verif.Lemmas.Continue
import Verif.Lemmas.DecHist

/-!
# C14, C15, C16: union, concat and closure denote the rational operations

The theorems state which accepting paths the result has, with multiplicity and grouped by number of transitions, and derive
the usual reading in terms of accepted triples (input, output, weight).
-/

namespace Verif
set_option linter.unusedSectionVars false
universe u
open Fst

section union
variable {W : Type u} [Monoid W] [Zero W] [DecidableEq W]

theorem Fst.pathsFrom_union_hi {f g : Fst W} {h : Fst W}
    (ht : ∀ q, h.trsOf (q + f.numStates) = (g.trsOf q).map (shiftTr f.numStates) ∨ g.numStates ≤ q)
    (hf : ∀ q, h.finOf (q + f.numStates) = g.finOf q ∨ g.numStates ≤ q) (hg : g.WF) (n q) (hq : q < g.numStates) :
    h.pathsFrom n (q + f.numStates) = g.pathsFrom n q := by
  refine pathsFrom_sub (fun q => q + f.numStates) (fun q => q < g.numStates) ?_ ?_ ?_ n q hq
  · intro s hs; rcases ht s with h | h
    · exact h
    · omega
  · intro s hs t htt; exact hg.next_lt s t htt
  · intro s hs; rcases hf s with h | h
    · exact h
    · omega

/-- C14 (start state of `f` not on a cycle, the case where the code adds one ε-transition to it). -/
theorem C14_union_initial_acyclic (f g : Fst W) (hf : f.WF) (hg : g.WF) (i : StateId) (hi : f.start = some i)
    (hac : ¬ f.OnCycle i) (n : Nat) :
    (unionWith true f g).accPaths n = f.accPaths n + delay 1 g.accPaths n := by
  cases hj : g.start with
  | none =>
    rw [show unionWith true f g = f by simp [unionWith, hj]]
    cases n with
    | zero => simp
    | succ n => simp [accPaths_none hj]
  | some j =>
    have hil := hf.start_lt i hi
    have hjl := hg.start_lt j hj
    obtain ⟨a, b, c, d, -⟩ := union_ia_spec hi hj hil
    rw [accPaths_some d, accPaths_some hi]
    have hsub : ∀ n s, (s < f.numStates ∧ ¬ f.Reach s i) → (unionWith true f g).pathsFrom n s = f.pathsFrom n s := by
      refine pathsFrom_sub id (fun s => s < f.numStates ∧ ¬ f.Reach s i) ?_ ?_ ?_
      · rintro s ⟨h1, h2⟩
        have : s ≠ i := fun h => h2 (h ▸ Relation.ReflTransGen.refl)
        simp [a, h1, this]
      · rintro s ⟨h1, h2⟩ t ht
        exact ⟨hf.next_lt s t ht, fun h => h2 (Relation.ReflTransGen.head ⟨t, ht, rfl⟩ h)⟩
      · rintro s ⟨h1, h2⟩
        simp [b, h1]
    cases n with
    | zero => simp [pathsFrom_zero, b, hil]
    | succ n =>
      rw [delay_one_succ, accPaths_some hj, pathsFrom_succ, a]
      simp only [hil, if_true]
      rw [← Multiset.coe_add, Multiset.add_bind]
      congr 1
      · rw [pathsFrom_succ]
        refine Multiset.bind_congr fun t ht => ?_
        have ht := Multiset.mem_coe.1 ht
        rw [hsub n t.nextstate ⟨hf.next_lt i t ht, fun h => hac (Relation.TransGen.head' ⟨t, ht, rfl⟩ h)⟩]
      · have : (unionWith true f g).pathsFrom n (j + f.numStates) = g.pathsFrom n j := by
          refine Fst.pathsFrom_union_hi (fun q => Or.inl ?_) (fun q => Or.inl ?_) hg n j hjl
          · rw [a]; simp
          · rw [b]; simp
        simp [epsTr, this, Tr.asPath, cat_epsOne]

/-- C14 (start state of `f` on a cycle, the case where the code adds a new start state). -/
theorem C14_union_new_start (f g : Fst W) (hf : f.WF) (hg : g.WF) (hi : f.start ≠ none) (hj : g.start ≠ none) (n : Nat) :
    (unionWith false f g).accPaths n = delay 1 f.accPaths n + delay 1 g.accPaths n := by
  obtain ⟨i, hi⟩ := Option.ne_none_iff_exists'.1 hi
  obtain ⟨j, hj⟩ := Option.ne_none_iff_exists'.1 hj
  have hil := hf.start_lt i hi
  have hjl := hg.start_lt j hj
  obtain ⟨a, b, c, d, -⟩ := union_new_spec hi hj
  rw [accPaths_some d]
  have hnlt : ¬ f.numStates + g.numStates < f.numStates := by omega
  cases n with
  | zero => simp [pathsFrom_zero, b, hnlt, finOf_of_ge]
  | succ n =>
    have h1 : (unionWith false f g).pathsFrom n i = f.pathsFrom n i := by
      refine pathsFrom_sub id (fun s => s < f.numStates) ?_ ?_ ?_ n i hil
      · intro s hs; simp [a, hs]
      · intro s hs t ht; exact hf.next_lt s t ht
      · intro s hs; simp [b, hs]
    have h2 : (unionWith false f g).pathsFrom n (j + f.numStates) = g.pathsFrom n j := by
      refine Fst.pathsFrom_union_hi (fun q => ?_) (fun q => Or.inl ?_) hg n j hjl
      · by_cases h : g.numStates ≤ q
        · exact Or.inr h
        · refine Or.inl ?_
          rw [a]
          have : ¬ q + f.numStates = f.numStates + g.numStates := by omega
          simp [this]
      · rw [b]; simp
    rw [delay_one_succ, delay_one_succ, accPaths_some hi, accPaths_some hj, pathsFrom_succ, a]
    simp only [hnlt, if_false, if_true]
    rw [show (([epsTr 1 i, epsTr 1 (j + f.numStates)] : List (Tr W)) : Multiset (Tr W)) =
      {epsTr 1 i} + {epsTr 1 (j + f.numStates)} from rfl]
    simp [epsTr, h1, h2, Tr.asPath, cat_epsOne]

/-- C14, union of an FST that has no state at all. -/
theorem C14_union_empty (f g : Fst W) (ia : Bool) (h0 : f.numStates = 0) (hi : f.start = none) (n : Nat) :
    (unionWith ia f g).accPaths n = g.accPaths n := by
  cases hj : g.start with
  | none =>
    rw [show unionWith ia f g = f by simp [unionWith, hj]]
    simp [accPaths_none hi, accPaths_none hj]
  | some j =>
    obtain ⟨a, b, c, d, -⟩ := appendFst_spec f g
    have hd : (f.appendFst g).start = none := by rw [d, hi]
    have e : unionWith ia f g = ((f.appendFst g).setStart j).setPropsMask g.props Props.copyMask := by
      simp [unionWith, hj, hd]
    have hs : (shiftTr 0 : Tr W → Tr W) = id := by funext t; simp [shiftTr]
    refine accPaths_congr ?_ ?_ ?_ n
    · simp [e, hj]
    · intro s; simp [e, a, h0, hs]
    · intro s; simp [e, b, h0]

/-- C14: `union` accepts exactly what `f` or `g` accepts. `ia` is the answer of the code's test whether the start state of `f` is
outside every cycle; only a positive answer has to be right. The code mishandles an `f` that has states but no start state
(see `C14_no_start_defect`). -/
theorem C14_union (f g : Fst W) (hf : f.WF) (hg : g.WF) (ia : Bool) (hi0 : f.start = none → f.numStates = 0)
    (hia : ia = true → ∀ i, f.start = some i → ¬ f.OnCycle i) (x y : List Label) (w : W) :
    (unionWith ia f g).Accepts x y w ↔ f.Accepts x y w ∨ g.Accepts x y w := by
  have hd : ∀ A : Nat → Multiset (PathT W), (∃ n, (x, y, w) ∈ delay 1 A n) ↔ ∃ n, (x, y, w) ∈ A n := by
    intro A
    constructor
    · rintro ⟨n, h⟩
      cases n with
      | zero => simp at h
      | succ n => exact ⟨n, by simpa using h⟩
    · rintro ⟨n, h⟩; exact ⟨n + 1, by simpa using h⟩
  unfold Accepts
  cases hi : f.start with
  | none => simp [C14_union_empty f g ia (hi0 hi) hi, accPaths_none hi]
  | some i =>
    cases ia with
    | true =>
      simp only [C14_union_initial_acyclic f g hf hg i hi (hia rfl i hi), Multiset.mem_add, exists_or, hd]
    | false =>
      cases hj : g.start with
      | none =>
        rw [show unionWith false f g = f by simp [unionWith, hj]]
        simp [accPaths_none hj]
      | some j =>
        simp only [C14_union_new_start f g hf hg (by simp [hi]) (by simp [hj]), Multiset.mem_add, exists_or, hd]

end union

section concat
variable {W : Type u} [Monoid W] [Zero W] [DecidableEq W]

/-- C15: the accepting paths of `concat` are an accepting path of `f`, one ε-transition carrying the final weight, and an
accepting path of `g`. -/
theorem C15_concat_paths (f g : Fst W) (hf : f.WF) (hg : g.WF) (n : Nat) :
    (f.concat g).accPaths n = seqPaths f.accPaths g.accPaths n := by
  cases hi : f.start with
  | none =>
    rw [concat_none hi, accPaths_none hi]
    simp [seqPaths, accPaths_none hi]
  | some i =>
    obtain ⟨a, b, c, d, -⟩ := concat_spec (f := f) (g := g) (by simp [hi])
    have hil := hf.start_lt i hi
    rw [hi] at d
    rw [accPaths_some d]
    have hb : ∀ s, s < f.numStates → (f.concat g).finOf s = if false = true then f.finOf s else none := by
      intro s hs; simp [b, hs]
    cases hj : g.start with
    | none =>
      have h0 : ∀ n s, s < f.numStates → (f.concat g).pathsFrom n s = 0 := by
        intro n
        induction n with
        | zero => intro s hs; simp [pathsFrom_zero, b, hs]
        | succ n ih =>
          intro s hs
          rw [pathsFrom_succ, a, hj]
          have : ∀ t ∈ f.trsOf s, ((f.concat g).pathsFrom n t.nextstate).map (fun p => t.asPath.cat p) = 0 := by
            intro t ht
            rw [ih _ (hf.next_lt s t ht)]; rfl
          simp only [hs, if_true]
          cases f.finOf s <;> simp only [List.append_nil] <;>
          · rw [Multiset.bind_congr (fun t ht => this t (Multiset.mem_coe.1 ht))]; simp
      rw [h0 n i hil]
      simp [seqPaths, accPaths_none hj]
    | some j =>
      have hjl := hg.start_lt j hj
      rw [pathsFrom_continue (f := f) (h := f.concat g) (j + f.numStates) false (fun s => s < f.numStates) ?_ ?_ hb n i hil]
      · have : ∀ m, (f.concat g).pathsFrom m (j + f.numStates) = g.pathsFrom m j := by
          intro m
          refine Fst.pathsFrom_union_hi (fun q => Or.inl ?_) (fun q => Or.inl ?_) hg m j hjl
          · rw [a]; simp
          · rw [b]; simp
        simp only [Bool.false_eq_true, if_false, zero_add, this]
        unfold seqPaths
        simp [accPaths_some hi, accPaths_some hj]
      · intro s hs
        rw [a, hj]
        cases f.finOf s <;> simp [hs, contTrs]
      · intro s hs t ht; exact hf.next_lt s t ht

/-- C15: `concat` accepts exactly the concatenations. -/
theorem C15_concat (f g : Fst W) (hf : f.WF) (hg : g.WF) (x y : List Label) (w : W) :
    (f.concat g).Accepts x y w ↔ ∃ x1 y1 w1 x2 y2 w2, f.Accepts x1 y1 w1 ∧ g.Accepts x2 y2 w2 ∧
      x = x1 ++ x2 ∧ y = y1 ++ y2 ∧ w = w1 * w2 := by
  unfold Accepts
  simp only [C15_concat_paths f g hf hg]
  rw [exists_mem_seqPaths]
  constructor
  · rintro ⟨⟨x1, y1, w1⟩, ⟨x2, y2, w2⟩, h1, h2, e⟩
    simp only [PathT.cat, Prod.mk.injEq] at e
    exact ⟨x1, y1, w1, x2, y2, w2, h1, h2, e.1.symm, e.2.1.symm, e.2.2.symm⟩
  · rintro ⟨x1, y1, w1, x2, y2, w2, h1, h2, rfl, rfl, rfl⟩
    exact ⟨_, _, h1, h2, rfl⟩

end concat

section closure
variable {W : Type u} [Monoid W] [Zero W] [DecidableEq W]

/-- C16: the accepting paths of the plus-closure are one or more accepting paths in sequence. -/
theorem C16_plus_paths (f : Fst W) (n : Nat) :
    (f.closure .plus).accPaths n = ∑ k ∈ Finset.range (n + 1), repeatPaths f.accPaths k n := by
  refine iterate_eq (H := (f.closure .plus).accPaths) ?_ n
  clear n
  intro n
  obtain ⟨a, b, c, d, -⟩ := closure_plus_spec (f := f)
  cases hi : f.start with
  | none =>
    rw [hi] at d
    simp [accPaths_none d, accPaths_none hi, seqPaths]
  | some i =>
    rw [hi] at d
    obtain ⟨a', -⟩ := closeLoops_spec hi
    have e1 : (f.closure .plus).accPaths = fun m => (f.closure .plus).pathsFrom m i := by
      funext m; rw [accPaths_some d]
    have e2 : f.accPaths = fun m => f.pathsFrom m i := by funext m; rw [accPaths_some hi]
    rw [e1, e2]
    have := pathsFrom_continue (f := f) (h := f.closure .plus) i true (fun _ => True)
      (fun s _ => by rw [a, a']; cases f.finOf s <;> rfl) (fun _ _ _ _ => trivial) (fun s _ => by simp [b]) n i trivial
    simpa using this

/-- C16: the star-closure additionally accepts the empty path with weight one; its other paths are those of the plus-closure
behind one ε-transition. -/
theorem C16_star_paths (f : Fst W) (hf : f.WF) (n : Nat) :
    (f.closure .star).accPaths n = (if n = 0 then {([], [], 1)} else 0) + delay 1 (f.closure .plus).accPaths n := by
  obtain ⟨a, b, c, d, -⟩ := closure_star_spec (f := f)
  obtain ⟨a', b', c', d', -⟩ := closure_plus_spec (f := f)
  rw [accPaths_some d]
  cases n with
  | zero => simp [pathsFrom_zero, b]
  | succ n =>
    rw [delay_one_succ, pathsFrom_succ, a]
    cases hi : f.start with
    | none =>
      rw [hi] at d'
      simp [accPaths_none d']
    | some i =>
      rw [hi] at d'
      have hil := hf.start_lt i hi
      obtain ⟨a'', -⟩ := closeLoops_spec hi
      rw [accPaths_some d']
      have : (f.closure .star).pathsFrom n i = (f.closure .plus).pathsFrom n i := by
        refine pathsFrom_sub id (fun s => s < f.numStates) ?_ ?_ ?_ n i hil
        · intro s hs
          have : s ≠ f.numStates := by omega
          simp [a, a', this]
        · intro s hs t ht
          rw [a', a''] at ht
          rcases List.mem_append.1 ht with ht | ht
          · exact hf.next_lt s t ht
          · cases h : f.finOf s with
            | none => simp [h] at ht
            | some w => simp [h] at ht; simp [ht, epsTr, hil]
        · intro s hs
          have : s ≠ f.numStates := by omega
          simp [b, b', this]
      simp [epsTr, this, Tr.asPath, cat_epsOne]

/-- What is accepted by a sequence of paths. -/
def SeqAccepts (f : Fst W) (ps : List (PathT W)) (x y : List Label) (w : W) : Prop :=
  (∀ p ∈ ps, f.Accepts p.1 p.2.1 p.2.2) ∧ x = (ps.map (·.1)).flatten ∧ y = (ps.map (·.2.1)).flatten ∧
    w = (ps.map (·.2.2)).prod

/-- C16: the plus-closure accepts exactly the concatenations of one or more accepted triples. -/
theorem C16_plus (f : Fst W) (x y : List Label) (w : W) :
    (f.closure .plus).Accepts x y w ↔ ∃ ps, ps ≠ [] ∧ SeqAccepts f ps x y w := by
  unfold Accepts
  simp only [C16_plus_paths]
  constructor
  · rintro ⟨n, h⟩
    obtain ⟨k, hk, h⟩ := mem_sum_range.1 h
    obtain ⟨ps, h1, h2, h3⟩ := mem_repeatPaths.1 ⟨n, h⟩
    exact ⟨ps, by rintro rfl; simp at h1, h2, h3⟩
  · rintro ⟨ps, h1, h2, h3⟩
    have hl : ps.length = ps.length - 1 + 1 := by
      have := List.length_pos_of_ne_nil h1; omega
    obtain ⟨n, hn⟩ := mem_repeatPaths.2 ⟨ps, hl, h2, h3⟩
    refine ⟨n, mem_sum_range.2 ⟨ps.length - 1, ?_, hn⟩⟩
    by_contra h
    rw [repeatPaths_gt _ (by omega)] at hn
    simp at hn

/-- C16: the star-closure accepts exactly the concatenations of zero or more accepted triples. -/
theorem C16_star (f : Fst W) (hf : f.WF) (x y : List Label) (w : W) :
    (f.closure .star).Accepts x y w ↔ ∃ ps, SeqAccepts f ps x y w := by
  have h1 : (f.closure .star).Accepts x y w ↔ (x = [] ∧ y = [] ∧ w = 1) ∨ (f.closure .plus).Accepts x y w := by
    unfold Accepts
    simp only [C16_star_paths f hf]
    constructor
    · rintro ⟨n, h⟩
      cases n with
      | zero => left; simpa using h
      | succ n => right; exact ⟨n, by simpa using h⟩
    · rintro (⟨rfl, rfl, rfl⟩ | ⟨n, h⟩)
      · exact ⟨0, by simp⟩
      · exact ⟨n + 1, by simpa using h⟩
  rw [h1, C16_plus]
  constructor
  · rintro (⟨rfl, rfl, rfl⟩ | ⟨ps, -, h⟩)
    · exact ⟨[], by simp [SeqAccepts]⟩
    · exact ⟨ps, h⟩
  · rintro ⟨ps, h⟩
    by_cases hp : ps = []
    · subst hp; left; simpa [SeqAccepts] using h
    · exact Or.inr ⟨ps, hp, h⟩

end closure
/-! ### Instances -/

/-- `1:5/2` then final weight 3. -/
def exA : Fst Nat := (((Fst.new.addStates 2).setStart 0).setFinal 1 3 |>.addTr 0 ⟨1, 5, 2, 1⟩)
/-- `7:7/5` in a loop, start state final with weight 11. -/
def exB : Fst Nat := (((Fst.new.addStates 1).setStart 0).setFinal 0 11 |>.addTr 0 ⟨7, 7, 5, 0⟩)
/-- Two states, no start state. -/
def exNoStart : Fst Nat := Fst.new.addStates 2

example : exA.WF ∧ exB.WF := ⟨Fst.wf_of_wfB (by decide), Fst.wf_of_wfB (by decide)⟩
/-- The start state of `exA` is on no cycle, that of `exB` is. -/
example : ¬ exA.OnCycle 0 ∧ exB.OnCycle 0 := by
  constructor
  · have : ∀ a b, exA.Edge a b → a < b := by
      rintro a b ⟨t, ht, rfl⟩
      have ha := Fst.lt_of_mem_trsOf ht
      have h2 : exA.numStates = 2 := by decide
      rcases (by omega : a = 0 ∨ a = 1) with rfl | rfl
      · have : t ∈ [(⟨1, 5, 2, 1⟩ : Tr Nat)] := ht
        simp at this; simp [this]
      · have : t ∈ ([] : List (Tr Nat)) := ht
        simp at this
    intro h
    have : ∀ a b, Relation.TransGen exA.Edge a b → a < b := by
      intro a b hab
      induction hab with
      | single h => exact this _ _ h
      | tail _ h ih => exact ih.trans (this _ _ h)
    exact absurd (this 0 0 h) (by omega)
  · exact .single ⟨⟨7, 7, 5, 0⟩, by decide, rfl⟩
example : (unionWith true exA exB).accPaths 1 = {([1], [5], 6), ([], [], 11)} ∧
    (unionWith false exB exA).accPaths 2 = {([7], [7], 55), ([1], [5], 6)} := by decide
example : (exA.concat exB).accPaths 3 = {([1, 7], [5, 7], 330)} := by decide
example : (exA.closure .plus).accPaths 3 = {([1, 1], [5, 5], 36)} ∧ (exA.closure .star).accPaths 0 = {([], [], 1)} ∧
    (exA.closure .star).accPaths 4 = {([1, 1], [5, 5], 36)} := by decide

/-- Defect: when the first operand has states but no start state, `union` sets the start state to the number the start state
had in the second operand, without the offset: the union of the empty relation with `exA` accepts nothing. -/
theorem C14_no_start_defect : ∃ f g : Fst Nat, f.WF ∧ g.WF ∧ f.start = none ∧ g.Accepts [1] [5] 6 ∧
    ∀ ia x y w, ¬ (unionWith ia f g).Accepts x y w := by
  refine ⟨exNoStart, exA, Fst.wf_of_wfB (by decide), Fst.wf_of_wfB (by decide), rfl, ⟨1, by decide⟩, ?_⟩
  rintro ia x y w ⟨n, h⟩
  have hs : (unionWith ia exNoStart exA).start = some 0 := rfl
  rw [accPaths_some hs] at h
  cases n with
  | zero =>
    have : (unionWith ia exNoStart exA).pathsFrom 0 0 = 0 := rfl
    rw [this] at h; simp at h
  | succ n =>
    have : (unionWith ia exNoStart exA).trsOf 0 = [] := rfl
    rw [pathsFrom_succ, this] at h; simp at h

end Verif
