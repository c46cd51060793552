import Verif.Model.SymAlgs
import Verif.Spec.Spelled
import Verif.Props.C08
import Verif.Props.C10
import Verif.Props.C14Full
import Verif.Props.C17
import Verif.Props.C18
import Verif.Props.C34
import Verif.Props.C39

/-!
# C76: the attached symbol tables follow the operations

The claims about algorithms (C10 to C39) speak of labels. Here they are read through the symbol tables attached to the result, as
`string_paths_iter` and the drawing and printing functions do.
-/

namespace Verif
universe u v
open Fst

namespace SymTable

theorem Reads.append {t : SymTable} {a b : List Label} {x y : List String} (h1 : t.Reads a x) (h2 : t.Reads b y) :
    t.Reads (a ++ b) (x ++ y) := List.rel_append h1 h2

theorem reads_append {t : SymTable} {a b : List Label} {x : List String} (h : t.Reads (a ++ b) x) :
    ∃ y z, t.Reads a y ∧ t.Reads b z ∧ x = y ++ z := by
  induction a generalizing x with
  | nil => exact ⟨[], x, .nil, h, rfl⟩
  | cons l a ih =>
    cases h with
    | cons h1 h2 =>
      obtain ⟨y, z, h3, h4, rfl⟩ := ih h2
      exact ⟨_ :: y, z, .cons h1 h3, h4, rfl⟩

theorem Reads.reverse {t : SymTable} {a : List Label} {x : List String} (h : t.Reads a x) : t.Reads a.reverse x.reverse :=
  List.rel_reverse h

/-- Without two labels for a symbol, the symbols determine the labels. -/
theorem Reads.inj {t : SymTable} (ht : t.Ok) {a b : List Label} {x : List String} (h1 : t.Reads a x) (h2 : t.Reads b x) : a = b := by
  induction h1 generalizing b with
  | nil => cases h2; rfl
  | cons h _ ih =>
    cases h2 with
    | cons h' h'' =>
      have e1 := (ht _ _).2 h
      have e2 := (ht _ _).2 h'
      rw [e1] at e2; cases e2
      rw [ih h'']

end SymTable

namespace SymFst

section
variable {W : Type u} [Monoid W] [Zero W] [DecidableEq W]

omit [Zero W] [DecidableEq W] in
/-- With the tables of both FSTs equal, the same accepted triples give the same relation. -/
theorem relates_congr {x y : SymFst W} (hi : x.isymt = y.isymt) (ho : x.osymt = y.osymt)
    (h : ∀ a b w, x.fst.Accepts a b w ↔ y.fst.Accepts a b w) (xs ys : List String) (w : W) : x.Relates xs ys w ↔ y.Relates xs ys w := by
  unfold Relates
  rw [hi, ho]
  simp only [h]

/-- C76, `invert`: the relation is inverted if both tapes have the same table. `invert` does not exchange the tables. -/
theorem C76_invert_partial (x : SymFst W) (h : x.isymt = x.osymt) (xs ys : List String) (w : W) :
    x.invert.Relates xs ys w ↔ x.Relates ys xs w := by
  unfold Relates
  constructor
  · rintro ⟨i, o, a, b, h1, h2, h3, h4, h5⟩
    exact ⟨o, i, b, a, h.trans h2, h.symm.trans h1, h4, h3, (C10_relation x.fst a b w).1 h5⟩
  · rintro ⟨i, o, a, b, h1, h2, h3, h4, h5⟩
    exact ⟨o, i, b, a, h.trans h2, h.symm.trans h1, h4, h3, (C10_relation x.fst b a w).2 h5⟩

/-- C76, `project` on the input tape: right if both tapes have the same table. `project` does not replace the other table. -/
theorem C76_project_input_partial (x : SymFst W) (h : x.isymt = x.osymt) (xs : List String) (w : W) (hr : ∀ ls ms, x.fst.Accepts ls ms w → ∀ o, x.osymt = some o → ∃ ys, o.Reads ms ys) :
    (x.project .projectInput).Relates xs xs w ↔ ∃ ys, x.Relates xs ys w := by
  unfold Relates
  constructor
  · rintro ⟨i, o, a, b, h1, h2, h3, h4, n, h5⟩
    change _ ∈ (x.fst.project .projectInput).accPaths n at h5
    rw [C11_paths, Multiset.mem_map] at h5
    obtain ⟨⟨p, q, v⟩, h6, h7⟩ := h5
    simp only [Prod.mk.injEq] at h7
    obtain ⟨rfl, rfl, rfl⟩ := h7
    obtain ⟨ys, hy⟩ := hr p q ⟨n, h6⟩ o h2
    exact ⟨ys, i, o, p, q, h1, h2, h3, hy, n, h6⟩
  · rintro ⟨ys, i, o, a, b, h1, h2, h3, h4, n, h5⟩
    refine ⟨i, i, a, a, h1, h.symm.trans h1, h3, h3, n, ?_⟩
    change _ ∈ (x.fst.project .projectInput).accPaths n
    rw [C11_paths, Multiset.mem_map]
    exact ⟨_, h5, rfl⟩

/-- C76, `project` on the output tape. -/
theorem C76_project_output_partial (x : SymFst W) (h : x.isymt = x.osymt) (ys : List String) (w : W) (hr : ∀ ls ms, x.fst.Accepts ls ms w → ∀ i, x.isymt = some i → ∃ xs, i.Reads ls xs) :
    (x.project .projectOutput).Relates ys ys w ↔ ∃ xs, x.Relates xs ys w := by
  unfold Relates
  constructor
  · rintro ⟨i, o, a, b, h1, h2, h3, h4, n, h5⟩
    change _ ∈ (x.fst.project .projectOutput).accPaths n at h5
    rw [C11_paths, Multiset.mem_map] at h5
    obtain ⟨⟨p, q, v⟩, h6, h7⟩ := h5
    simp only [Prod.mk.injEq] at h7
    obtain ⟨rfl, rfl, rfl⟩ := h7
    obtain ⟨xs, hx⟩ := hr p q ⟨n, h6⟩ i h1
    exact ⟨xs, i, o, p, q, h1, h2, hx, h4, n, h6⟩
  · rintro ⟨xs, i, o, a, b, h1, h2, h3, h4, n, h5⟩
    refine ⟨o, o, b, b, h.trans h2, h2, h4, h4, n, ?_⟩
    change _ ∈ (x.fst.project .projectOutput).accPaths n
    rw [C11_paths, Multiset.mem_map]
    exact ⟨_, h5, rfl⟩

omit [Zero W] [DecidableEq W] in
/-- A table gives one symbol to each label. -/
theorem reads_fun {t : SymTable} {a : List Label} {xs ys : List String} (h1 : t.Reads a xs) (h2 : t.Reads a ys) : xs = ys := by
  induction h1 generalizing ys with
  | nil => cases h2; rfl
  | cons h _ ih =>
    cases h2 with
    | cons h' h'' => rw [h] at h'; cases h'; rw [ih h'']

/-- C76, `project`: with equal tables the result only relates a string to itself. -/
theorem C76_project_identity_partial (x : SymFst W) (h : x.isymt = x.osymt) (ty : ProjectType) (xs ys : List String) (w : W)
    (hr : (x.project ty).Relates xs ys w) : xs = ys := by
  obtain ⟨i, o, a, b, h1, h2, h3, h4, n, h5⟩ := hr
  change x.isymt = some i at h1
  change x.osymt = some o at h2
  rw [h, h2] at h1; cases h1
  change _ ∈ (x.fst.project ty).accPaths n at h5
  rw [C11_paths, Multiset.mem_map] at h5
  obtain ⟨⟨p, q, v⟩, h6, h7⟩ := h5
  cases ty <;> simp only [Prod.mk.injEq] at h7 <;> obtain ⟨rfl, rfl, rfl⟩ := h7 <;> exact reads_fun h3 h4

/-- C76, `union` of two FSTs with the same tables: the strings of the one or of the other. -/
theorem C76_union (x y : SymFst W) (hi : x.isymt = y.isymt) (ho : x.osymt = y.osymt) (hx : x.fst.WF) (hy : y.fst.WF) (tx : x.fst.Truthful)
    (hs : x.fst.start = none → x.fst.numStates = 0) :
    ∃ z, x.union y = .ok z ∧ ∀ xs ys w, z.Relates xs ys w ↔ x.Relates xs ys w ∨ y.Relates xs ys w := by
  obtain ⟨h, h1, h2, -⟩ := C14_union_full x.fst y.fst hx hy tx hs
  refine ⟨⟨h, x.isymt, x.osymt⟩, by unfold union; rw [h1]; rfl, fun xs ys w => ?_⟩
  unfold Relates
  simp only [h2, ← hi, ← ho]
  constructor
  · rintro ⟨i, o, a, b, h3, h4, h5, h6, h7 | h7⟩
    · exact .inl ⟨i, o, a, b, h3, h4, h5, h6, h7⟩
    · exact .inr ⟨i, o, a, b, h3, h4, h5, h6, h7⟩
  · rintro (⟨i, o, a, b, h3, h4, h5, h6, h7⟩ | ⟨i, o, a, b, h3, h4, h5, h6, h7⟩)
    · exact ⟨i, o, a, b, h3, h4, h5, h6, .inl h7⟩
    · exact ⟨i, o, a, b, h3, h4, h5, h6, .inr h7⟩

/-- C76, `concat` of two FSTs with the same tables: a string of the first followed by a string of the second. -/
theorem C76_concat (x y : SymFst W) (hi : x.isymt = y.isymt) (ho : x.osymt = y.osymt) (hx : x.fst.WF) (hy : y.fst.WF) (xs ys : List String) (w : W) :
    (x.concat y).Relates xs ys w ↔ ∃ x1 y1 w1 x2 y2 w2, x.Relates x1 y1 w1 ∧ y.Relates x2 y2 w2 ∧ xs = x1 ++ x2 ∧ ys = y1 ++ y2 ∧ w = w1 * w2 := by
  unfold Relates
  constructor
  · rintro ⟨i, o, a, b, h1, h2, h3, h4, h5⟩
    obtain ⟨a1, b1, w1, a2, b2, w2, h6, h7, rfl, rfl, rfl⟩ := (C15_concat x.fst y.fst hx hy a b w).1 h5
    obtain ⟨x1, x2, h8, h9, rfl⟩ := SymTable.reads_append h3
    obtain ⟨y1, y2, h10, h11, rfl⟩ := SymTable.reads_append h4
    exact ⟨x1, y1, w1, x2, y2, w2, ⟨i, o, a1, b1, h1, h2, h8, h10, h6⟩, ⟨i, o, a2, b2, hi.symm.trans h1, ho.symm.trans h2, h9, h11, h7⟩, rfl, rfl, rfl⟩
  · rintro ⟨x1, y1, w1, x2, y2, w2, ⟨i, o, a1, b1, h1, h2, h8, h10, h6⟩, ⟨i', o', a2, b2, h1', h2', h9, h11, h7⟩, rfl, rfl, rfl⟩
    rw [← hi, h1] at h1'; cases h1'
    rw [← ho, h2] at h2'; cases h2'
    exact ⟨i, o, _, _, h1, h2, h8.append h9, h10.append h11, (C15_concat x.fst y.fst hx hy _ _ _).2 ⟨a1, b1, w1, a2, b2, w2, h6, h7, rfl, rfl, rfl⟩⟩

/-- A sequence of related pairs of strings, put together. -/
def SeqRelates (x : SymFst W) (ps : List (List String × List String × W)) (xs ys : List String) (w : W) : Prop :=
  (∀ p ∈ ps, x.Relates p.1 p.2.1 p.2.2) ∧ xs = (ps.map (·.1)).flatten ∧ ys = (ps.map (·.2.1)).flatten ∧ w = (ps.map (·.2.2)).prod

omit [Zero W] [DecidableEq W] in
theorem seq_of_labels {x : SymFst W} {i o : SymTable} (h1 : x.isymt = some i) (h2 : x.osymt = some o) :
    ∀ (ps : List (PathT W)) (a b : List Label) (w : W) (xs ys : List String), SeqAccepts x.fst ps a b w → i.Reads a xs → o.Reads b ys →
      ∃ qs, (ps = [] ↔ qs = []) ∧ x.SeqRelates qs xs ys w
  | [], a, b, w, xs, ys, h, ha, hb => by
    obtain ⟨-, rfl, rfl, rfl⟩ := h
    cases ha; cases hb
    exact ⟨[], by simp, by simp [SeqRelates]⟩
  | p :: ps, a, b, w, xs, ys, h, ha, hb => by
    obtain ⟨h3, rfl, rfl, rfl⟩ := h
    simp only [List.map_cons, List.flatten_cons] at ha hb
    obtain ⟨x1, x2, h5, h6, rfl⟩ := SymTable.reads_append ha
    obtain ⟨y1, y2, h7, h8, rfl⟩ := SymTable.reads_append hb
    obtain ⟨qs, -, h9, h10, h11, h12⟩ := seq_of_labels h1 h2 ps _ _ _ x2 y2 ⟨fun q hq => h3 q (List.mem_cons_of_mem _ hq), rfl, rfl, rfl⟩ h6 h8
    refine ⟨(x1, y1, p.2.2) :: qs, by simp, ?_, ?_, ?_, ?_⟩
    · intro q hq
      rcases List.mem_cons.1 hq with rfl | hq
      · exact ⟨i, o, p.1, p.2.1, h1, h2, h5, h7, h3 p List.mem_cons_self⟩
      · exact h9 q hq
    · simp [h10]
    · simp [h11]
    · simp [h12]

omit [Zero W] [DecidableEq W] in
theorem seq_of_symbols {x : SymFst W} {i o : SymTable} (h1 : x.isymt = some i) (h2 : x.osymt = some o) :
    ∀ (qs : List (List String × List String × W)) (xs ys : List String) (w : W), x.SeqRelates qs xs ys w →
      ∃ (ps : List (PathT W)) (a b : List Label), (ps = [] ↔ qs = []) ∧ SeqAccepts x.fst ps a b w ∧ i.Reads a xs ∧ o.Reads b ys
  | [], xs, ys, w, h => by
    obtain ⟨-, rfl, rfl, rfl⟩ := h
    exact ⟨[], [], [], by simp, by simp [SeqAccepts], .nil, .nil⟩
  | q :: qs, xs, ys, w, h => by
    obtain ⟨h3, rfl, rfl, rfl⟩ := h
    obtain ⟨ps, a, b, -, ⟨h4, rfl, rfl, h5⟩, h6, h7⟩ := seq_of_symbols h1 h2 qs _ _ _ ⟨fun p hp => h3 p (List.mem_cons_of_mem _ hp), rfl, rfl, rfl⟩
    obtain ⟨i', o', a', b', h1', h2', h8, h9, h10⟩ := h3 q List.mem_cons_self
    rw [h1] at h1'; cases h1'
    rw [h2] at h2'; cases h2'
    refine ⟨(a', b', q.2.2) :: ps, _, _, by simp, ⟨?_, rfl, rfl, ?_⟩, ?_, ?_⟩
    · intro p hp
      rcases List.mem_cons.1 hp with rfl | hp
      · exact h10
      · exact h4 p hp
    · simp [h5]
    · simpa using h8.append h6
    · simpa using h9.append h7

/-- C76, `closure`: sequences of related strings, and the empty one for the star. -/
theorem C76_closure (x : SymFst W) (hx : x.fst.WF) (ht : x.isymt ≠ none ∧ x.osymt ≠ none) (ty : Fst.ClosureType) (xs ys : List String) (w : W) :
    (x.closure ty).Relates xs ys w ↔ ∃ ps, (ty = .plus → ps ≠ []) ∧ x.SeqRelates ps xs ys w := by
  obtain ⟨i, h1⟩ := Option.ne_none_iff_exists'.1 ht.1
  obtain ⟨o, h2⟩ := Option.ne_none_iff_exists'.1 ht.2
  have key : ∀ a b, (x.fst.closure ty).Accepts a b w ↔ ∃ ps, (ty = .plus → ps ≠ []) ∧ SeqAccepts x.fst ps a b w := by
    intro a b
    cases ty with
    | plus => rw [C16_plus]; simp
    | star => rw [C16_star x.fst hx]; simp
  constructor
  · rintro ⟨i', o', a, b, h1', h2', h3, h4, h5⟩
    obtain ⟨ps, h6, h7⟩ := (key a b).1 h5
    obtain ⟨qs, h8, h9⟩ := seq_of_labels (x := x) h1' h2' ps a b w xs ys h7 h3 h4
    exact ⟨qs, fun e h => h6 e (h8.2 h), h9⟩
  · rintro ⟨qs, h6, h7⟩
    obtain ⟨ps, a, b, h8, h9, h10, h11⟩ := seq_of_symbols h1 h2 qs xs ys w h7
    exact ⟨i, o, a, b, h1, h2, h10, h11, (key a b).2 ⟨ps, fun e h => h6 e (h8.1 h), h9⟩⟩

/-- C76, `connect`: the relation stays. -/
theorem C76_connect (x : SymFst W) (hx : x.fst.WF) : ∃ y, x.connect = .ok y ∧ ∀ xs ys w, y.Relates xs ys w ↔ x.Relates xs ys w := by
  obtain ⟨g, _, h, -⟩ := C18_connect x.fst hx
  refine ⟨⟨g, x.isymt, x.osymt⟩, by unfold connect; rw [h]; rfl, relates_congr rfl rfl fun a b w => ?_⟩
  unfold Accepts
  simp only [C18_paths x.fst g hx h]

end

/-- C76, `reverse`: both strings are read backwards. -/
theorem C76_reverse {W : Type u} {V : Type v} [Monoid W] [Zero W] [DecidableEq W] [Monoid V] [Zero V] [DecidableEq V] (rev : W → V)
    (hm : ∀ a b, rev (a * b) = rev b * rev a) (h1 : rev 1 = 1) (x : SymFst W) (hx : x.fst.WF) :
    ∃ y, x.reverse rev = .ok y ∧ ∀ xs ys v, y.Relates xs ys v ↔ ∃ w, x.Relates xs.reverse ys.reverse w ∧ v = rev w := by
  obtain ⟨o, ho, h⟩ := C17_reverse rev hm h1 x.fst hx
  refine ⟨⟨o, x.isymt, x.osymt⟩, by unfold reverse; rw [ho]; rfl, fun xs ys v => ?_⟩
  unfold Relates
  constructor
  · rintro ⟨i, t, a, b, h3, h4, h5, h6, h7⟩
    obtain ⟨w, h8, h9⟩ := (h a b v).1 h7
    exact ⟨w, ⟨i, t, _, _, h3, h4, h5.reverse, h6.reverse, h8⟩, h9⟩
  · rintro ⟨w, ⟨i, t, a, b, h3, h4, h5, h6, h7⟩, h9⟩
    refine ⟨i, t, a.reverse, b.reverse, h3, h4, ?_, ?_, (h _ _ v).2 ⟨w, by simpa using h7, h9⟩⟩
    · simpa using h5.reverse
    · simpa using h6.reverse

section
variable {W : Type u} [CommMonoidWithZero W] [DecidableEq W]

/-- C76, `compose`: if the tables of the middle tape agree, the result relates `xs` and `zs` with a weight other than zero exactly if there is a
string `ys` over the symbols of the middle tape. Here `hr` says that the middle table knows the labels on the middle tape. -/
theorem C76_compose (x y : SymFst W) (h : Operands x.fst y.fst) (m : SymTable) (hm : m.Ok) (hx : x.osymt = some m) (hy : y.isymt = some m)
    (hr : ∀ ls ms w, x.fst.Accepts ls ms w → ∃ ys, m.Reads ms ys) :
    ∃ z, EndsWith (x.compose y) (.ok z) ∧ ∀ xs zs w, w ≠ 0 →
      (z.Relates xs zs w ↔ ∃ ys w1 w2, x.Relates xs ys w1 ∧ y.Relates ys zs w2 ∧ w = w1 * w2) := by
  obtain ⟨C, ⟨N, hN⟩, hw, hct, hi, -⟩ := C39_compose h
  obtain ⟨mt, hmt, hc⟩ := h.composable
  obtain ⟨D, z, ⟨N', hN'⟩, dw, -, -⟩ := compose_lazy hc (seqFilter_law hc.toJoinable h.counters1) (Set.finite_Iic 1)
  have hD : D.connect = .ok C := by
    have a := hN' (max N N') (le_max_right _ _)
    have b := hN (max N N') (le_max_left _ _)
    simp only [Verif.compose, Verif.composeWith, composeNew, hmt, a, if_true, Option.some.injEq] at b
    exact b
  have hpath : ∀ n, C.accPaths n = D.accPaths n := fun n => C18_paths D C dw hD n
  refine ⟨⟨C, if D.start = none then none else x.isymt, if D.start = none then none else y.osymt⟩, ⟨N', fun n hn => ?_⟩, ?_⟩
  · have a := hN' n hn
    simp only at a
    simp only [compose, composeWith, composeNew, hmt, a, if_true, Option.some.injEq]
    unfold ofCompute
    split <;> simp [connect, attach, hD]
  · intro xs zs w hne
    constructor
    · rintro ⟨i, o, a, b, h1, h2, h3, h4, h5⟩
      by_cases hs : D.start = none
      · simp [hs] at h1
      · simp only [hs, if_false] at h1 h2
        obtain ⟨c, w1, w2, h6, h7, h8⟩ := (C39_relation hi a b w hne).1 h5
        obtain ⟨ys, h9⟩ := hr a c w1 h6
        exact ⟨ys, w1, w2, ⟨i, m, a, c, h1, hx, h3, h9, h6⟩, ⟨m, o, c, b, hy, h2, h9, h4, h7⟩, h8⟩
    · rintro ⟨ys, w1, w2, ⟨i, m1, a, c, h1, h2, h3, h4, h5⟩, ⟨m2, o, c', b, h6, h7, h8, h9, h10⟩, rfl⟩
      rw [hx] at h2; cases h2
      rw [hy] at h6; cases h6
      have := h8.inj hm h4; subst this
      have hacc := (C39_relation hi a b _ hne).2 ⟨c', w1, w2, h5, h10, rfl⟩
      have hs : D.start ≠ none := by
        intro e
        obtain ⟨n, hn⟩ := hacc
        rw [hpath, accPaths_none e] at hn
        exact Multiset.notMem_zero _ hn
      exact ⟨i, o, a, b, by simp [hs, h1], by simp [hs, h7], h3, h9, hacc⟩

end

/-- C76, `shortest_path`: the one string pair of the result is related by the input, with the weight no other beats. -/
theorem C76_shortest_path {W : Type u} [AddCommMonoid W] [Monoid W] [RightDistribClass W] [DecidableEq W] {sf : SemiringFlags} {x : SymFst W} (hz : ∀ a : W, 0 * a = 0)
    (hpath : ∀ a b : W, a + b = a ∨ a + b = b) (hsf : sf.path = true ∧ sf.right = true) (hw : x.fst.WF) (ht : x.fst.Truthful)
    (hcyc : x.fst.CyclesAbsorbed (fun _ => true)) :
    ∃ y, EndsWith (x.shortestPath sf) (.ok y) ∧ y.isymt = x.isymt ∧ y.osymt = x.osymt ∧
      ∀ xs ys w, y.Relates xs ys w → x.Relates xs ys w ∧ ∀ xs' ys' w', x.Relates xs' ys' w' → w + w' = w := by
  obtain ⟨o, ⟨N, hN⟩, how, -, h⟩ := C34_shortest_path hz hpath hsf hw ht hcyc
  refine ⟨⟨o, x.isymt, x.osymt⟩, ⟨N, fun n hn => ?_⟩, rfl, rfl, ?_⟩
  · have := hN n hn
    simp only [shortestPath, this, Option.map_some, attach]
  · rintro xs ys w ⟨i, t, a, b, h1, h2, h3, h4, n, h5⟩
    rcases h with ⟨h0, -⟩ | ⟨L, p, h6, h7, h8, h9⟩
    · exfalso
      cases hs : o.start with
      | none => simp only [accPaths_none hs] at h5; exact Multiset.notMem_zero _ h5
      | some s => have := how.start_lt s hs; omega
    · simp only [h8] at h5
      split at h5
      · rw [Multiset.mem_singleton] at h5
        subst h5
        refine ⟨⟨i, t, a, b, h1, h2, h3, h4, L, h6⟩, ?_⟩
        rintro xs' ys' w' ⟨i', t', a', b', -, -, -, -, n', h10⟩
        exact h9 n' _ h10
      · exact absurd h5 (Multiset.notMem_zero _)

/-! ## What goes wrong -/

/-- Input symbol `a` and output symbol `b`, each with label 1 in the table of its tape. -/
def exTabA : SymTable := (SymTable.new.addSymbol "a").1
def exTabB : SymTable := (SymTable.new.addSymbol "b").1
def exAB : SymFst Nat := ⟨⟨[⟨none, [⟨1, 1, 2, 1⟩], 0, 0⟩, ⟨some 3, [], 0, 0⟩], some 0, Props.of [.iLabelSorted, .oLabelSorted]⟩, some exTabA, some exTabB⟩

theorem exAB_relates : exAB.Relates ["a"] ["b"] 6 :=
  ⟨exTabA, exTabB, [1], [1], rfl, rfl, .cons (by decide) .nil, .cons (by decide) .nil, 1, Multiset.mem_singleton.2 rfl⟩

/-- In a table with `s` at label 1, only `s` is read from label 1. -/
theorem reads_one {t : SymTable} {s r : String} (h : t.getSymbol 1 = some s) {l : List Label} (hl : l = [1]) (hr : t.Reads l [r]) : r = s := by
  subst hl
  cases hr with
  | cons h1 _ => rw [h] at h1; exact (Option.some.inj h1).symm

theorem exAB_accepts {n : Nat} {a b : List Label} {w : Nat} (h : (a, b, w) ∈ exAB.fst.accPaths n) : a = [1] ∧ b = [1] := by
  match n with
  | 0 => exact absurd h (by simp [accPaths, pathsFrom, exAB, finOf])
  | 1 =>
    have : exAB.fst.accPaths 1 = {([1], [1], 6)} := by decide
    rw [this, Multiset.mem_singleton] at h
    cases h; exact ⟨rfl, rfl⟩
  | n + 2 =>
    have : exAB.fst.accPaths (n + 2) = 0 := by
      have e0 : exAB.fst.trsOf 0 = [⟨1, 1, 2, 1⟩] := rfl
      have e1 : exAB.fst.trsOf 1 = [] := rfl
      rw [accPaths_some (i := 0) rfl, pathsFrom_succ, e0]
      simp [pathsFrom_succ, e1]
    rw [this] at h
    exact absurd h (Multiset.notMem_zero _)

/-- `invert` of an FST that turns `a` into `b` does not turn `b` into `a`: read with the tables it carries, it still turns `a` into `b`. -/
theorem C76_invert_defect : exAB.Relates ["a"] ["b"] 6 ∧ ¬ exAB.invert.Relates ["b"] ["a"] 6 ∧ exAB.invert.Relates ["a"] ["b"] 6 := by
  refine ⟨exAB_relates, ?_, ⟨exTabA, exTabB, [1], [1], rfl, rfl, .cons (by decide) .nil, .cons (by decide) .nil,
    (C10_relation exAB.fst [1] [1] 6).2 ⟨1, Multiset.mem_singleton.2 rfl⟩⟩⟩
  rintro ⟨i, o, a, b, h1, h2, h3, h4, h5⟩
  cases h1
  obtain ⟨n, h6⟩ := (C10_relation exAB.fst a b 6).1 h5
  have := reads_one (t := exTabA) (s := "a") (by decide) (exAB_accepts h6).2 h3
  exact absurd this (by decide)

/-- `project` on the input tape of the same FST is no identity on `a`: it turns `a` into `b`. -/
theorem C76_project_defect : ¬ (exAB.project .projectInput).Relates ["a"] ["a"] 6 ∧ (exAB.project .projectInput).Relates ["a"] ["b"] 6 := by
  have hacc : ∀ a b, (exAB.fst.project .projectInput).Accepts a b 6 → a = [1] ∧ b = [1] := by
    rintro a b ⟨n, h⟩
    rw [C11_paths, Multiset.mem_map] at h
    obtain ⟨⟨p, q, v⟩, h6, h7⟩ := h
    simp only [Prod.mk.injEq] at h7
    obtain ⟨rfl, rfl, rfl⟩ := h7
    exact ⟨(exAB_accepts h6).1, (exAB_accepts h6).1⟩
  constructor
  · rintro ⟨i, o, a, b, h1, h2, h3, h4, h5⟩
    cases h2
    have := reads_one (t := exTabB) (s := "b") (by decide) (hacc a b h5).2 h4
    exact absurd this (by decide)
  · refine ⟨exTabA, exTabB, [1], [1], rfl, rfl, .cons (by decide) .nil, .cons (by decide) .nil, 1, ?_⟩
    change _ ∈ (exAB.fst.project .projectInput).accPaths 1
    rw [C11_paths, Multiset.mem_map]
    exact ⟨([1], [1], 6), Multiset.mem_singleton.2 rfl, rfl⟩

/-- The identity on `b`. -/
def exBB : SymFst Nat := ⟨exAB.fst, some exTabB, some exTabB⟩
/-- The identity on `a`. -/
def exAA : SymFst Nat := ⟨exAB.fst, some exTabA, some exTabA⟩

/-- Tables that differ are not noticed: concatenating the identity on `a` and the identity on `b` gives the identity on `a a`. -/
theorem C76_concat_defect : (exAA.concat exBB).Relates ["a", "a"] ["a", "a"] 36 ∧ exBB.Relates ["b"] ["b"] 6 := by
  have hw : exAB.fst.WF := Fst.wf_of_wfB (by decide)
  refine ⟨⟨exTabA, exTabA, [1, 1], [1, 1], rfl, rfl, .cons (by decide) (.cons (by decide) .nil), .cons (by decide) (.cons (by decide) .nil),
    (C15_concat exAB.fst exAB.fst hw hw _ _ _).2 ⟨[1], [1], 6, [1], [1], 6, ⟨1, Multiset.mem_singleton.2 rfl⟩, ⟨1, Multiset.mem_singleton.2 rfl⟩, rfl, rfl, rfl⟩⟩,
    ⟨exTabB, exTabB, [1], [1], rfl, rfl, .cons (by decide) .nil, .cons (by decide) .nil, 1, Multiset.mem_singleton.2 rfl⟩⟩

/-- Nor by `compose`: the identities on `a` and on `b` have no string in common, but their composition turns `a` into `b`. -/
theorem C76_compose_defect : ∃ z, exAA.compose exBB 10 = some (.ok z) ∧ z.Relates ["a"] ["b"] 36 :=
  ⟨_, rfl, exTabA, exTabB, [1], [1], rfl, rfl, .cons (by decide) .nil, .cons (by decide) .nil, 1, Multiset.mem_singleton.2 rfl⟩

/-- A composition with an FST without start state has no tables, so its string paths cannot be asked for. -/
theorem C76_compose_no_tables : ∃ z, exAA.compose ⟨(Fst.new : Fst Nat), some exTabA, some exTabA⟩ 10 = some (.ok z) ∧
    z.isymt = none ∧ z.osymt = none := ⟨_, rfl, rfl, rfl⟩

/-- Asking for no shortest path loses the tables, asking for one keeps them. -/
theorem C76_no_shortest : exAA.noShortestPath.isymt = none ∧ exAA.noShortestPath.osymt = none := ⟨rfl, rfl⟩

/-! ## Instances -/

theorem exAA_wf : exAA.fst.WF := Fst.wf_of_wfB (by decide)

/-- The hypotheses of `C76_compose` hold for the identity on `a` and an FST that turns `a` into `b`. -/
example : Operands exAA.fst exAB.fst ∧ exTabA.Ok ∧ exAA.osymt = some exTabA ∧ exAB.isymt = some exTabA ∧
    ∀ ls ms w, exAA.fst.Accepts ls ms w → ∃ ys, exTabA.Reads ms ys := by
  have h1 : ∀ s, exAB.fst.trsOf s = [⟨1, 1, 2, 1⟩] ∨ exAB.fst.trsOf s = [] := by
    intro s; rcases s with _ | _ | s <;> simp [exAB, Fst.trsOf]
  have hc : exAB.fst.AllCounters := by
    intro s st hst
    rcases s with _ | _ | s <;> simp [exAB] at hst <;> subst hst <;> exact ⟨rfl, rfl⟩
  refine ⟨⟨exAA_wf, exAA_wf, hc, hc, ?_, ?_, ?_, ?_, .inl rfl⟩, SymTable.ok_addSymbol (SymTable.ok_addSymbol SymTable.ok_empty _) _, rfl, rfl, ?_⟩
  · intro s t ht; change t ∈ exAB.fst.trsOf s at ht; rcases h1 s with e | e <;> simp [e] at ht <;> subst ht <;> decide
  · intro s t ht; rcases h1 s with e | e <;> simp [e] at ht <;> subst ht <;> decide
  · intro _ s; change ((exAB.fst.trsOf s).map _).Pairwise _; rcases h1 s with e | e <;> simp [e]
  · intro _ s; rcases h1 s with e | e <;> simp [e]
  · rintro ls ms w ⟨n, h⟩
    exact ⟨["a"], by rw [(exAB_accepts h).2]; exact .cons (by decide) .nil⟩

/-- What `C76_compose` says about it is not empty: `a` is turned into `b`. -/
example : ∃ z, exAA.compose exAB 10 = some (.ok z) ∧ z.Relates ["a"] ["b"] 36 ∧ exAA.Relates ["a"] ["a"] 6 ∧ exAB.Relates ["a"] ["b"] 6 :=
  ⟨_, rfl, ⟨exTabA, exTabB, [1], [1], rfl, rfl, .cons (by decide) .nil, .cons (by decide) .nil, 1, Multiset.mem_singleton.2 rfl⟩,
    ⟨exTabA, exTabA, [1], [1], rfl, rfl, .cons (by decide) .nil, .cons (by decide) .nil, 1, Multiset.mem_singleton.2 rfl⟩, exAB_relates⟩

/-- The hypotheses of the other theorems hold for FSTs that share their tables. -/
example : exAA.isymt = exAA.osymt ∧ exAA.fst.WF ∧ exAA.fst.start ≠ none ∧ (exAA.closure .star).Relates ["a", "a"] ["a", "a"] 36 := by
  refine ⟨rfl, exAA_wf, by simp [exAA, exAB], (C76_closure exAA exAA_wf ⟨by simp [exAA], by simp [exAA]⟩ .star _ _ _).2
    ⟨[(["a"], ["a"], 6), (["a"], ["a"], 6)], by simp, ?_, rfl, rfl, rfl⟩⟩
  intro p hp
  have : p = (["a"], ["a"], 6) := by simpa using hp
  subst this
  exact ⟨exTabA, exTabA, [1], [1], rfl, rfl, .cons (by decide) .nil, .cons (by decide) .nil, 1, Multiset.mem_singleton.2 rfl⟩

end SymFst
end Verif
