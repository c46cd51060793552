import Verif.Lemmas.Embed
import Verif.Lemmas.Truthful
import Verif.Props.C14

/-! # C51 for union, concat and closure: the flags of the result are true -/

namespace Verif
set_option linter.unusedSectionVars false
universe u
open Fst
variable {W : Type u} [Zero W] [One W] [DecidableEq W]

namespace Fst

omit [DecidableEq W] in
theorem unweighted_or {f : Fst W} (h : f.Holds .weighted) :
    (∃ s, ∃ t ∈ f.trsOf s, ¬ TrivialW t.weight) ∨ ∃ s w, f.finOf s = some w ∧ ¬ TrivialW w := by
  by_contra hc
  push Not at hc
  exact h ⟨hc.1, hc.2⟩

section concat
variable {f g : Fst W} {i j : Nat}

theorem concat_emb_lo (hi : f.start = some i) : Emb f (f.concat g) id where
  trs s hs := by
    obtain ⟨a, -⟩ := concat_spec (f := f) (g := g) (by simp [hi])
    simp [a, hs]

theorem concat_emb_hi (hi : f.start = some i) : Emb g (f.concat g) (· + f.numStates) where
  trs s hs := by
    obtain ⟨a, -⟩ := concat_spec (f := f) (g := g) (by simp [hi])
    rw [a, if_neg (by omega), Nat.add_sub_cancel]
    exact List.prefix_refl _

theorem concat_mem (hi : f.start = some i) (hj : g.start = some j) {s t} (ht : t ∈ (f.concat g).trsOf s) :
    (s < f.numStates ∧ t ∈ f.trsOf s) ∨ (s < f.numStates ∧ ∃ w, f.finOf s = some w ∧ t = epsTr w (j + f.numStates)) ∨
    (f.numStates ≤ s ∧ ∃ t' ∈ g.trsOf (s - f.numStates), t = shiftTr f.numStates t') := by
  obtain ⟨a, -⟩ := concat_spec (f := f) (g := g) (by simp [hi])
  rw [a, hj] at ht
  by_cases hs : s < f.numStates
  · simp only [hs, if_true] at ht
    rcases List.mem_append.1 ht with ht | ht
    · exact Or.inl ⟨hs, ht⟩
    · cases hw : f.finOf s with
      | none => simp [hw] at ht
      | some w =>
        simp [hw] at ht
        exact Or.inr (Or.inl ⟨hs, w, rfl, ht⟩)
  · simp only [hs, if_false] at ht
    obtain ⟨t', ht', rfl⟩ := List.mem_map.1 ht
    exact Or.inr (Or.inr ⟨by omega, t', ht', rfl⟩)

theorem concat_split (hf : f.WF) (hg : g.WF) (hi : f.start = some i) (hj : g.start = some j) :
    Split f g (f.concat g) where
  hi a b h1 h2 := by
    rintro ⟨t, ht, rfl⟩
    rcases concat_mem hi hj ht with ⟨h, _⟩ | ⟨h, _⟩ | ⟨_, t', ht', rfl⟩
    · omega
    · omega
    · have := hg.next_lt _ _ ht'
      refine ⟨by simp [shiftTr], by simp [shiftTr]; omega, t', ht', by simp [shiftTr]⟩
  lo a b h1 := by
    rintro ⟨t, ht, rfl⟩ h2
    rcases concat_mem hi hj ht with ⟨h, ht⟩ | ⟨h, w, _, rfl⟩ | ⟨_, t', ht', rfl⟩
    · exact ⟨t, ht, rfl⟩
    · simp [epsTr] at h2
      omega
    · omega
  below a b := by
    rintro ⟨t, ht, rfl⟩
    have := hg.start_lt j hj
    rcases concat_mem hi hj ht with ⟨h, ht⟩ | ⟨h, w, _, rfl⟩ | ⟨_, t', ht', rfl⟩
    · have := hf.next_lt _ _ ht; omega
    · simp [epsTr]; omega
    · have := hg.next_lt _ _ ht'; simp [shiftTr]; omega

theorem concat_wf (hf : f.WF) (hg : g.WF) (hi : f.start = some i) (hj : g.start = some j) : (f.concat g).WF where
  start_lt k hk := by
    obtain ⟨-, -, c, d, -⟩ := concat_spec (f := f) (g := g) (by simp [hi])
    rw [d] at hk
    have := hf.start_lt k hk
    rw [c]; omega
  next_lt s t ht := by
    obtain ⟨-, -, c, -⟩ := concat_spec (f := f) (g := g) (by simp [hi])
    rw [c]
    exact (concat_split hf hg hi hj).below s _ ⟨t, ht, rfl⟩

/-- Crossing from `f` to `g` happens at a final state of `f` and enters at the start state of `g`. -/
theorem concat_cross (hf : f.WF) (hg : g.WF) (hi : f.start = some i) (hj : g.start = some j) {a b}
    (ha : a < f.numStates) (hb : f.numStates ≤ b) (h : (f.concat g).Reach a b) :
    (∃ c, f.Reach a c ∧ f.IsFinal c) ∧ g.Reach j (b - f.numStates) := by
  have sp := concat_split hf hg hi hj
  induction h using Relation.ReflTransGen.head_induction_on with
  | refl => omega
  | @head a c hac hcb ih =>
    by_cases hc : c < f.numStates
    · obtain ⟨⟨d, h1, h2⟩, h3⟩ := ih hc
      exact ⟨⟨d, .head (sp.lo _ _ ha hac hc) h1, h2⟩, h3⟩
    · obtain ⟨t, ht, rfl⟩ := hac
      rcases concat_mem hi hj ht with ⟨h, ht⟩ | ⟨h, w, hw, rfl⟩ | ⟨_, t', ht', rfl⟩
      · exact absurd (hf.next_lt _ _ ht) hc
      · refine ⟨⟨a, .refl, by simp [IsFinal, hw]⟩, ?_⟩
        have := (sp.reach_hi (by omega) (sp.below a _ ⟨_, ht, rfl⟩) hcb).2.2
        simpa [epsTr] using this
      · omega

end concat
end Fst

namespace Fst

theorem truthful_addTrs {α : Type*} (k : α → Tr W) (ts : List α) {f : Fst W} (h : f.Truthful) {s : Nat}
    (hs : s < f.numStates) : (ts.foldl (fun f t => f.addTr s (k t)) f).Truthful := by
  induction ts generalizing f with
  | nil => exact h
  | cons t ts ih => exact ih (truthful_addTr h hs _) (by simpa using hs)

theorem truthful_appendFst {f g : Fst W} (tf : f.Truthful) : (f.appendFst g).Truthful := by
  unfold appendFst
  refine foldl_induct (fun h : Fst W => h.Truthful) _ _ _ tf ?_
  intro h k _ ht
  unfold appendState
  simp only
  refine truthful_addTrs (shiftTr f.numStates) (g.trsOf k) ?_ ?_
  · split
    · exact truthful_setFinal (truthful_addStates ht 1) (by simp) _
    · exact truthful_addStates ht 1
  · split <;> simp

theorem truthful_concatState {f : Fst W} {start2 : Option Nat} {n1 s : Nat} (tf : f.Truthful) (hs : s < f.numStates) :
    (concatState start2 n1 f s).Truthful := by
  unfold concatState
  split
  · exact tf
  · split
    · exact truthful_delFinal (truthful_addTr tf hs _) (by simpa using hs)
    · exact truthful_delFinal tf hs

end Fst

/-- C51 for `concat`: the flags of the result are true of it. -/
theorem C15_flags (f g : Fst W) (hf : f.WF) (hg : g.WF) (tf : f.Truthful) (tg : g.Truthful) : (f.concat g).Truthful := by
  cases hi : f.start with
  | none => rw [concat_none hi]; exact tf
  | some i =>
    cases hj : g.start with
    | none =>
      have : f.concat g = (List.range f.numStates).foldl (concatState g.start f.numStates) (f.appendFst g) := by
        simp [Fst.concat, hi, hj]
      rw [this]
      have hn : (f.appendFst g).numStates = f.numStates + g.numStates := (appendFst_spec f g).2.2.1
      refine (foldl_range_induct (fun _ (h : Fst W) => h.Truthful ∧ h.numStates = f.numStates + g.numStates) _ _ _
        ⟨truthful_appendFst tf, hn⟩ ?_).1
      rintro k h hk ⟨h1, h2⟩
      exact ⟨truthful_concatState h1 (by omega), by rw [(concatState_spec _ _ _ _).2.2.1, h2]⟩
    | some j =>
      obtain ⟨a, b, c, d, -⟩ := concat_spec (f := f) (g := g) (by simp [hi])
      have hil := hf.start_lt i hi
      have hjl := hg.start_lt j hj
      rw [hi] at d
      have sp := concat_split hf hg hi hj
      have el := concat_emb_lo (g := g) hi
      have eh := concat_emb_hi (g := g) hi
      have fin_hi : ∀ s, f.numStates ≤ s → ((f.concat g).IsFinal s ↔ g.IsFinal (s - f.numStates)) := by
        intro s hs
        have : ¬ s < f.numStates := by omega
        simp [IsFinal, b, this]
      have fin_lo : ∀ s, s < f.numStates → ¬ (f.concat g).IsFinal s := by
        intro s hs; simp [IsFinal, b, hs]
      have cross : ∀ s, f.Coaccessible s → (f.concat g).Reach s (j + f.numStates) := by
        rintro s ⟨q, h1, h2⟩
        obtain ⟨w, hw⟩ := Option.isSome_iff_exists.1 h2
        refine Relation.ReflTransGen.tail (el.reach h1) ⟨epsTr w (j + f.numStates), ?_, rfl⟩
        have := lt_of_finOf hw
        simp [a, this, hw, hj]
      have hp : (f.concat g).props = Props.concat f.props g.props false := by
        simp only [Fst.concat, hi, hj]; exact Fst.setPropsMask_all _ _
      have hnl : (f.concat g).IsLinear → f.IsLinear ∧ g.IsLinear := by
        intro hl
        rw [IsLinear, c, d] at hl
        obtain ⟨h0, hlin⟩ := hl (by omega)
        clear hl
        simp only [Option.some.injEq] at h0
        subst h0
        have key : ∀ s, s < f.numStates → ∃ t, (f.concat g).trsOf s = [t] ∧ t.nextstate = s + 1 := by
          intro s hs
          have := hlin s (by omega)
          rw [if_neg (by omega)] at this
          exact this.2
        have hj0 : j = 0 := by
          obtain ⟨t, h1, h2⟩ := key (f.numStates - 1) (by omega)
          have ht : t ∈ (f.concat g).trsOf (f.numStates - 1) := by rw [h1]; simp
          rcases concat_mem hi hj ht with ⟨h, ht⟩ | ⟨h, w, hw, rfl⟩ | ⟨_, t', ht', rfl⟩
          · have := hf.next_lt _ _ ht; omega
          · simp [epsTr] at h2; omega
          · omega
        subst hj0
        constructor
        · intro _
          refine ⟨hi, fun s hs => ?_⟩
          obtain ⟨t, h1, h2⟩ := key s hs
          rw [a, hj] at h1
          simp only [hs, if_true] at h1
          cases hw : f.finOf s with
          | none =>
            simp only [hw, List.append_nil] at h1
            have := hf.next_lt s t (by rw [h1]; simp)
            rw [if_neg (by omega)]
            exact ⟨by simp [IsFinal, hw], t, h1, h2⟩
          | some w =>
            simp only [hw] at h1
            have hnil : f.trsOf s = [] := by
              cases hh : f.trsOf s with
              | nil => rfl
              | cons x xs => rw [hh] at h1; simp at h1
            rw [hnil, List.nil_append, List.cons.injEq] at h1
            rw [← h1.1] at h2
            simp [epsTr] at h2
            rw [if_pos (by omega)]
            exact ⟨by simp [IsFinal, hw], hnil⟩
        · intro _
          refine ⟨hj, fun s hs => ?_⟩
          have := hlin (s + f.numStates) (by omega)
          rw [fin_hi _ (by omega), a] at this
          simp only [Nat.add_sub_cancel, Nat.not_lt.2 (Nat.le_add_left _ _), if_false] at this
          by_cases h : s + 1 = g.numStates
          · rw [if_pos h]; rw [if_pos (by omega)] at this
            simpa using this
          · rw [if_neg h]; rw [if_neg (by omega)] at this
            refine ⟨this.1, ?_⟩
            obtain ⟨t, h1, h2⟩ := this.2
            cases hh : g.trsOf s with
            | nil => rw [hh] at h1; simp at h1
            | cons x xs =>
              rw [hh] at h1
              simp at h1
              refine ⟨x, by simp [h1.2], ?_⟩
              rw [← h1.1] at h2
              simp [shiftTr] at h2
              omega
      intro bb hb
      rw [hp] at hb
      have cs : (f.props bb = true ∧ g.props bb = true ∧
            (bb = .acceptor ∨ bb = .unweighted ∨ bb = .unweightedCycles ∨ bb = .acyclic)) ∨
          ((f.props bb = true ∨ g.props bb = true) ∧ (bb = .notTopSorted ∨ bb = .notString)) ∨
          (f.props bb = true ∧ (bb = .initialAcyclic ∨ bb = .initialCyclic)) ∨
          (f.props bb = true ∧ (existential bb = true ∨ bb = .weighted ∨ bb = .notAccessible ∨ bb = .notCoaccessible)) ∨
          (f.props .accessible = true ∧ f.props .coaccessible = true ∧ g.props bb = true ∧
            (existential bb = true ∨ bb = .weighted ∨ bb = .notAccessible ∨ bb = .notCoaccessible ∨ bb = .accessible ∨
              bb = .coaccessible)) := by
        simp only [Props.concat, Bool.not_false, Bool.true_or, Bool.and_true] at hb
        split at hb
        · rename_i hc
          simp only [Props.has_apply, Bool.and_eq_true] at hc
          cases bb <;> simp [Props.keep, Props.orIf_apply, Props.or_apply, Props.and_apply, Props.of_apply] at hb <;>
            simp_all [existential]
        · cases bb <;> simp [Props.keep, Props.orIf_apply, Props.or_apply, Props.and_apply, Props.of_apply] at hb <;>
            simp_all [existential]
      clear hb
      have hwl : f.Holds .weighted → (f.concat g).Holds .weighted := by
        intro hw hc
        rcases unweighted_or hw with ⟨s, t, ht, hn⟩ | ⟨s, w, hw, hn⟩
        · exact hn (hc.1 _ _ (el.mem ht))
        · have := lt_of_finOf hw
          exact hn (hc.1 s (epsTr w (j + f.numStates)) (by simp [a, this, hw, hj]))
      have hwh : g.Holds .weighted → (f.concat g).Holds .weighted := by
        intro hw hc
        rcases unweighted_or hw with ⟨s, t, ht, hn⟩ | ⟨s, w, hw, hn⟩
        · have := hc.1 _ _ (eh.mem ht)
          exact hn this
        · exact hn (hc.2 (s + f.numStates) w (by rw [b, if_neg (by omega), Nat.add_sub_cancel]; exact hw))
      rcases cs with ⟨h1, h2, rfl | rfl | rfl | rfl⟩ | ⟨h1, rfl | rfl⟩ | ⟨h1, rfl | rfl⟩ |
        ⟨h1, h2 | rfl | rfl | rfl⟩ | ⟨ha, hca, h1, h2 | rfl | rfl | rfl | rfl | rfl⟩
      · -- acceptor
        have t1 := tf _ h1
        have t2 := tg _ h2
        intro s t ht
        rcases concat_mem hi hj ht with ⟨h, ht⟩ | ⟨h, w, hw, rfl⟩ | ⟨_, t', ht', rfl⟩
        · exact t1 s t ht
        · rfl
        · exact t2 _ t' ht'
      · -- unweighted
        have t1 := tf _ h1
        have t2 := tg _ h2
        constructor
        · intro s t ht
          rcases concat_mem hi hj ht with ⟨h, ht⟩ | ⟨h, w, hw, rfl⟩ | ⟨_, t', ht', rfl⟩
          · exact t1.1 s t ht
          · exact t1.2 s w hw
          · exact t2.1 _ t' ht'
        · intro s w hw
          rw [b] at hw
          split at hw
          · simp at hw
          · exact t2.2 _ w hw
      · -- unweighted cycles
        have t1 := tf _ h1
        have t2 := tg _ h2
        rintro ⟨s, t, ht, hn, hr⟩
        rcases concat_mem hi hj ht with ⟨h, ht⟩ | ⟨h, w, hw, rfl⟩ | ⟨h, t', ht', rfl⟩
        · exact t1 ⟨s, t, ht, hn, sp.reach_lo (hf.next_lt _ _ ht) h hr⟩
        · have := (sp.reach_hi (by simp [epsTr]) (by simp [epsTr]; omega) hr).1
          omega
        · have hh := hg.next_lt _ _ ht'
          have := (sp.reach_hi (by simp [shiftTr]) (by simp [shiftTr]; omega) hr).2.2
          exact t2 ⟨_, t', ht', hn, by simpa [shiftTr] using this⟩
      · exact sp.acyclic (tf _ h1) (tg _ h2)
      · -- not top-sorted
        rcases h1 with h1 | h1
        · exact el.notTopSorted (fun _ _ h => h) (tf _ h1)
        · exact eh.notTopSorted (fun _ _ h => by omega) (tg _ h1)
      · -- not a string
        intro hl
        rcases h1 with h1 | h1
        · exact tf _ h1 (hnl hl).1
        · exact tg _ h1 (hnl hl).2
      · -- initial acyclic
        rintro ⟨k, hk, hc⟩
        rw [d] at hk
        cases hk
        rcases sp.cycle hc with ⟨_, hc⟩ | ⟨hh, _⟩
        · exact tf _ h1 ⟨i, hi, hc⟩
        · omega
      · -- initial cyclic
        obtain ⟨k, hk, hc⟩ := tf _ h1
        exact ⟨k, by rw [d, ← hi]; exact hk, el.onCycle hc⟩
      · exact el.holds bb h2 (tf bb h1)
      · exact hwl (tf _ h1)
      · -- not accessible, first operand
        intro hc
        refine tf _ h1 fun s hs => ?_
        obtain ⟨k, hk, hr⟩ := hc s (by rw [c]; omega)
        rw [d] at hk; cases hk
        exact ⟨i, hi, sp.reach_lo hil hs hr⟩
      · -- not coaccessible, first operand
        intro hc
        refine tf _ h1 fun s hs => ?_
        obtain ⟨q, hr, hq⟩ := hc s (by rw [c]; omega)
        by_cases hql : q < f.numStates
        · exact absurd hq (fin_lo q hql)
        · exact (concat_cross hf hg hi hj hs (by omega) hr).1
      · exact eh.holds bb h2 (tg bb h1)
      · exact hwh (tg _ h1)
      · -- not accessible, second operand
        intro hc
        refine tg _ h1 fun s hs => ?_
        obtain ⟨k, hk, hr⟩ := hc (s + f.numStates) (by rw [c]; omega)
        rw [d] at hk; cases hk
        have := (concat_cross hf hg hi hj hil (by omega) hr).2
        exact ⟨j, hj, by simpa using this⟩
      · -- not coaccessible, second operand
        intro hc
        refine tg _ h1 fun s hs => ?_
        obtain ⟨q, hr, hq⟩ := hc (s + f.numStates) (by rw [c]; omega)
        obtain ⟨h3, h4, h5⟩ := sp.reach_hi (by omega) (by omega) hr
        exact ⟨_, by simpa using h5, (fin_hi q h3).1 hq⟩
      · -- accessible
        intro s hs
        rw [c] at hs
        by_cases hsl : s < f.numStates
        · obtain ⟨k, hk, hr⟩ := tf _ ha s hsl
          rw [hi] at hk; cases hk
          exact ⟨i, d, el.reach hr⟩
        · obtain ⟨k, hk, hr⟩ := tg _ h1 (s - f.numStates) (by omega)
          rw [hj] at hk; cases hk
          refine ⟨i, d, (cross i (tf _ hca i hil)).trans ?_⟩
          have := eh.reach hr
          rwa [Nat.sub_add_cancel (by omega)] at this
      · -- coaccessible
        have main : ∀ s, s < g.numStates → (f.concat g).Coaccessible (s + f.numStates) := by
          intro s hs
          obtain ⟨q, hr, hq⟩ := tg _ h1 s hs
          exact ⟨q + f.numStates, eh.reach hr, (fin_hi _ (by omega)).2 (by simpa using hq)⟩
        intro s hs
        rw [c] at hs
        by_cases hsl : s < f.numStates
        · obtain ⟨q, hr, hq⟩ := main j hjl
          exact ⟨q, (cross s (tf _ hca s hsl)).trans hr, hq⟩
        · have := main (s - f.numStates) (by omega)
          rwa [Nat.sub_add_cancel (by omega)] at this

section union

/-- What both variants of `union` have in common: `extra s` are the added transitions. -/
structure Fst.UnionShape (f g h : Fst W) (i j k : Nat) (extra : Nat → List (Tr W)) : Prop where
  lo : ∀ s, s < f.numStates → h.trsOf s = f.trsOf s ++ extra s
  hi : ∀ s, s < g.numStates → h.trsOf (s + f.numStates) = (g.trsOf s).map (shiftTr f.numStates)
  top : ∀ s, f.numStates + g.numStates ≤ s → h.trsOf s = extra s
  fin_lo : ∀ s, s < f.numStates → h.finOf s = f.finOf s
  fin_hi : ∀ s, s < g.numStates → h.finOf (s + f.numStates) = g.finOf s
  fin_top : ∀ s, f.numStates + g.numStates ≤ s → h.finOf s = none
  num : h.numStates = f.numStates + g.numStates ∨
    (h.numStates = f.numStates + g.numStates + 1 ∧ k = f.numStates + g.numStates)
  start : h.start = some k
  mem_extra : ∀ s t, t ∈ extra s → s = k ∧ (t = epsTr 1 (j + f.numStates) ∨
    (t = epsTr 1 i ∧ k = f.numStates + g.numStates))
  eps : epsTr 1 (j + f.numStates) ∈ extra k
  kstart : k = i ∨ (k = f.numStates + g.numStates ∧ epsTr 1 i ∈ extra k)

variable {f g h : Fst W} {i j k : Nat} {extra : Nat → List (Tr W)}

namespace Fst

theorem UnionShape.mem (u : UnionShape f g h i j k extra) {s t} (ht : t ∈ h.trsOf s) :
    (s < f.numStates ∧ t ∈ f.trsOf s) ∨ (t ∈ extra s) ∨
    (f.numStates ≤ s ∧ s < f.numStates + g.numStates ∧ ∃ t' ∈ g.trsOf (s - f.numStates), t = shiftTr f.numStates t') := by
  by_cases h1 : s < f.numStates
  · rw [u.lo s h1] at ht
    rcases List.mem_append.1 ht with ht | ht
    · exact Or.inl ⟨h1, ht⟩
    · exact Or.inr (Or.inl ht)
  · by_cases h2 : s < f.numStates + g.numStates
    · have := u.hi (s - f.numStates) (by omega)
      rw [Nat.sub_add_cancel (by omega)] at this
      rw [this] at ht
      obtain ⟨t', ht', rfl⟩ := List.mem_map.1 ht
      exact Or.inr (Or.inr ⟨by omega, h2, t', ht', rfl⟩)
    · rw [u.top s (by omega)] at ht
      exact Or.inr (Or.inl ht)

theorem UnionShape.split (u : UnionShape f g h i j k extra) (hf : f.WF) (hg : g.WF) (hi : f.start = some i)
    (hj : g.start = some j) : Split f g h where
  hi a b h1 h2 := by
    rintro ⟨t, ht, rfl⟩
    rcases u.mem ht with ⟨h, _⟩ | h | ⟨_, _, t', ht', rfl⟩
    · omega
    · have := (u.mem_extra _ _ h).1
      rcases u.kstart with h3 | ⟨h3, _⟩
      · have := hf.start_lt i hi; omega
      · omega
    · have := hg.next_lt _ _ ht'
      refine ⟨by simp [shiftTr], by simp [shiftTr]; omega, t', ht', by simp [shiftTr]⟩
  lo a b h1 := by
    rintro ⟨t, ht, rfl⟩ h2
    rcases u.mem ht with ⟨h, ht⟩ | h | ⟨_, _, t', ht', rfl⟩
    · exact ⟨t, ht, rfl⟩
    · obtain ⟨h3, rfl | ⟨rfl, h4⟩⟩ := u.mem_extra _ _ h
      · simp [epsTr] at h2; omega
      · omega
    · omega
  below a b := by
    rintro ⟨t, ht, rfl⟩
    have := hg.start_lt j hj
    have := hf.start_lt i hi
    rcases u.mem ht with ⟨h, ht⟩ | h | ⟨_, _, t', ht', rfl⟩
    · have := hf.next_lt _ _ ht; omega
    · obtain ⟨h3, rfl | ⟨rfl, h4⟩⟩ := u.mem_extra _ _ h
      · simp [epsTr]; omega
      · simp [epsTr]; omega
    · have := hg.next_lt _ _ ht'; simp [shiftTr]; omega

theorem UnionShape.emb_lo (u : UnionShape f g h i j k extra) : Emb f h id where
  trs s hs := by simp [u.lo s hs]
theorem UnionShape.emb_hi (u : UnionShape f g h i j k extra) : Emb g h (· + f.numStates) where
  trs s hs := by rw [u.hi s hs]; exact List.prefix_refl _

theorem UnionShape.wf (u : UnionShape f g h i j k extra) (hf : f.WF) (hg : g.WF) (hi : f.start = some i)
    (hj : g.start = some j) : h.WF where
  start_lt q hq := by
    have := hf.start_lt i hi
    rw [u.start] at hq
    cases hq
    rcases u.num with h1 | ⟨h1, h2⟩
    · rcases u.kstart with h3 | ⟨h3, h4⟩
      · omega
      · exfalso
        have := u.top k (by omega)
        rw [← this] at h4
        have := lt_of_mem_trsOf h4
        omega
    · omega
  next_lt s t ht := by
    have := (u.split hf hg hi hj).below s _ ⟨t, ht, rfl⟩
    rcases u.num with h1 | ⟨h1, h2⟩ <;> omega

theorem UnionShape.reach_i (u : UnionShape f g h i j k extra) (hf : f.WF) (hi : f.start = some i) : h.Reach k i := by
  rcases u.kstart with h1 | ⟨h1, h2⟩
  · rw [h1]; exact .refl
  · refine .single ⟨epsTr 1 i, ?_, rfl⟩
    rw [u.top k (by omega)]; exact h2

theorem UnionShape.reach_j (u : UnionShape f g h i j k extra) (hf : f.WF) (hi : f.start = some i) :
    h.Reach k (j + f.numStates) := by
  refine .single ⟨epsTr 1 (j + f.numStates), ?_, rfl⟩
  rcases u.kstart with h1 | ⟨h1, h2⟩
  · have := hf.start_lt i hi
    rw [u.lo k (by omega)]
    exact List.mem_append_right _ u.eps
  · rw [u.top k (by omega)]; exact u.eps

/-- A state of `f` reached from the start of the union is reached from the start of `f`. -/
theorem UnionShape.from_lo (u : UnionShape f g h i j k extra) (hf : f.WF) (hg : g.WF) (hi : f.start = some i)
    (hj : g.start = some j) {s} (hs : s < f.numStates) (hr : h.Reach k s) : f.Reach i s := by
  have sp := u.split hf hg hi hj
  have hil := hf.start_lt i hi
  rcases u.kstart with h1 | ⟨h1, h2⟩
  · subst h1; exact sp.reach_lo hil hs hr
  · rcases Relation.ReflTransGen.cases_head hr with e | ⟨b, ⟨t, ht, rfl⟩, hb⟩
    · omega
    · rw [u.top k (by omega)] at ht
      obtain ⟨-, rfl | ⟨rfl, -⟩⟩ := u.mem_extra _ _ ht
      · have hjl := hg.start_lt j hj
        have := (sp.reach_hi (by simp [epsTr]) (by simp [epsTr]; omega) hb).1
        omega
      · exact sp.reach_lo hil hs hb

theorem UnionShape.from_hi (u : UnionShape f g h i j k extra) (hf : f.WF) (hg : g.WF) (hi : f.start = some i)
    (hj : g.start = some j) {s} (hs : s < g.numStates) (hr : h.Reach k (s + f.numStates)) : g.Reach j s := by
  have sp := u.split hf hg hi hj
  have hil := hf.start_lt i hi
  have hjl := hg.start_lt j hj
  have cross : ∀ a, a < f.numStates → h.Reach a (s + f.numStates) → g.Reach j s := by
    intro a ha hr
    generalize hx : s + f.numStates = x at hr
    induction hr using Relation.ReflTransGen.head_induction_on with
    | refl => omega
    | @head a c hac hcb ih =>
      by_cases hc : c < f.numStates
      · exact ih hc
      · obtain ⟨t, ht, rfl⟩ := hac
        rcases u.mem ht with ⟨h, ht⟩ | h | ⟨_, _, t', ht', rfl⟩
        · exact absurd (hf.next_lt _ _ ht) hc
        · obtain ⟨h3, rfl | ⟨rfl, h4⟩⟩ := u.mem_extra _ _ h
          · have := (sp.reach_hi (by simp [epsTr]) (by simp [epsTr]; omega) hcb).2.2
            subst hx
            simpa [epsTr] using this
          · simp [epsTr] at hc; omega
        · omega
  rcases u.kstart with h1 | ⟨h1, h2⟩
  · subst h1; exact cross k hil hr
  · rcases Relation.ReflTransGen.cases_head hr with e | ⟨b, ⟨t, ht, rfl⟩, hb⟩
    · omega
    · rw [u.top k (by omega)] at ht
      obtain ⟨-, rfl | ⟨rfl, -⟩⟩ := u.mem_extra _ _ ht
      · have := (sp.reach_hi (by simp [epsTr]) (by simp [epsTr]; omega) hb).2.2
        simpa [epsTr] using this
      · exact cross i hil hb

theorem UnionShape.truthful (u : UnionShape f g h i j k extra) (hf : f.WF) (hg : g.WF) (tf : f.Truthful) (tg : g.Truthful)
    (hi : f.start = some i) (hj : g.start = some j) (hia : k = i → ¬ f.OnCycle i)
    (hp : h.props = Props.union f.props g.props false) : h.Truthful := by
  have hil := hf.start_lt i hi
  have hjl := hg.start_lt j hj
  have sp := u.split hf hg hi hj
  have el := u.emb_lo
  have eh := u.emb_hi
  have hk : k = i ∨ k = f.numStates + g.numStates := by rcases u.kstart with h | h <;> tauto
  have hki : h.Reach k i := u.reach_i hf hi
  have hkj : h.Reach k (j + f.numStates) := u.reach_j hf hi
  have heps : epsTr 1 (j + f.numStates) ∈ h.trsOf k := by
    rcases u.kstart with h1 | ⟨h1, h2⟩
    · rw [u.lo k (by omega)]
      exact List.mem_append_right _ u.eps
    · rw [u.top k (by omega)]; exact u.eps
  have hnum : ∀ s, s < h.numStates → s < f.numStates ∨ (f.numStates ≤ s ∧ s < f.numStates + g.numStates) ∨ s = k := by
    intro s hs
    rcases u.num with h1 | ⟨h1, h2⟩ <;> omega
  have hnum' : f.numStates + g.numStates ≤ h.numStates := by
    rcases u.num with h1 | ⟨h1, h2⟩ <;> omega
  intro bb hb
  rw [hp] at hb
  have cs : (f.props bb = true ∧ g.props bb = true ∧ (bb = .acceptor ∨ bb = .unweighted ∨ bb = .unweightedCycles ∨
        bb = .acyclic ∨ bb = .accessible ∨ bb = .coaccessible)) ∨
      bb = .initialAcyclic ∨ bb = .epsilons ∨ bb = .iEpsilons ∨ bb = .oEpsilons ∨
      ((f.props bb = true ∨ g.props bb = true) ∧ (bb = .notTopSorted ∨ bb = .weighted)) ∨
      (f.props bb = true ∧ (existential bb = true ∨ bb = .notAccessible)) ∨
      (g.props bb = true ∧ (existential bb = true ∨ bb = .notAccessible ∨ bb = .notCoaccessible)) := by
    simp only [Props.union, Bool.not_false, Bool.true_or] at hb
    cases bb <;> simp [Props.keep, Props.orIf_apply, Props.or_apply, Props.and_apply, Props.of_apply,
      Props.set_apply] at hb <;> simp_all [existential]
  clear hb
  rcases cs with ⟨h1, h2, rfl | rfl | rfl | rfl | rfl | rfl⟩ | rfl | rfl | rfl | rfl | ⟨h1, rfl | rfl⟩ |
    ⟨h1, h2 | rfl⟩ | ⟨h1, h2 | rfl | rfl⟩
  · have t1 := tf _ h1
    have t2 := tg _ h2
    intro s t ht
    rcases u.mem ht with ⟨h, ht⟩ | h | ⟨_, _, t', ht', rfl⟩
    · exact t1 s t ht
    · obtain ⟨-, rfl | ⟨rfl, -⟩⟩ := u.mem_extra _ _ h <;> rfl
    · exact t2 _ t' ht'
  · have t1 := tf _ h1
    have t2 := tg _ h2
    constructor
    · intro s t ht
      rcases u.mem ht with ⟨h, ht⟩ | h | ⟨_, _, t', ht', rfl⟩
      · exact t1.1 s t ht
      · obtain ⟨-, rfl | ⟨rfl, -⟩⟩ := u.mem_extra _ _ h <;> exact Or.inr rfl
      · exact t2.1 _ t' ht'
    · intro s w hw
      by_cases hs : s < f.numStates
      · rw [u.fin_lo s hs] at hw; exact t1.2 s w hw
      · by_cases hs' : s < f.numStates + g.numStates
        · have := u.fin_hi (s - f.numStates) (by omega)
          rw [Nat.sub_add_cancel (by omega)] at this
          rw [this] at hw
          exact t2.2 _ w hw
        · rw [u.fin_top s (by omega)] at hw; simp at hw
  · have t1 := tf _ h1
    have t2 := tg _ h2
    rintro ⟨s, t, ht, hn, hr⟩
    rcases u.mem ht with ⟨h, ht⟩ | h | ⟨_, _, t', ht', rfl⟩
    · exact t1 ⟨s, t, ht, hn, sp.reach_lo (hf.next_lt _ _ ht) h hr⟩
    · obtain ⟨-, rfl | ⟨rfl, -⟩⟩ := u.mem_extra _ _ h <;> exact hn (Or.inr rfl)
    · have hh := hg.next_lt _ _ ht'
      have := (sp.reach_hi (by simp [shiftTr]) (by simp [shiftTr]; omega) hr).2.2
      exact t2 ⟨_, t', ht', hn, by simpa [shiftTr] using this⟩
  · exact sp.acyclic (tf _ h1) (tg _ h2)
  · intro s hs
    rcases hnum s hs with h3 | ⟨h3, h4⟩ | rfl
    · obtain ⟨q, hq, hr⟩ := tf _ h1 s h3
      rw [hi] at hq; cases hq
      exact ⟨k, u.start, hki.trans (el.reach hr)⟩
    · obtain ⟨q, hq, hr⟩ := tg _ h2 (s - f.numStates) (by omega)
      rw [hj] at hq; cases hq
      have := eh.reach hr
      rw [Nat.sub_add_cancel (by omega)] at this
      exact ⟨k, u.start, hkj.trans this⟩
    · exact ⟨s, u.start, .refl⟩
  · have hlo : ∀ s, s < f.numStates → h.Coaccessible s := by
      intro s hs
      obtain ⟨q, hr, hq⟩ := tf _ h1 s hs
      obtain ⟨w, hw⟩ := Option.isSome_iff_exists.1 hq
      exact ⟨q, el.reach hr, by rw [IsFinal, u.fin_lo q (lt_of_finOf hw)]; exact hq⟩
    intro s hs
    rcases hnum s hs with h3 | ⟨h3, h4⟩ | rfl
    · exact hlo s h3
    · obtain ⟨q, hr, hq⟩ := tg _ h2 (s - f.numStates) (by omega)
      have := eh.reach hr
      rw [Nat.sub_add_cancel (by omega)] at this
      obtain ⟨w, hw⟩ := Option.isSome_iff_exists.1 hq
      exact ⟨_, this, by rw [IsFinal, u.fin_hi q (lt_of_finOf hw)]; exact hq⟩
    · obtain ⟨q, hr, hq⟩ := hlo i hil
      exact ⟨q, hki.trans hr, hq⟩
  · rintro ⟨q, hq, hc⟩
    rw [u.start] at hq; cases hq
    rcases hk with rfl | rfl
    · rcases sp.cycle hc with ⟨_, hc⟩ | ⟨hh, _⟩
      · exact hia rfl hc
      · omega
    · rcases sp.cycle hc with ⟨hh, _⟩ | ⟨_, hh, _⟩ <;> omega
  · exact ⟨k, _, heps, rfl, rfl⟩
  · exact ⟨k, _, heps, rfl⟩
  · exact ⟨k, _, heps, rfl⟩
  · rcases h1 with h1 | h1
    · exact el.notTopSorted (fun _ _ h => h) (tf _ h1)
    · exact eh.notTopSorted (fun _ _ h => by omega) (tg _ h1)
  · rcases h1 with h1 | h1
    · intro hc
      rcases unweighted_or (tf _ h1) with ⟨s, t, ht, hn⟩ | ⟨s, w, hw, hn⟩
      · exact hn (hc.1 _ _ (el.mem ht))
      · exact hn (hc.2 s w (by rw [u.fin_lo s (lt_of_finOf hw)]; exact hw))
    · intro hc
      rcases unweighted_or (tg _ h1) with ⟨s, t, ht, hn⟩ | ⟨s, w, hw, hn⟩
      · have := hc.1 _ _ (eh.mem ht)
        exact hn this
      · exact hn (hc.2 _ w (by rw [u.fin_hi s (lt_of_finOf hw)]; exact hw))
  · exact el.holds bb h2 (tf bb h1)
  · intro hc
    refine tf _ h1 fun s hs => ?_
    obtain ⟨q, hq, hr⟩ := hc s (by omega)
    rw [u.start] at hq; cases hq
    exact ⟨i, hi, u.from_lo hf hg hi hj hs hr⟩
  · exact eh.holds bb h2 (tg bb h1)
  · intro hc
    refine tg _ h1 fun s hs => ?_
    obtain ⟨q, hq, hr⟩ := hc (s + f.numStates) (by omega)
    rw [u.start] at hq; cases hq
    exact ⟨j, hj, u.from_hi hf hg hi hj hs hr⟩
  · intro hc
    refine tg _ h1 fun s hs => ?_
    obtain ⟨q, hr, hq⟩ := hc (s + f.numStates) (by omega)
    obtain ⟨h3, h4, h5⟩ := sp.reach_hi (by omega) (by omega) hr
    refine ⟨q - f.numStates, by simpa using h5, ?_⟩
    have := u.fin_hi (q - f.numStates) (by omega)
    rw [Nat.sub_add_cancel (by omega)] at this
    rw [IsFinal, this] at hq
    exact hq

theorem union_ia_shape {f g : Fst W} {i j : Nat} (hf : f.WF) (hi : f.start = some i) (hj : g.start = some j) :
    UnionShape f g (unionWith true f g) i j i (fun s => if s = i then [epsTr 1 (j + f.numStates)] else []) := by
  have hil := hf.start_lt i hi
  obtain ⟨a, b, c, d, -⟩ := union_ia_spec hi hj hil
  refine ⟨?_, ?_, ?_, ?_, ?_, ?_, Or.inl c, d, ?_, by simp, Or.inl rfl⟩
  · intro s hs
    rw [a, if_pos hs]
    by_cases h : s = i
    · subst h; simp
    · simp [h]
  · intro s hs; rw [a, if_neg (by omega), Nat.add_sub_cancel]
  · intro s hs
    rw [a, if_neg (by omega), trsOf_of_ge (f := g) (by omega), if_neg (by omega)]; rfl
  · intro s hs; rw [b, if_pos hs]
  · intro s hs; rw [b, if_neg (by omega), Nat.add_sub_cancel]
  · intro s hs; rw [b, if_neg (by omega), finOf_of_ge (by omega)]
  · intro s t ht
    by_cases h : s = i
    · simp [h] at ht; exact ⟨h, Or.inl ht⟩
    · simp [h] at ht

theorem union_new_shape {f g : Fst W} {i j : Nat} (hi : f.start = some i) (hj : g.start = some j) :
    UnionShape f g (unionWith false f g) i j (f.numStates + g.numStates)
      (fun s => if s = f.numStates + g.numStates then [epsTr 1 i, epsTr 1 (j + f.numStates)] else []) := by
  obtain ⟨a, b, c, d, -⟩ := union_new_spec hi hj
  refine ⟨?_, ?_, ?_, ?_, ?_, ?_, Or.inr ⟨c, rfl⟩, d, ?_, by simp, Or.inr (by simp)⟩
  · intro s hs
    rw [a, if_pos hs, if_neg (by omega), List.append_nil]
  · intro s hs; rw [a, if_neg (by omega), if_neg (by omega), Nat.add_sub_cancel]
  · intro s hs
    rw [a, if_neg (by omega), trsOf_of_ge (f := g) (by omega)]; rfl
  · intro s hs; rw [b, if_pos hs]
  · intro s hs; rw [b, if_neg (by omega), Nat.add_sub_cancel]
  · intro s hs; rw [b, if_neg (by omega), finOf_of_ge (by omega)]
  · intro s t ht
    by_cases h : s = f.numStates + g.numStates
    · simp [h] at ht; exact ⟨h, by tauto⟩
    · simp [h] at ht

end Fst

/-- C51 for `union`: the flags of the result are true of it. -/
theorem C14_flags (f g : Fst W) (ia : Bool) (hf : f.WF) (hg : g.WF) (tf : f.Truthful) (tg : g.Truthful)
    (hi0 : f.start = none → f.numStates = 0) (hia : ia = true → ∀ i, f.start = some i → ¬ f.OnCycle i) :
    (unionWith ia f g).Truthful := by
  cases hj : g.start with
  | none => rw [show unionWith ia f g = f by simp [unionWith, hj]]; exact tf
  | some j =>
    cases hi : f.start with
    | none =>
      obtain ⟨a, b, c, d, -⟩ := appendFst_spec f g
      have hd : (f.appendFst g).start = none := by rw [d, hi]
      have e : unionWith ia f g = ((f.appendFst g).setStart j).setPropsMask g.props Props.copyMask := by
        simp [unionWith, hj, hd]
      have h0 := hi0 hi
      have hs : (shiftTr 0 : Tr W → Tr W) = id := by funext t; simp [shiftTr]
      have hc : ∀ (p : Props) bb, (((f.appendFst g).setStart j).setPropsMask p Props.copyMask).Holds bb ↔ g.Holds bb := by
        intro p bb
        refine holds_congr ?_ ?_ ?_ ?_ bb
        · simp [c, h0]
        · simp [hj]
        · intro s; simp [a, h0, hs]
        · intro s; simp [b, h0]
      intro bb hb
      rw [e] at hb ⊢
      rw [hc]
      refine tg bb ?_
      have hm : Props.copyMask bb = true := by cases bb <;> rfl
      simpa [setPropsMask, Props.or_apply, Props.and_apply, Props.not_apply, hm] using hb
    | some i =>
      have hp : (unionWith ia f g).props = Props.union f.props g.props false := by
        have hd : (f.appendFst g).start = some i := by rw [(appendFst_spec f g).2.2.2.1, hi]
        simp only [unionWith, hj, hd]; exact Fst.setPropsMask_all _ _
      cases ia with
      | true => exact (union_ia_shape hf hi hj).truthful hf hg tf tg hi hj (fun _ => hia rfl i hi) hp
      | false =>
        refine (union_new_shape hi hj).truthful hf hg tf tg hi hj (fun h => ?_) hp
        have := hf.start_lt i hi
        omega

end union
end Verif
