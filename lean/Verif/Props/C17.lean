import Verif.Lemmas.Reverse
import Verif.Lemmas.Embed
import Verif.Lemmas.Truthful
import Verif.Props.C14Flags

/-!
# C17: reverse

`rev` is the reversal of weights (`Semiring::reverse`), an anti-homomorphism.
-/

namespace Verif
set_option linter.unusedSectionVars false
universe u v
open Fst

section
variable {W : Type u} {V : Type v} [Monoid W] [Monoid V] [Zero V] [DecidableEq V]

/-- A path read backwards. -/
def PathT.rev (rev : W → V) (p : PathT W) : PathT V := (p.1.reverse, p.2.1.reverse, rev p.2.2)

theorem PathT.rev_cat (rev : W → V) (hm : ∀ a b, rev (a * b) = rev b * rev a) (p q : PathT W) :
    (p.cat q).rev rev = (q.rev rev).cat (p.rev rev) := by
  simp [PathT.rev, PathT.cat, hm]

theorem catAll_swap {α : Type*} (A B : Multiset α) (F : α → α → PathT V) :
    (A.bind fun p => B.map fun q => F p q) = B.bind fun q => A.map fun p => F p q := by
  simp only [← Multiset.bind_singleton]
  exact Multiset.bind_bind A B

theorem map_rev_catAll (rev : W → V) (hm : ∀ a b, rev (a * b) = rev b * rev a) (A B : Multiset (PathT W)) :
    (catAll A B).map (PathT.rev rev) = catAll (B.map (PathT.rev rev)) (A.map (PathT.rev rev)) := by
  simp only [catAll, Multiset.map_bind, Multiset.map_map, Multiset.bind_map, Function.comp_def, PathT.rev_cat rev hm]
  exact catAll_swap _ _ _

namespace Fst

theorem revTr_asPath (rev : W → V) (is) (t : Tr W) : (revTr rev is t).asPath = t.asPath.rev rev := by
  have : ∀ l : Label, (strip l).reverse = strip l := by intro l; unfold strip; split <;> rfl
  simp [revTr, Tr.asPath, PathT.rev, this]

theorem coe_flatMap_range {α : Type*} (n : Nat) (F : Nat → List α) :
    (((List.range n).flatMap F : List α) : Multiset α) = ∑ i ∈ Finset.range n, (F i : Multiset α) := by
  induction n with
  | zero => simp
  | succ n ih =>
    rw [List.range_succ, List.flatMap_append, ← Multiset.coe_add, ih, Finset.sum_range_succ]
    simp

theorem sum_bind {α β : Type*} (n : Nat) (A : Nat → Multiset α) (F : α → Multiset β) :
    (∑ i ∈ Finset.range n, A i).bind F = ∑ i ∈ Finset.range n, (A i).bind F := by
  induction n with
  | zero => simp
  | succ n ih => rw [Finset.sum_range_succ, Finset.sum_range_succ, Multiset.add_bind, ih]

variable {f : Fst W} {o : Fst V} {rev : W → V}

theorem mid_reverse (hm : ∀ a b, rev (a * b) = rev b * rev a) (h1 : rev 1 = 1) (hw : f.WF)
    (ht : ∀ q, q < f.numStates → o.trsOf (q + 1) = revList rev f f.numStates q) (n i s : Nat) (hs : s < f.numStates) :
    o.mid n (s + 1) (i + 1) = (f.mid n i s).map (PathT.rev rev) := by
  induction n generalizing s with
  | zero =>
    simp only [mid, Nat.add_right_cancel_iff]
    by_cases h : s = i
    · simp [h, PathT.rev, h1]
    · rw [if_neg h, if_neg (Ne.symm h)]; rfl
  | succ n ih =>
    rw [mid, ht s hs, revList, coe_flatMap_range, sum_bind, mid_succ_right, map_sum_range]
    refine Finset.sum_congr rfl fun c hc => ?_
    have hc := Finset.mem_range.1 hc
    rw [map_rev_catAll rev hm, ← ih c hc, catAll, edgePaths]
    simp only [← Multiset.map_coe, Multiset.bind_map, revTr_asPath]
    rfl

end Fst

/-- C17: the accepting paths of the reversal are the accepting paths of `f` read backwards, each after one ε-transition. -/
theorem C17_paths (rev : W → V) (hm : ∀ a b, rev (a * b) = rev b * rev a) (h1 : rev 1 = 1) (f : Fst W) (hw : f.WF) :
    ∃ o, f.reverse rev = .ok o ∧ ∀ n, o.accPaths n = delay 1 (fun m => (f.accPaths m).map (PathT.rev rev)) n := by
  obtain ⟨o, ho, hn, hs, t0, ts, f0, fs, -⟩ := reverse_spec rev f hw.next_lt
  refine ⟨o, ho, fun n => ?_⟩
  rw [accPaths_some hs]
  cases n with
  | zero => simp [pathsFrom_zero, f0]
  | succ n =>
    rw [delay_one_succ, pathsFrom_succ, t0, revFinals, coe_flatMap_range, sum_bind]
    have hf : ∀ s, s < f.numStates → o.pathsFrom n (s + 1) = match f.start with
        | none => 0
        | some i => (f.mid n i s).map (PathT.rev rev) := by
      intro s hsl
      rw [pathsFrom_eq_mid, hn, Finset.sum_range_succ']
      have e0 : o.pathsFrom 0 0 = 0 := by simp [pathsFrom_zero, f0]
      rw [e0, catAll_zero_right, add_zero]
      have e1 : ∀ c, c < f.numStates → o.pathsFrom 0 (c + 1) = if f.start = some c then {([], [], 1)} else 0 := by
        intro c hc
        rw [pathsFrom_zero, fs c hc]
        by_cases h : f.start = some c <;> simp [h]
      rw [Finset.sum_congr rfl (fun c hc => by rw [e1 c (Finset.mem_range.1 hc)])]
      cases hst : f.start with
      | none => simp
      | some i =>
        have hi := hw.start_lt i hst
        rw [Finset.sum_eq_single i]
        · simp only [if_true, catAll_one_right]
          exact mid_reverse hm h1 hw ts n i s hsl
        · intro c _ hc
          rw [if_neg (by simpa using Ne.symm hc), catAll_zero_right]
        · intro h; exact absurd (Finset.mem_range.2 hi) h
    cases hst : f.start with
    | none =>
      rw [accPaths_none hst]
      show _ = (0 : Multiset (PathT W)).map _
      rw [Multiset.map_zero]
      apply Finset.sum_eq_zero
      intro c hc
      have := hf c (Finset.mem_range.1 hc)
      rw [hst] at this
      cases f.finOf c <;> simp [this]
    | some i =>
      simp only [accPaths_some hst]
      rw [pathsFrom_eq_mid, map_sum_range]
      refine Finset.sum_congr rfl fun c hc => ?_
      have := hf c (Finset.mem_range.1 hc)
      rw [hst] at this
      rw [map_rev_catAll rev hm, pathsFrom_zero]
      cases f.finOf c with
      | none => simp
      | some w => simp [this, catAll_singleton, Tr.asPath, PathT.rev]

/-- C17: `reverse` accepts exactly the mirrored triples. -/
theorem C17_reverse (rev : W → V) (hm : ∀ a b, rev (a * b) = rev b * rev a) (h1 : rev 1 = 1) (f : Fst W) (hw : f.WF) :
    ∃ o, f.reverse rev = .ok o ∧ ∀ x y v, o.Accepts x y v ↔ ∃ w, f.Accepts x.reverse y.reverse w ∧ v = rev w := by
  obtain ⟨o, ho, hp⟩ := C17_paths rev hm h1 f hw
  refine ⟨o, ho, fun x y v => ?_⟩
  unfold Accepts
  constructor
  · rintro ⟨n, h⟩
    rw [hp] at h
    cases n with
    | zero => simp at h
    | succ n =>
      rw [delay_one_succ, Multiset.mem_map] at h
      obtain ⟨⟨a, b, w⟩, h2, h3⟩ := h
      simp only [PathT.rev, Prod.mk.injEq] at h3
      obtain ⟨rfl, rfl, rfl⟩ := h3
      exact ⟨w, ⟨n, by simpa using h2⟩, rfl⟩
  · rintro ⟨w, ⟨n, h⟩, rfl⟩
    refine ⟨n + 1, ?_⟩
    rw [hp, delay_one_succ, Multiset.mem_map]
    exact ⟨_, h, by simp [PathT.rev]⟩

/-- C17: the result is well-formed with one more state than the input. -/
theorem C17_structure (rev : W → V) (f : Fst W) (hw : f.WF) :
    ∃ o, f.reverse rev = .ok o ∧ o.WF ∧ o.numStates = f.numStates + 1 ∧ o.AllCounters := by
  obtain ⟨o, ho, hn, hs, t0, ts, f0, fs, hc⟩ := reverse_spec rev f hw.next_lt
  refine ⟨o, ho, ⟨?_, ?_⟩, hn, hc⟩
  · intro i hi
    rw [hs] at hi; cases hi
    omega
  · intro s t ht
    have hsl := lt_of_mem_trsOf ht
    cases s with
    | zero =>
      rw [t0, revFinals] at ht
      obtain ⟨is, h2, h3⟩ := List.mem_flatMap.1 ht
      rw [List.mem_range] at h2
      cases h4 : f.finOf is <;> simp [h4] at h3
      simp [h3]; omega
    | succ q =>
      rw [ts q (by omega), revList] at ht
      obtain ⟨is, h2, h3⟩ := List.mem_flatMap.1 ht
      rw [List.mem_range] at h2
      obtain ⟨t', _, rfl⟩ := List.mem_map.1 h3
      simp [revTr]; omega

end

section flags
variable {W : Type u} {V : Type v} [Zero W] [One W] [Zero V] [One V] [DecidableEq V]

theorem Fst.truthful_setTrs_fold (ts : List (List (Tr V))) (k : Nat) (o : Fst V) (h : o.Truthful)
    (hlen : k + ts.length ≤ o.numStates) (he : ∀ q, k ≤ q → o.trsOf q = []) :
    ((ts.zipIdx k).foldl (fun o (p : List (Tr V) × Nat) => o.setTrs p.2 p.1) o).Truthful := by
  induction ts generalizing k o with
  | nil => exact h
  | cons t ts ih =>
    simp only [List.zipIdx_cons, List.foldl_cons]
    simp only [List.length_cons] at hlen
    refine ih (k + 1) _ (Fst.truthful_setTrs h (by omega) (he k (Nat.le_refl _)) t) (by simp; omega) ?_
    intro q hq
    rw [setTrs_trsOf, if_neg (by omega)]
    exact he q (by omega)

theorem Fst.reverse_props (rev : W → V) (f : Fst W) (hw : ∀ s, ∀ t ∈ f.trsOf s, t.nextstate < f.numStates) :
    ∃ o p, f.reverse rev = .ok o ∧ o.props = (Props.reverse f.props true).or p ∧ ∀ b, p b = true → o.Holds b := by
  have hall : f.states.all (fun st => st.trs.all fun t => t.nextstate < f.numStates) = true := by
    rw [List.all_eq_true]
    intro st hst
    obtain ⟨s, hs⟩ := List.mem_iff_getElem?.1 hst
    rw [List.all_eq_true]
    intro t ht
    simpa using hw s t (by rw [trsOf_eq_of_get hs]; exact ht)
  unfold reverse
  rw [if_pos hall]
  obtain ⟨⟨h1, h2, h3, h4, h5, h6, h7, h8⟩, h9⟩ := foldl_range_induct (fun k (a : Fst V × List (List (Tr V))) =>
      RevInv rev f k a ∧ a.1.Truthful) (revState rev f)
    f.numStates ((((Fst.new : Fst V).addState).addStates f.numStates), List.replicate (f.numStates + 1) [])
    ⟨⟨by simp [Nat.add_comm], by simp, by simp, by simp, allCounters_addStates (allCounters_addStates allCounters_new 1) _,
      by simp, by simp [revFinals], fun q hq => by simp [hq, revList]⟩,
      truthful_addStates (truthful_addStates truthful_new 1) _⟩
    (fun k a hk h => ⟨revState_inv rev f hk h.1, by
      show (if f.start = some k then a.1.setFinal (k + 1) 1 else a.1).Truthful
      split
      · exact truthful_setFinal h.2 (by rw [h.1.num]; omega) _
      · exact h.2⟩)
  simp only
  generalize hr : List.foldl (revState rev f) ((((Fst.new : Fst V).addState).addStates f.numStates),
    List.replicate (f.numStates + 1) []) (List.range f.numStates) = r at *
  have ht := truthful_setStart (Fst.truthful_setTrs_fold r.2 0 r.1 h9 (by omega) (fun q _ => h3 q)) 0
  exact ⟨_, _, rfl, Fst.setPropsMask_all _ _, ht⟩

/-- C51 for `reverse`: the flags of the result are true of it. -/
theorem C17_flags (rev : W → V) (h0 : ∀ w, rev w = 0 ↔ w = 0) (h1 : ∀ w, rev w = 1 ↔ w = 1) (f : Fst W) (hw : f.WF)
    (tf : f.Truthful) : ∃ o, f.reverse rev = .ok o ∧ o.Truthful := by
  obtain ⟨o, ho, hn, hs, t0, ts, f0, fs, -⟩ := reverse_spec rev f hw.next_lt
  obtain ⟨o', p, ho', hp, hb'⟩ := Fst.reverse_props rev f hw.next_lt
  rw [ho] at ho'
  cases ho'
  refine ⟨o, ho, fun b hb => ?_⟩
  rw [hp, Props.or_apply, Bool.or_eq_true] at hb
  rcases hb with hb | hb
  swap
  · exact hb' b hb
  -- membership
  have m0 : ∀ t ∈ o.trsOf 0, ∃ s w, f.finOf s = some w ∧ t = ⟨EPS, EPS, rev w, s + 1⟩ := by
    intro t ht
    rw [t0, revFinals] at ht
    obtain ⟨is, h2, h3⟩ := List.mem_flatMap.1 ht
    cases h4 : f.finOf is <;> simp [h4] at h3
    exact ⟨is, _, h4, h3⟩
  have ms : ∀ q, ∀ t ∈ o.trsOf (q + 1), ∃ s, ∃ t' ∈ f.trsOf s, t'.nextstate = q ∧ t = revTr rev s t' := by
    intro q t ht
    have := lt_of_mem_trsOf ht
    rw [ts q (by omega), revList] at ht
    obtain ⟨is, h2, h3⟩ := List.mem_flatMap.1 ht
    obtain ⟨t', h4, rfl⟩ := List.mem_map.1 h3
    rw [List.mem_filter] at h4
    exact ⟨is, t', h4.1, by simpa using h4.2, rfl⟩
  have mr : ∀ s, ∀ t ∈ f.trsOf s, revTr rev s t ∈ o.trsOf (t.nextstate + 1) := by
    intro s t ht
    rw [ts _ (hw.next_lt s t ht), revList]
    refine List.mem_flatMap.2 ⟨s, List.mem_range.2 (lt_of_mem_trsOf ht), List.mem_map.2 ⟨t, ?_, rfl⟩⟩
    simp [ht]
  have mf : ∀ s w, f.finOf s = some w → (⟨EPS, EPS, rev w, s + 1⟩ : Tr V) ∈ o.trsOf 0 := by
    intro s w hw
    rw [t0, revFinals]
    exact List.mem_flatMap.2 ⟨s, List.mem_range.2 (lt_of_finOf hw), by simp [hw]⟩
  have htr : ∀ w, TrivialW (rev w) ↔ TrivialW w := by intro w; simp [TrivialW, h0, h1]
  -- edges
  have ed : ∀ a b, f.Edge a b → o.Edge (b + 1) (a + 1) := by
    rintro a b ⟨t, ht, rfl⟩
    exact ⟨_, mr a t ht, rfl⟩
  have ed' : ∀ a b, o.Edge (a + 1) b → ∃ c, b = c + 1 ∧ f.Edge c a := by
    rintro a b ⟨t, ht, rfl⟩
    obtain ⟨s, t', h2, h3, rfl⟩ := ms a t ht
    exact ⟨s, rfl, t', h2, h3⟩
  have re : ∀ a b, f.Reach a b → o.Reach (b + 1) (a + 1) := by
    intro a b h
    induction h with
    | refl => exact .refl
    | tail _ e ih => exact .head (ed _ _ e) ih
  have re' : ∀ a b, o.Reach (a + 1) b → ∃ c, b = c + 1 ∧ f.Reach c a := by
    intro a b h
    induction h with
    | refl => exact ⟨a, rfl, .refl⟩
    | tail _ e ih =>
      obtain ⟨c, rfl, h⟩ := ih
      obtain ⟨d, rfl, h'⟩ := ed' _ _ e
      exact ⟨d, rfl, .head h' h⟩
  have e0 : ∀ a b, o.Edge a b → b ≠ 0 := by
    rintro a b ⟨t, ht, rfl⟩
    cases a with
    | zero => obtain ⟨s, w, _, rfl⟩ := m0 t ht; simp
    | succ a => obtain ⟨s, t', _, _, rfl⟩ := ms a t ht; simp [revTr]
  have cs : f.props b = true ∧ (b = .acceptor ∨ b = .notAcceptor ∨ b = .epsilons ∨ b = .iEpsilons ∨ b = .oEpsilons ∨
      b = .unweighted ∨ b = .cyclic ∨ b = .acyclic ∨ b = .weightedCycles ∨ b = .unweightedCycles ∨ b = .weighted) := by
    cases b <;> simp [Props.reverse, Props.keep, Props.orIf_apply, Props.or_apply, Props.and_apply,
      Props.of_apply] at hb <;> simp_all
  obtain ⟨hb, cs⟩ := cs
  have T := tf b hb
  rcases cs with rfl | rfl | rfl | rfl | rfl | rfl | rfl | rfl | rfl | rfl | rfl
  · intro s t ht
    cases s with
    | zero => obtain ⟨s, w, _, rfl⟩ := m0 t ht; rfl
    | succ s => obtain ⟨s', t', h2, _, rfl⟩ := ms s t ht; exact T s' t' h2
  · intro hc
    refine T fun s t ht => ?_
    have := hc _ _ (mr s t ht)
    exact this
  · obtain ⟨s, t, ht, h⟩ := T; exact ⟨_, _, mr s t ht, h⟩
  · obtain ⟨s, t, ht, h⟩ := T; exact ⟨_, _, mr s t ht, h⟩
  · obtain ⟨s, t, ht, h⟩ := T; exact ⟨_, _, mr s t ht, h⟩
  · constructor
    · intro s t ht
      cases s with
      | zero => obtain ⟨s, w, h2, rfl⟩ := m0 t ht; exact (htr w).2 (T.2 s w h2)
      | succ s => obtain ⟨s', t', h2, _, rfl⟩ := ms s t ht; exact (htr _).2 (T.1 s' t' h2)
    · intro s w h2
      have hsl := lt_of_finOf h2
      cases s with
      | zero => rw [f0] at h2; simp at h2
      | succ q =>
        rw [fs q (by omega)] at h2
        split at h2
        · cases h2; exact Or.inr rfl
        · simp at h2
  · obtain ⟨s, hc⟩ := T
    obtain ⟨b, hab, hba⟩ := Relation.TransGen.head'_iff.1 hc
    exact ⟨s + 1, Relation.TransGen.tail' (re _ _ hba) (ed _ _ hab)⟩
  · rintro ⟨s, hc⟩
    cases s with
    | zero =>
      obtain ⟨c, _, hca⟩ := Relation.TransGen.tail'_iff.1 hc
      exact e0 _ _ hca rfl
    | succ q =>
      obtain ⟨b, hab, hba⟩ := Relation.TransGen.head'_iff.1 hc
      obtain ⟨c, rfl, h2⟩ := ed' _ _ hab
      obtain ⟨d, h3, h4⟩ := re' _ _ hba
      have : d = q := by omega
      subst this
      exact T ⟨d, Relation.TransGen.tail' h4 h2⟩
  · obtain ⟨s, t, ht, hn, hr⟩ := T
    refine ⟨_, _, mr s t ht, ?_, re _ _ hr⟩
    exact fun h => hn ((htr _).1 h)
  · rintro ⟨s, t, ht, hn, hr⟩
    cases s with
    | zero =>
      rcases Relation.ReflTransGen.cases_tail hr with h | ⟨c, _, h⟩
      · exact e0 _ _ ⟨t, ht, rfl⟩ h.symm
      · exact e0 _ _ h rfl
    | succ q =>
      obtain ⟨s', t', h2, h3, rfl⟩ := ms q t ht
      obtain ⟨c, h4, h5⟩ := re' s' (q + 1) hr
      have : c = q := by omega
      subst this
      exact T ⟨s', t', h2, fun h => hn ((htr _).2 h), by rw [h3]; exact h5⟩
  · intro hc
    rcases unweighted_or T with ⟨s, t, ht, hn⟩ | ⟨s, w, hw, hn⟩
    · exact hn ((htr _).1 (hc.1 _ _ (mr s t ht)))
    · exact hn ((htr _).1 (hc.1 _ _ (mf s w hw)))

end flags

/-- The hypotheses are met: weights `Nat`, reversal of weights the identity; the reversal of `1:5/2` then `7:7/5*`. -/
example : ∃ o, (exA.concat exB).reverse (V := Nat) id = .ok o ∧ o.accPaths 4 = {([7, 1], [7, 5], 330)} :=
  ⟨_, rfl, by decide⟩

end Verif
