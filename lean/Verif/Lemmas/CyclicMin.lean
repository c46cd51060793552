import Verif.Lemmas.Hopcroft
import Verif.Lemmas.Reverse
import Verif.Props.C12

/-! # The partition of `cyclic_minimize` -/

namespace Verif
set_option linter.unusedSectionVars false
universe u v
variable {W : Type u} {V : Type v}

namespace Fst

/-- The classes of `pre_partition` after `k` states. -/
structure PreInv (f : Fst W) (k : Nat) (a : List (Bool × List Label) × List Nat) : Prop where
  nd : a.1.Nodup
  len : a.2.length = k
  cls : ∀ s, s < k → ∃ c, a.2[s]? = some c ∧ a.1[c]? = some (f.preKey s)
  onto : ∀ c, c < a.1.length → ∃ s, s < k ∧ a.2[s]? = some c

theorem preInv_step {f : Fst W} {k a} (h : PreInv f k a) : PreInv f (k + 1) (f.preStep a k) := by
  obtain ⟨keys, cl⟩ := a
  obtain ⟨h1, h2, h3, h4⟩ := h
  simp only at *
  unfold preStep
  simp only
  split
  · rename_i c hc
    rw [List.idxOf?_eq_some_iff] at hc
    obtain ⟨hlt, hc, -⟩ := hc
    refine ⟨h1, by simp [h2], ?_, ?_⟩
    · intro s hs
      by_cases hsk : s = k
      · subst hsk
        refine ⟨c, by simp [← h2], ?_⟩
        rw [List.getElem?_eq_getElem hlt]; simpa using hc
      · obtain ⟨c', h5, h6⟩ := h3 s (by omega)
        exact ⟨c', by simp only; rw [List.getElem?_append_left (by omega)]; exact h5, h6⟩
    · intro c' hc'
      obtain ⟨s, h5, h6⟩ := h4 c' hc'
      exact ⟨s, by omega, by simp only; rw [List.getElem?_append_left (by omega)]; exact h6⟩
  · rename_i hc
    rw [List.idxOf?_eq_none_iff] at hc
    refine ⟨?_, by simp [h2], ?_, ?_⟩
    · simp only
      rw [List.nodup_append]
      refine ⟨h1, by simp, ?_⟩
      intro x hx y hy
      have : y = f.preKey k := by simpa using hy
      subst this
      exact fun h => hc (h ▸ hx)
    · intro s hs
      by_cases hsk : s = k
      · subst hsk
        exact ⟨keys.length, by simp [← h2], by simp⟩
      · obtain ⟨c', h5, h6⟩ := h3 s (by omega)
        refine ⟨c', by simp only; rw [List.getElem?_append_left (by omega)]; exact h5, ?_⟩
        have := (List.getElem?_eq_some_iff.1 h6).1
        simp only; rw [List.getElem?_append_left this]; exact h6
    · intro c' hc'
      simp only [List.length_append, List.length_cons, List.length_nil] at hc'
      by_cases hcl : c' = keys.length
      · subst hcl
        exact ⟨k, by omega, by simp [← h2]⟩
      · obtain ⟨s, h5, h6⟩ := h4 c' (by omega)
        exact ⟨s, by omega, by simp only; rw [List.getElem?_append_left (by omega)]; exact h6⟩

theorem preClasses_inv (f : Fst W) : PreInv f f.numStates f.preClasses := by
  unfold preClasses
  generalize f.numStates = n
  induction n with
  | zero => exact ⟨by simp, rfl, fun s hs => absurd hs (by omega), fun c hc => by simp at hc⟩
  | succ n ih => rw [List.range_succ, List.foldl_append]; exact preInv_step ih

/-- Adding the elements one after the other. -/
theorem addAll_rep (cl : List Nat) (nc : Nat) (hcl : ∀ c ∈ cl, c < nc) : ∀ (l : List Nat) (k : Nat) (p : Part) (σ : PState),
    Part.Rep p σ → σ.nc = nc → σ.n = cl.length → cl.drop k = l → (∀ e, σ.cls e = if e < k then cl[e]? else none) → (∀ e, σ.marked e = false) →
    ∃ p' σ', (l.zipIdx k).foldlM (fun p (x : Nat × Nat) => p.add x.2 x.1) p = .ok p' ∧ Part.Rep p' σ' ∧ σ'.nc = nc ∧ σ'.n = cl.length ∧
      (∀ e, σ'.cls e = cl[e]?) ∧ ∀ e, σ'.marked e = false := by
  intro l
  induction l with
  | nil =>
    intro k p σ hp h1 h2 h3 h4 h5
    refine ⟨p, σ, rfl, hp, h1, h2, fun e => ?_, h5⟩
    rw [h4]
    split
    · rfl
    · rename_i h
      have : cl.length ≤ k := List.drop_eq_nil_iff.1 h3
      rw [List.getElem?_eq_none (by omega)]
  | cons c l ih =>
    intro k p σ hp h1 h2 h3 h4 h5
    have hk : k < cl.length := by
      by_contra h
      rw [List.drop_eq_nil_of_le (by omega)] at h3; cases h3
    have hck : cl[k]? = some c := by
      have := List.getElem?_drop (xs := cl) (i := k) (j := 0)
      rw [h3] at this; simpa using this.symm
    obtain ⟨p1, g1, g2⟩ := Part.rep_add hp (e := k) (c := c) (by omega) (by rw [h1]; exact hcl c (List.mem_of_getElem? hck)) (by rw [h4]; simp)
    obtain ⟨p', σ', g3, g4⟩ := ih (k + 1) p1 _ g2 h1 h2 (by rw [← List.drop_drop, h3]; rfl) (by
      intro e
      simp only
      by_cases he : e = k
      · subst he; simp [hck]
      · rw [if_neg he, h4]
        by_cases h : e < k
        · rw [if_pos h, if_pos (by omega)]
        · rw [if_neg h, if_neg (by omega)]) h5
    refine ⟨p', σ', ?_, g4⟩
    rw [List.zipIdx_cons, List.foldlM_cons, g1]
    exact g3

/-- `pre_partition`: two states are in the same class if their keys are equal. -/
theorem prePartition_ok (f : Fst W) : ∃ p σ, f.prePartition (Part.new f.numStates) = .ok p ∧ Part.Rep p σ ∧ σ.n = f.numStates ∧
    σ.nc = f.preClasses.1.length ∧ (∀ e, σ.marked e = false) ∧ (∀ e, e < f.numStates → (σ.cls e).isSome = true) ∧
    (∀ x, x < σ.nc → ∃ e, σ.cls e = some x) ∧
    ∀ e e', e < f.numStates → e' < f.numStates → (σ.cls e = σ.cls e' ↔ f.preKey e = f.preKey e') := by
  obtain ⟨h1, h2, h3, h4⟩ := preClasses_inv f
  have hcl : ∀ c ∈ f.preClasses.2, c < f.preClasses.1.length := by
    intro c hc
    obtain ⟨s, hs⟩ := List.mem_iff_getElem?.1 hc
    have hsl := (List.getElem?_eq_some_iff.1 hs).1
    obtain ⟨c', g1, g2⟩ := h3 s (by omega)
    rw [hs] at g1; injection g1 with g1; subst g1
    exact (List.getElem?_eq_some_iff.1 g2).1
  obtain ⟨p, σ, g1, g2, g3, g4, g5, g6⟩ := addAll_rep f.preClasses.2 f.preClasses.1.length hcl f.preClasses.2 0
    ((Part.new f.numStates).allocateClasses f.preClasses.1.length) _ (Part.rep_allocate (Part.rep_new f.numStates) _)
    (by simp [PState.new]) (by simp [PState.new, h2]) rfl (by intro e; simp [PState.new]) (fun _ => rfl)
  refine ⟨p, σ, g1, g2, by rw [g4, h2], g3, g6, ?_, ?_, ?_⟩
  · intro e he
    obtain ⟨c, hc, -⟩ := h3 e he
    rw [g5, hc]; rfl
  · intro x hx
    obtain ⟨s, -, hs⟩ := h4 x (by omega)
    exact ⟨s, by rw [g5, hs]⟩
  · intro e e' he he'
    obtain ⟨c, hc, hk⟩ := h3 e he
    obtain ⟨c', hc', hk'⟩ := h3 e' he'
    rw [g5, g5, hc, hc']
    constructor
    · intro h; injection h with h; subst h
      rw [hk] at hk'; injection hk'
    · intro h
      rw [← h] at hk'
      have hl := (List.getElem?_eq_some_iff.1 hk).1
      rw [(List.getElem?_inj hl h1).1 (hk.trans hk'.symm)]

/-- The step relation of an FST. -/
def Delta (f : Fst W) (e : StateId) (a : Label) (s : StateId) : Prop := ∃ t ∈ f.trsOf e, t.ilabel = a ∧ t.nextstate = s

variable [Zero W] [One W] [DecidableEq W] [Zero V] [One V] [DecidableEq V]

theorem reverse_revOf (rev : W → V) (f : Fst W) (hw : f.WF) :
    ∃ o, f.reverse rev = .ok o ∧ Hop.RevOf f.numStates f.Delta (o.trSort .ilabel) := by
  obtain ⟨o, h1, h2, h3, -, h4, -⟩ := reverse_spec rev f hw.next_lt
  obtain ⟨g1, g2, g3, -⟩ := trSort_spec o .ilabel
  have hmem : ∀ s, s < f.numStates → ∀ t, t ∈ (o.trSort .ilabel).trsOf (s + 1) ↔
      ∃ e, e < f.numStates ∧ ∃ u ∈ f.trsOf e, u.nextstate = s ∧ t = revTr rev e u := by
    intro s hs t
    rw [g1, (sortTrsBy_perm _ _).mem_iff, h4 s hs, revList, List.mem_flatMap]
    simp only [List.mem_range, List.mem_map, List.mem_filter, decide_eq_true_eq]
    constructor
    · rintro ⟨e, he, u, ⟨h5, h6⟩, rfl⟩; exact ⟨e, he, u, h5, h6, rfl⟩
    · rintro ⟨e, he, u, h5, h6, rfl⟩; exact ⟨e, he, u, ⟨h5, h6⟩, rfl⟩
  refine ⟨o, h1, by rw [g3, h2], ?_, ?_, ?_⟩
  · intro s _
    rw [g1, List.pairwise_map]
    refine (List.pairwise_mergeSort (le := SortSide.ilabel.le) (sortSide_trans _) (sortSide_total _) _).imp ?_
    intro a b h
    simpa [SortSide.le, ilabelLe] using h
  · intro s hs t ht
    obtain ⟨e, he, u, h5, h6, rfl⟩ := (hmem s hs t).1 ht
    exact ⟨e, he, rfl, u, h5, rfl, h6⟩
  · rintro e a s ⟨u, h5, rfl, rfl⟩
    have he := lt_of_mem_trsOf h5
    have hs := hw.next_lt e u h5
    exact ⟨he, hs, revTr rev e u, (hmem _ hs _).2 ⟨e, he, u, h5, rfl, rfl⟩, rfl, rfl⟩

/-- What is known of the partition that minimization uses: states of a class have the same keys and step to the same classes; states related
by `E` are in the same class. -/
structure GoodPartition (f : Fst W) (K : Nat → Nat → Prop) (E : Nat → Nat → Prop) (p : Part) (cls : Nat → Nat) : Prop where
  reps : ∃ ρ, Reps p f.numStates cls ρ
  key : ∀ e e', e < f.numStates → e' < f.numStates → cls e = cls e' → K e e'
  step : ∀ e e', e < f.numStates → e' < f.numStates → cls e = cls e' → ∀ t ∈ f.trsOf e', ∃ t' ∈ f.trsOf e, t'.ilabel = t.ilabel ∧
    cls t'.nextstate = cls t.nextstate
  coarse : ∀ e e', e < f.numStates → e' < f.numStates → E e e' → cls e = cls e'

theorem mem_dedupAdj : ∀ (l : List Label) (a : Label), a ∈ dedupAdj l ↔ a ∈ l := by
  intro l
  induction l using dedupAdj.induct with
  | case1 a l ih => intro x; rw [dedupAdj, if_pos rfl, ih]; simp
  | case2 a b l h ih => intro x; rw [dedupAdj, if_neg h, List.mem_cons, ih]; simp
  | case3 l h =>
    intro x
    rw [dedupAdj]
    exact h

/-- `cyclic_minimize` ends for deterministic FSTs. -/
theorem cyclicPartition_ok (rev : W → V) {merge : List (List (Tr V)) → List (Tr V)} (hmg : HeapMerge merge) (f : Fst W) (hw : f.WF)
    (hd : f.Deterministic) (E : Nat → Nat → Prop) (hsym : ∀ e e', E e e' → E e' e)
    (hkey : ∀ e e', e < f.numStates → e' < f.numStates → E e e' → f.preKey e = f.preKey e')
    (hE : ∀ C : Nat → Prop, (∀ s s', s < f.numStates → s' < f.numStates → E s s' → C s → C s') → ∀ a e e' s, e < f.numStates → e' < f.numStates →
      E e e' → f.Delta e a s → C s → ∃ s', f.Delta e' a s' ∧ C s') (k : Nat) (hk : f.numStates < k) :
    ∃ p cls, f.cyclicPartition rev merge k = some (.ok p) ∧ GoodPartition f (fun e e' => f.preKey e = f.preKey e') E p cls := by
  obtain ⟨o, ho, hr⟩ := reverse_revOf rev f hw
  obtain ⟨p0, σ0, h1, h2, h3, h4, h5, h6, h7, h8⟩ := prePartition_ok f
  have hok := PState.ok_of_rep h2
  have hle := Hop.nc_le h2 h7
  obtain ⟨p, σ, g1, g2, g3, g4, g5⟩ := Hop.loop_ok (K := fun e e' => f.preKey e = f.preKey e') hr hmg (by
      rintro e a s s' ⟨t, ht, h9, rfl⟩ ⟨t', ht', h10, rfl⟩
      rw [List.inj_on_of_nodup_map (hd e) ht ht' (h9.trans h10.symm)]) hsym hE k (σ := σ0) (q := (List.range f.preClasses.1.length).reverse) h2 h5
    ⟨h3, h6, h7, fun c hc => by simp at hc; omega, fun e e' he he' hee => (h8 e e' he he').2 (hkey e e' he he' hee),
      fun e e' he he' h => (h8 e e' he he').1 h⟩
    (by
      rintro a e e' s s' he he' hc ⟨t, ht, -, rfl⟩ -
      have hs := hw.next_lt e t ht
      obtain ⟨c, hc⟩ := Option.isSome_iff_exists.1 (h6 _ hs)
      refine Or.inr (Or.inl ⟨c, ?_, Or.inl hc⟩)
      have := (hok.el _ _ hc).2.1
      simp; omega)
    (by simp only [List.length_reverse, List.length_range]; omega)
  have hcls : ∀ e, e < f.numStates → σ.cls e = some ((σ.cls e).getD 0) := by
    intro e he
    obtain ⟨c, hc⟩ := Option.isSome_iff_exists.1 (g4.all e he)
    rw [hc]; rfl
  have heq : ∀ e e', e < f.numStates → e' < f.numStates → (σ.cls e).getD 0 = (σ.cls e').getD 0 → σ.cls e = σ.cls e' := by
    intro e e' he he' h; rw [hcls e he, hcls e' he', h]
  refine ⟨p, fun e => (σ.cls e).getD 0, ?_, ?_, ?_, ?_, ?_⟩
  · simp only [cyclicPartition, ho]
    rw [hr.num, Nat.add_sub_cancel, h1]
    exact g1
  · obtain ⟨ρ, hρ⟩ := reps_of_rep g2 g3 (fun e he => g4.all e (by rw [← g4.num]; exact he))
    exact ⟨ρ, by rw [g4.num] at hρ; exact hρ⟩
  · exact fun e e' he he' h => g4.key e e' he he' (heq e e' he he' h)
  · intro e e' he he' h t ht
    have hce := heq e e' he he' h
    have hk := g4.key e e' he he' hce
    have hl : t.ilabel ∈ (f.trsOf e).map (·.ilabel) := by
      rw [← mem_dedupAdj]
      have : dedupAdj ((f.trsOf e).map (·.ilabel)) = dedupAdj ((f.trsOf e').map (·.ilabel)) := congrArg Prod.snd hk
      rw [this, mem_dedupAdj]
      exact List.mem_map_of_mem ht
    obtain ⟨t', ht', hl'⟩ := List.mem_map.1 hl
    refine ⟨t', ht', hl', ?_⟩
    rcases g5 t.ilabel e e' t'.nextstate t.nextstate he he' hce ⟨t', ht', hl', rfl⟩ ⟨t, ht, rfl, rfl⟩ with h9 | ⟨c, hc, -⟩ | h9
    · simp only [h9]
    · cases hc
    · exact absurd Iff.rfl h9
  · intro e e' he he' hee
    simp only [g4.coarse e e' he he' hee]

end Fst
end Verif
