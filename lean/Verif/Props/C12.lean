import Verif.Lemmas.TrOrder
import Verif.Lemmas.Total
import Verif.Props.C10

/-! # C12 tr_sort, C13 tr_sum and tr_unique -/

namespace Verif
set_option linter.unusedSectionVars false
universe u
variable {W : Type u}

/-- The label a comparator looks at. -/
def Fst.SortSide.label : Fst.SortSide → Tr W → Label
  | .ilabel, t => t.ilabel
  | .olabel, t => t.olabel

namespace Fst

theorem trSort_spec (f : Fst W) (c : SortSide) : (∀ s, (f.trSort c).trsOf s = sortTrsBy c.le (f.trsOf s)) ∧
    (∀ s, (f.trSort c).finOf s = f.finOf s) ∧ (f.trSort c).numStates = f.numStates ∧
    (f.trSort c).start = f.start ∧ (f.AllCounters → (f.trSort c).AllCounters) := by
  obtain ⟨a, b, d, e, g⟩ := forStatesList_spec (sortTrs_rewrites c.le) f
  exact ⟨a, b, d, e, fun h => allCounters_setPropsMask (g h) _ _⟩

theorem trSum_spec [Add W] (f : Fst W) : (∀ s, f.trSum.trsOf s = sumList (f.trsOf s)) ∧
    (∀ s, f.trSum.finOf s = f.finOf s) ∧ f.trSum.numStates = f.numStates ∧
    f.trSum.start = f.start ∧ (f.AllCounters → f.trSum.AllCounters) := by
  obtain ⟨a, b, d, e, g⟩ := forStatesList_spec (sumTrs_rewrites (W := W)) f
  exact ⟨a, b, d, e, fun h => allCounters_setPropsMask (g h) _ _⟩

theorem trUnique_spec [DecidableEq W] (f : Fst W) :
    (∀ s, f.trUnique.trsOf s = dedupTrs (sortTrsBy trLe (f.trsOf s))) ∧
    (∀ s, f.trUnique.finOf s = f.finOf s) ∧ f.trUnique.numStates = f.numStates ∧
    f.trUnique.start = f.start ∧ (f.AllCounters → f.trUnique.AllCounters) := by
  obtain ⟨a, b, d, e, g⟩ := forStatesList_spec (uniqueTrs_rewrites (W := W)) f
  exact ⟨a, b, d, e, fun h => allCounters_setPropsMask (g h) _ _⟩

/-- Reordering transitions keeps the paths. -/
theorem accPaths_perm [Mul W] {f g : Fst W} (hs : g.start = f.start) (ht : ∀ s, (g.trsOf s).Perm (f.trsOf s))
    (hf : ∀ s, g.finOf s = f.finOf s) (n) : g.accPaths n = f.accPaths n := by
  have : ∀ s, g.pathsFrom n s = f.pathsFrom n s := by
    intro s
    have := pathsFrom_sim (f := f) (g := g) id id id (fun _ => True)
      (fun s _ => by rw [List.map_id]; exact Multiset.coe_eq_coe.2 (ht s))
      (fun _ _ _ _ => ⟨trivial, rfl⟩) (fun _ _ _ _ _ => rfl)
      (fun s _ => by simp [pathsFrom_zero, hf]) n s trivial
    simpa using this
  simp [accPaths, hs, this]

/-- Reordering transitions keeps the flags of `arcsort_properties`. -/
theorem holds_perm [Zero W] [One W] {f g : Fst W} (hn : g.numStates = f.numStates) (hs : g.start = f.start)
    (ht : ∀ s, (g.trsOf s).Perm (f.trsOf s)) (hf : ∀ s, g.finOf s = f.finOf s) (b)
    (hb : Props.arcsortMask b = true) : g.Holds b ↔ f.Holds b := by
  have hm : ∀ s t, t ∈ g.trsOf s ↔ t ∈ f.trsOf s := fun s t => (ht s).mem_iff
  have e : g.Edge = f.Edge := by funext a b; simp [Edge, hm]
  have e1 : g.Reach = f.Reach := by simp [Reach, e]
  have e2 : g.OnCycle = f.OnCycle := by funext a; simp [OnCycle, e]
  have e3 : g.IsFinal = f.IsFinal := by funext a; simp [IsFinal, hf]
  have e4 : g.Accessible = f.Accessible := by funext a; simp [Accessible, hs, e1]
  have e5 : g.Coaccessible = f.Coaccessible := by funext a; simp [Coaccessible, e3, e1]
  have e6 : ∀ (sel : Tr W → Nat) s, ((g.trsOf s).map sel).Nodup ↔ ((f.trsOf s).map sel).Nodup :=
    fun sel s => ((ht s).map sel).nodup_iff
  have e7 : g.IsLinear ↔ f.IsLinear := by
    unfold IsLinear
    rw [hn, hs, e3]
    refine imp_congr_right fun _ => and_congr_right fun _ => forall_congr' fun s => imp_congr_right fun _ => ?_
    have hx : ∀ t, g.trsOf s = [t] ↔ f.trsOf s = [t] := by
      intro t
      constructor
      · intro h; have := ht s; rw [h] at this; exact List.singleton_perm.1 this |>.symm
      · intro h; have := ht s; rw [h] at this; exact List.perm_singleton.1 this
    have hy : g.trsOf s = [] ↔ f.trsOf s = [] := by
      rw [← List.length_eq_zero_iff, ← List.length_eq_zero_iff, (ht s).length_eq]
    simp only [hx, hy]
  cases b <;> simp [Props.arcsortMask, Props.of_apply] at hb <;>
    simp only [Holds, Unweighted, HasWeightedCycle, e7, hn, hs, hm, hf, e1, e2, e4, e5, e6]

end Fst

/-- C12: each state's transitions are permuted into ascending label order, and transitions with equal labels keep their
order; everything else stays. -/
theorem C12_tr_sort (f : Fst W) (c : Fst.SortSide) :
    (f.trSort c).numStates = f.numStates ∧ (f.trSort c).start = f.start ∧
    (∀ s, (f.trSort c).finOf s = f.finOf s) ∧
    (∀ s, ((f.trSort c).trsOf s).Perm (f.trsOf s)) ∧
    (∀ s, ((f.trSort c).trsOf s).Pairwise fun a b => c.label a ≤ c.label b) ∧
    (∀ s l, ((f.trSort c).trsOf s).filter (fun t => c.label t = l) = (f.trsOf s).filter (fun t => c.label t = l)) ∧
    (f.WF → (f.trSort c).WF) ∧ (f.AllCounters → (f.trSort c).AllCounters) := by
  obtain ⟨h1, h2, h3, h4, h5⟩ := Fst.trSort_spec f c
  have hp : ∀ s, ((f.trSort c).trsOf s).Perm (f.trsOf s) := fun s => by rw [h1]; exact Fst.sortTrsBy_perm _ _
  refine ⟨h3, h4, h2, hp, ?_, ?_, ?_, h5⟩
  · intro s; rw [h1]
    refine (List.pairwise_mergeSort (le := c.le) (sortSide_trans c) (sortSide_total c) (f.trsOf s)).imp ?_
    intro a b h
    cases c <;> simpa [Fst.SortSide.le, Fst.SortSide.label, ilabelLe, olabelLe] using h
  · intro s l; rw [h1]
    have := sortTrsBy_stable c.le (sortSide_trans c) (sortSide_total c) (f.trsOf s)
    by_cases hne : ∃ t ∈ f.trsOf s, c.label t = l
    · obtain ⟨x, -, hx⟩ := hne
      have e : ∀ L : List (Tr W), L.filter (fun t => decide (c.label t = l)) = L.filter (fun t => c.le x t && c.le t x) := by
        intro L
        apply List.filter_congr
        intro t _
        rw [← hx, Bool.eq_iff_iff, decide_eq_true_iff]
        cases c <;> simp only [Fst.SortSide.le, Fst.SortSide.label, ilabelLe, olabelLe, Bool.and_eq_true,
          decide_eq_true_eq] <;> omega
      rw [e, e, this]
    · push Not at hne
      rw [List.filter_eq_nil_iff.2, List.filter_eq_nil_iff.2]
      · intro t ht; simpa using hne t ht
      · intro t ht; simpa using hne t ((Fst.sortTrsBy_perm _ _).mem_iff.1 ht)
  · intro hw
    exact ⟨fun i hi => by rw [h3]; exact hw.start_lt i (h4 ▸ hi),
      fun s t ht => by rw [h3]; exact hw.next_lt s t ((hp s).mem_iff.1 ht)⟩

/-- C12: the multiset of accepting paths is unchanged. -/
theorem C12_paths [Mul W] (f : Fst W) (c : Fst.SortSide) (n : Nat) : (f.trSort c).accPaths n = f.accPaths n := by
  obtain ⟨h3, h4, h2, hp, -⟩ := C12_tr_sort f c
  exact Fst.accPaths_perm h4 hp h2 n

/-- C12/C51: the flags stay truthful. -/
theorem C12_flags [Zero W] [One W] (f : Fst W) (c : Fst.SortSide) (h : f.Truthful) : (f.trSort c).Truthful := by
  intro b hb
  obtain ⟨h3, h4, h2, hp, hsort, -⟩ := C12_tr_sort f c
  have hpr : (f.trSort c).props = c.props f.props := Fst.setPropsMask_all _ _
  rw [hpr] at hb
  have hm : ∀ b, Props.arcsortMask b = true → f.props b = true → (f.trSort c).Holds b := fun b h1 hb =>
    (Fst.holds_perm h3 h4 hp h2 b h1).2 (h b hb)
  have hacc : f.props .acceptor = true → ∀ s, ∀ t ∈ (f.trSort c).trsOf s, t.ilabel = t.olabel := fun ha =>
    hm .acceptor (by decide) ha
  have hs1 : ∀ s, (((f.trSort c).trsOf s).map c.label).Pairwise (· ≤ ·) := by
    intro s; rw [List.pairwise_map]; exact hsort s
  have heq : f.props .acceptor = true → ∀ s, ((f.trSort c).trsOf s).map (·.ilabel) = ((f.trSort c).trsOf s).map (·.olabel) :=
    fun ha s => List.map_congr_left (hacc ha s)
  cases c <;>
  · simp only [Fst.SortSide.props, Props.setIf_apply, Props.has_apply, Props.set_apply, Props.and_apply] at hb
    by_cases ha : f.props .acceptor = true
    · rw [ha] at hb
      simp only [if_true, Bool.or_eq_true, decide_eq_true_eq, Bool.and_eq_true] at hb
      rcases hb with (⟨h1, h2⟩ | rfl) | rfl
      · exact hm b h2 h1
      · exact hs1
      · intro s
        first
          | (rw [← heq ha]; exact hs1 s)
          | (rw [heq ha]; exact hs1 s)
    · rw [Bool.not_eq_true] at ha
      rw [ha] at hb
      simp only [Bool.false_eq_true, if_false, Bool.or_eq_true, decide_eq_true_eq, Bool.and_eq_true] at hb
      rcases hb with ⟨h1, h2⟩ | rfl
      · exact hm b h2 h1
      · exact hs1

/-- C13: after `tr_sum` no two transitions of a state agree on labels and target; the triples are those of the input; and
for every triple the transition weight is the ⊕-sum of the input weights of that triple. -/
theorem C13_tr_sum [AddCommMonoid W] (f : Fst W) :
    f.trSum.numStates = f.numStates ∧ f.trSum.start = f.start ∧ (∀ s, f.trSum.finOf s = f.finOf s) ∧
    (∀ s, ((f.trSum.trsOf s).map fun t => (t.ilabel, t.olabel, t.nextstate)).Nodup) ∧
    (∀ s k, k ∈ (f.trSum.trsOf s).map (fun t => (t.ilabel, t.olabel, t.nextstate)) ↔
      k ∈ (f.trsOf s).map fun t => (t.ilabel, t.olabel, t.nextstate)) ∧
    (∀ s, ∀ t ∈ f.trSum.trsOf s, t.weight =
      (((f.trsOf s).filter fun u => u.ilabel = t.ilabel ∧ u.olabel = t.olabel ∧ u.nextstate = t.nextstate).map
        fun u => u.weight).sum) ∧
    (f.WF → f.trSum.WF) ∧ (f.AllCounters → f.trSum.AllCounters) := by
  obtain ⟨h1, h2, h3, h4, h5⟩ := Fst.trSum_spec f
  have hk : ∀ s k, k ∈ (f.trSum.trsOf s).map Tr.key ↔ k ∈ (f.trsOf s).map Tr.key := by
    intro s k; rw [h1]; exact Fst.sumList_keys _ k
  refine ⟨h3, h4, h2, fun s => by rw [h1]; exact Fst.sumList_nodup _, hk, ?_, ?_, h5⟩
  · intro s t ht
    rw [h1] at ht
    have hn := Fst.sumList_nodup (f.trsOf s)
    have ht' := Fst.sumList_total (M := W) (fun k w => if k = t.key then w else 0)
      (by intro k a b; by_cases h : k = t.key <;> simp [h]) (f.trsOf s)
    have hfil : ∀ L : List (Tr W), (L.map fun u => if u.key = t.key then u.weight else 0).sum =
        ((L.filter fun u => u.ilabel = t.ilabel ∧ u.olabel = t.olabel ∧ u.nextstate = t.nextstate).map
          fun u => u.weight).sum := by
      intro L
      induction L with
      | nil => rfl
      | cons a L ih =>
        have hd : (a.key = t.key) ↔ (a.ilabel = t.ilabel ∧ a.olabel = t.olabel ∧ a.nextstate = t.nextstate) := by
          simp [Tr.key]
        by_cases h : a.key = t.key
        · have h' := hd.1 h
          rw [List.map_cons, List.sum_cons, if_pos h, ih, List.filter_cons_of_pos (by simpa using h'), List.map_cons,
            List.sum_cons]
        · have h' := fun x => h (hd.2 x)
          rw [List.map_cons, List.sum_cons, if_neg h, ih, List.filter_cons_of_neg (by simpa using h'), zero_add]
    rw [← hfil, ← ht']
    clear ht' hfil h1
    generalize Fst.sumList (f.trsOf s) = L at ht hn ⊢
    induction L with
    | nil => simp at ht
    | cons a L ih =>
      simp only [List.map_cons, List.nodup_cons] at hn
      rw [List.map_cons, List.sum_cons]
      rcases List.mem_cons.1 ht with h | h
      · subst h
        rw [if_pos rfl]
        have : (L.map fun u => if u.key = t.key then u.weight else 0).sum = 0 := by
          apply List.sum_eq_zero
          intro x hx
          obtain ⟨u, hu, rfl⟩ := List.mem_map.1 hx
          rw [if_neg]
          intro e; exact hn.1 (e ▸ List.mem_map_of_mem hu)
        rw [this, add_zero]
      · rw [if_neg, zero_add]
        · exact ih h hn.2
        · intro e; exact hn.1 (e ▸ List.mem_map_of_mem h)
  · intro hw
    refine ⟨fun i hi => by rw [h3]; exact hw.start_lt i (h4 ▸ hi), fun s t ht => ?_⟩
    rw [h3]
    obtain ⟨u, hu, e⟩ := List.mem_map.1 ((hk s _).1 (List.mem_map_of_mem ht))
    simp only [Tr.key, Prod.mk.injEq] at e
    rw [← e.2.2]; exact hw.next_lt s u hu

/-- C13: `tr_sum` keeps, for every pair of strings and every path length, the total weight. -/
theorem C13_tr_sum_language [Semiring W] (f : Fst W) (n : Nat) (x y : List Label) :
    f.trSum.weightOf n x y = f.weightOf n x y := by
  obtain ⟨h1, h2, h3, h4, -⟩ := Fst.trSum_spec f
  rw [Fst.weightOf_eq_total, Fst.weightOf_eq_total]
  have key : ∀ n s F, total (f.trSum.pathsFrom n s) F = total (f.pathsFrom n s) F := by
    intro n
    induction n with
    | zero => intro s F; simp [Fst.pathsFrom_zero, h2]
    | succ n ih =>
      intro s F
      rw [Fst.total_succ, Fst.total_succ, h1]
      simp only [ih]
      exact Fst.sumList_total (fun k w => w * total (f.pathsFrom n k.2.2)
        (fun x y => F (strip k.1 ++ x) (strip k.2.1 ++ y))) (fun k a b => add_mul _ _ _) (f.trsOf s)
  unfold Fst.accPaths
  rw [h4]
  cases f.start with
  | none => rfl
  | some i => exact key n i _

/-- C13/C51: flags after `tr_sum`. -/
theorem C13_tr_sum_flags [AddCommMonoid W] [One W] (f : Fst W) (h : f.Truthful) : f.trSum.Truthful := by
  obtain ⟨h3, h4, h2, hnd, hk, -⟩ := C13_tr_sum f
  have hmem : ∀ s, ∀ t ∈ f.trSum.trsOf s, ∃ u ∈ f.trsOf s, u.ilabel = t.ilabel ∧ u.olabel = t.olabel ∧
      u.nextstate = t.nextstate := by
    intro s t ht
    obtain ⟨u, hu, e⟩ := List.mem_map.1 ((hk s _).1 (List.mem_map_of_mem ht))
    simp only [Prod.mk.injEq] at e
    exact ⟨u, hu, e⟩
  have hmem' : ∀ s, ∀ t ∈ f.trsOf s, ∃ u ∈ f.trSum.trsOf s, u.nextstate = t.nextstate := by
    intro s t ht
    obtain ⟨u, hu, e⟩ := List.mem_map.1 ((hk s _).2 (List.mem_map_of_mem ht))
    simp only [Prod.mk.injEq] at e
    exact ⟨u, hu, e.2.2⟩
  have e : f.trSum.Edge = f.Edge := by
    funext a b; apply propext
    constructor
    · rintro ⟨t, ht, rfl⟩; obtain ⟨u, hu, e⟩ := hmem a t ht; exact ⟨u, hu, e.2.2⟩
    · rintro ⟨t, ht, rfl⟩; obtain ⟨u, hu, e⟩ := hmem' a t ht; exact ⟨u, hu, e⟩
  have e1 : f.trSum.Reach = f.Reach := by simp [Fst.Reach, e]
  have e2 : f.trSum.OnCycle = f.OnCycle := by funext a; simp [Fst.OnCycle, e]
  have e3 : f.trSum.IsFinal = f.IsFinal := by funext a; simp [Fst.IsFinal, h2]
  have e4 : f.trSum.Accessible = f.Accessible := by funext a; simp [Fst.Accessible, h4, e1]
  have e5 : f.trSum.Coaccessible = f.Coaccessible := by funext a; simp [Fst.Coaccessible, e3, e1]
  have hsub : ∀ (sel : Nat × Nat × Nat → Nat) s, ((f.trsOf s).map fun t => sel (t.ilabel, t.olabel, t.nextstate)).Nodup →
      ((f.trSum.trsOf s).map fun t => sel (t.ilabel, t.olabel, t.nextstate)).Nodup := by
    intro sel s hn
    have hsp := (hnd s).subperm (fun k hk' => (hk s k).1 hk')
    obtain ⟨l, hl1, hl2⟩ := hsp
    have e1 := hl1.map sel
    have e2 := hl2.map sel
    rw [List.map_map] at e1 e2
    exact e1.nodup_iff.1 (List.Nodup.sublist e2 hn)
  intro b hb
  have hp : f.trSum.props = if f.trSum.numStates = 0 then
      (((f.props.and Props.arcsortMask).and Props.deleteArcsMask).and Props.weightInvariantMask).or Props.nullMask
      else ((f.props.and Props.arcsortMask).and Props.deleteArcsMask).and Props.weightInvariantMask :=
    Fst.setPropsMask_all _ _
  have hmain : (((f.props.and Props.arcsortMask).and Props.deleteArcsMask).and Props.weightInvariantMask) b = true →
      f.trSum.Holds b := by
    intro hb
    simp only [Props.and_apply, Bool.and_eq_true] at hb
    have hf := h b hb.1.1.1
    cases b <;> simp [Props.deleteArcsMask, Props.weightInvariantMask, Props.arcsortMask, Props.of_apply] at hb <;>
      simp only [Fst.Holds, e2, e4, e5, h3, h4] at hf ⊢
    · intro s t ht; obtain ⟨u, hu, a, b, -⟩ := hmem s t ht; rw [← a, ← b]; exact hf s u hu
    · intro s; exact hsub (·.1) s (hf s)
    · intro s; exact hsub (·.2.1) s (hf s)
    · rintro ⟨s, t, ht, a', b'⟩; obtain ⟨u, hu, a, b, -⟩ := hmem s t ht
      exact hf ⟨s, u, hu, a.trans a', b.trans b'⟩
    · rintro ⟨s, t, ht, a'⟩; obtain ⟨u, hu, a, b, -⟩ := hmem s t ht
      exact hf ⟨s, u, hu, a.trans a'⟩
    · rintro ⟨s, t, ht, a'⟩; obtain ⟨u, hu, a, b, -⟩ := hmem s t ht
      exact hf ⟨s, u, hu, b.trans a'⟩
    · exact hf
    · exact hf
    · intro s t ht; obtain ⟨u, hu, -, -, c⟩ := hmem s t ht; rw [← c]; exact hf s u hu
    · exact hf
    · exact hf
  rw [hp] at hb
  split at hb
  · rename_i h0
    rw [Props.or_apply, Bool.or_eq_true] at hb
    rcases hb with hb | hb
    · exact hmain hb
    · exact Fst.holds_null h0 b hb
  · exact hmain hb

/-- C13: `tr_unique` keeps exactly the same set of transitions at every state; it only removes further copies. -/
theorem C13_tr_unique [DecidableEq W] (f : Fst W) :
    f.trUnique.numStates = f.numStates ∧ f.trUnique.start = f.start ∧ (∀ s, f.trUnique.finOf s = f.finOf s) ∧
    (∀ s t, t ∈ f.trUnique.trsOf s ↔ t ∈ f.trsOf s) ∧
    (∀ s t, (f.trUnique.trsOf s).count t ≤ (f.trsOf s).count t) ∧
    (f.WF → f.trUnique.WF) ∧ (f.AllCounters → f.trUnique.AllCounters) := by
  obtain ⟨h1, h2, h3, h4, h5⟩ := Fst.trUnique_spec f
  have hm : ∀ s t, t ∈ f.trUnique.trsOf s ↔ t ∈ f.trsOf s := by
    intro s t; rw [h1, Fst.mem_dedupTrs]; exact (Fst.sortTrsBy_perm _ _).mem_iff
  refine ⟨h3, h4, h2, hm, ?_, ?_, h5⟩
  · intro s t; rw [h1]
    exact ((Fst.dedupTrs_sublist _).count_le t).trans ((Fst.sortTrsBy_perm trLe (f.trsOf s)).count_eq t).le
  · intro hw
    exact ⟨fun i hi => by rw [h3]; exact hw.start_lt i (h4 ▸ hi),
      fun s t ht => by rw [h3]; exact hw.next_lt s t ((hm s t).1 ht)⟩

/-- C13: `tr_unique` accepts the same string pairs with the same path weights. -/
theorem C13_tr_unique_accepts [Mul W] [DecidableEq W] (f : Fst W) (x y : List Label) (w : W) :
    f.trUnique.Accepts x y w ↔ f.Accepts x y w := by
  obtain ⟨h3, h4, h2, hm, -⟩ := C13_tr_unique f
  have key : ∀ n s p, p ∈ f.trUnique.pathsFrom n s ↔ p ∈ f.pathsFrom n s := by
    intro n
    induction n with
    | zero => intro s p; simp [Fst.pathsFrom_zero, h2]
    | succ n ih =>
      intro s p
      simp only [Fst.pathsFrom_succ, Multiset.mem_bind, Multiset.mem_coe, hm, Multiset.mem_map, ih]
  unfold Fst.Accepts Fst.accPaths
  rw [h4]
  cases f.start with
  | none => rfl
  | some i => simp only [key]

theorem sum_eq_of_mem_iff [AddCommMonoid W] (hid : ∀ a : W, a + a = a) {α : Type*} (g : α → W) (l l' : List α)
    (h : ∀ a, a ∈ l ↔ a ∈ l') : (l.map g).sum = (l'.map g).sum := by
  classical
  have key : ∀ l : List α, (l.map g).sum = (l.dedup.map g).sum := by
    intro l
    induction l with
    | nil => rfl
    | cons a l ih =>
      rw [List.map_cons, List.sum_cons, ih]
      by_cases ha : a ∈ l
      · rw [List.dedup_cons_of_mem ha]
        have hm : a ∈ l.dedup := List.mem_dedup.2 ha
        obtain ⟨l1, l2, e⟩ := List.append_of_mem hm
        rw [e, List.map_append, List.map_cons, List.sum_append, List.sum_cons, add_left_comm, ← add_assoc (g a),
          hid]
      · rw [List.dedup_cons_of_notMem ha, List.map_cons, List.sum_cons]
  rw [key l, key l']
  apply List.Perm.sum_eq
  apply List.Perm.map
  apply (List.perm_ext_iff_of_nodup (List.nodup_dedup _) (List.nodup_dedup _)).2
  intro a; rw [List.mem_dedup, List.mem_dedup, h]

/-- C13: when ⊕ is idempotent (tropical, boolean, min/max weights), `tr_unique` keeps the weight of every string pair. -/
theorem C13_tr_unique_language [Semiring W] [DecidableEq W] (hid : ∀ a : W, a + a = a) (f : Fst W) (n : Nat)
    (x y : List Label) : f.trUnique.weightOf n x y = f.weightOf n x y := by
  obtain ⟨h3, h4, h2, hm, -⟩ := C13_tr_unique f
  rw [Fst.weightOf_eq_total, Fst.weightOf_eq_total]
  have key : ∀ n s F, total (f.trUnique.pathsFrom n s) F = total (f.pathsFrom n s) F := by
    intro n
    induction n with
    | zero => intro s F; simp [Fst.pathsFrom_zero, h2]
    | succ n ih =>
      intro s F
      rw [Fst.total_succ, Fst.total_succ]
      simp only [ih]
      exact sum_eq_of_mem_iff hid _ _ _ (hm s)
  unfold Fst.accPaths
  rw [h4]
  cases f.start with
  | none => rfl
  | some i => exact key n i _

/-- C13/C51: flags after `tr_unique`. -/
theorem C13_tr_unique_flags [Zero W] [One W] [DecidableEq W] (f : Fst W) (h : f.Truthful) : f.trUnique.Truthful := by
  obtain ⟨h1, h2, h3, h4, h5⟩ := Fst.trUnique_spec f
  intro b hb
  -- compare with the FST whose transitions are only sorted
  let g : Fst W := (List.range f.numStates).foldl (fun f s => f.sortTrs s trLe) f
  obtain ⟨g1, g2, g3, g4, -⟩ := Fst.forStatesList_spec (Fst.sortTrs_rewrites (W := W) trLe) f
  have hgp : ∀ b, Props.arcsortMask b = true → (g.Holds b ↔ f.Holds b) :=
    Fst.holds_perm g3 g4 (fun s => by rw [g1]; exact Fst.sortTrsBy_perm _ _) g2
  have hsub := Fst.sub_id (f := g) (g := f.trUnique) (h4.trans g4.symm)
    (fun s => by rw [h1, g1]; exact Fst.dedupTrs_sublist _) (fun s => by rw [h2, g2])
  have hmain : ((f.props.and Props.arcsortMask).and Props.deleteArcsMask) b = true → f.trUnique.Holds b := by
    intro hb
    simp only [Props.and_apply, Bool.and_eq_true] at hb
    exact hsub.holds_id (h3.trans g3.symm) b hb.2 ((hgp b hb.1.2).2 (h b hb.1.1))
  have hp : f.trUnique.props = if f.trUnique.numStates = 0 then
      ((f.props.and Props.arcsortMask).and Props.deleteArcsMask).or Props.nullMask
      else (f.props.and Props.arcsortMask).and Props.deleteArcsMask := Fst.setPropsMask_all _ _
  rw [hp] at hb
  split at hb
  · rename_i h0
    rw [Props.or_apply, Bool.or_eq_true] at hb
    rcases hb with hb | hb
    · exact hmain hb
    · exact Fst.holds_null h0 b hb
  · exact hmain hb

/-- One state with three self-loops; the first and the third are equal. -/
def exTriple : Fst Nat := ((Fst.new.addState.setStart 0).setFinal 0 1
  |>.addTr 0 ⟨1, 1, 2, 0⟩ |>.addTr 0 ⟨1, 1, 3, 0⟩ |>.addTr 0 ⟨1, 1, 2, 0⟩)

theorem exTriple_sort : sortTrsBy trLe (exTriple.trsOf 0) = exTriple.trsOf 0 :=
  List.mergeSort_of_pairwise (by decide)

/-- Defect: `tr_unique` is documented to keep a single instance of each transition, but it only removes *adjacent* copies
after a sort that ignores weights, so copies can survive. -/
theorem C13_tr_unique_not_unique : ¬ ∀ f : Fst Nat, ∀ s, (f.trUnique.trsOf s).Nodup := by
  intro h
  have := h exTriple 0
  rw [(Fst.trUnique_spec exTriple).1, exTriple_sort] at this
  exact absurd this (by decide)

/-- When no state has two transitions with equal labels and target but different weights, the copies are adjacent, and the
result has no duplicates. -/
theorem C13_tr_unique_nodup_partial [DecidableEq W] (f : Fst W) (s : StateId)
    (h : ∀ t ∈ f.trsOf s, ∀ u ∈ f.trsOf s, t.ilabel = u.ilabel → t.olabel = u.olabel → t.nextstate = u.nextstate → t = u) :
    (f.trUnique.trsOf s).Nodup := by
  rw [(Fst.trUnique_spec f).1]
  have hs := List.pairwise_mergeSort (le := trLe) trLe_trans trLe_total (f.trsOf s)
  change (sortTrsBy trLe (f.trsOf s)).Pairwise _ at hs
  have hk : ∀ t ∈ sortTrsBy trLe (f.trsOf s), ∀ u ∈ sortTrsBy trLe (f.trsOf s), t.key = u.key → t = u := by
    intro t ht u hu e
    simp only [Tr.key, Prod.mk.injEq] at e
    exact h t ((Fst.sortTrsBy_perm _ _).mem_iff.1 ht) u ((Fst.sortTrsBy_perm _ _).mem_iff.1 hu) e.1 e.2.1 e.2.2
  have key : ∀ (ts : List (Tr W)) (p : Tr W), (p :: ts).Pairwise (fun a b => trLe a b = true) →
      (∀ t ∈ p :: ts, ∀ u ∈ p :: ts, t.key = u.key → t = u) → (dedupAux p ts).Nodup := by
    intro ts
    induction ts with
    | nil => intro p _ _; simp [dedupAux]
    | cons a ts ih =>
      intro p hp hq
      simp only [dedupAux]
      have hp' := hp
      rw [List.pairwise_cons] at hp
      obtain ⟨p1, p2⟩ := hp
      split
      · rename_i e
        subst e
        exact ih a p2 (fun t ht u hu => hq t (List.mem_cons_of_mem _ ht) u (List.mem_cons_of_mem _ hu))
      · rename_i e
        rw [List.nodup_cons]
        refine ⟨?_, ih a p2 (fun t ht u hu => hq t (List.mem_cons_of_mem _ ht) u (List.mem_cons_of_mem _ hu))⟩
        intro hm
        rw [Fst.mem_dedupAux] at hm
        rcases hm with hm | hm
        · exact e hm.symm
        · have l1 := p1 a (by simp)
          have l2 := (List.pairwise_cons.1 p2).1 p hm
          exact e (hq a (by simp) p (by simp) (key_eq_of_trLe l2 l1))
  cases hl : sortTrsBy trLe (f.trsOf s) with
  | nil => simp [dedupTrs]
  | cons p ts => rw [hl] at hs hk; exact key ts p hs hk

/-- The hypothesis of the previous theorem is met by a state with a real duplicate. -/
example : ∀ t ∈ ([⟨1, 1, 2, 0⟩, ⟨3, 1, 2, 0⟩, ⟨1, 1, 2, 0⟩] : List (Tr Nat)),
    ∀ u ∈ ([⟨1, 1, 2, 0⟩, ⟨3, 1, 2, 0⟩, ⟨1, 1, 2, 0⟩] : List (Tr Nat)),
    t.ilabel = u.ilabel → t.olabel = u.olabel → t.nextstate = u.nextstate → t = u := by decide

/-- `tr_sum` really merges on the example: 2 + 3 + 2. -/
example : exTriple.trSum.trsOf 0 = [⟨1, 1, 7, 0⟩] := by
  rw [(Fst.trSum_spec exTriple).1, Fst.sumList, exTriple_sort]; decide
example : exTriple.weightOf 1 [1] [1] = 7 ∧ exTriple.Truthful := by
  refine ⟨by decide, ?_⟩
  unfold exTriple
  refine Fst.truthful_addTr (Fst.truthful_addTr (Fst.truthful_addTr (Fst.truthful_setFinal (Fst.truthful_setStart
    (Fst.truthful_addStates Fst.truthful_new 1) 0) ?_ 1) ?_ _) ?_ _) ?_ _ <;> decide

end Verif
