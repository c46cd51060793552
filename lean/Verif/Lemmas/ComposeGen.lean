import Verif.Lemmas.ComposeFilters
import Verif.Props.C38
import Verif.Props.C18
import Mathlib.Data.Set.Finite.Basic
import Mathlib.Data.Finite.Prod
import Mathlib.Order.Interval.Set.Infinite
import Mathlib.Order.Interval.Finset.Nat
import Mathlib.Order.Interval.Set.Fin

/-! # An operation that looks at the pairs of a composition ends, and its result has the paths of the composition -/

namespace Verif
universe u
variable {W : Type u} {FS : Type} [CommMonoidWithZero W] [DecidableEq W] {A B : Fst W} {F : ComposeFilter FS W} {op : TupleOp (CTup FS) W}
  {ok : FS → Bool → Bool → Bool} {Valid : FS → Prop}

/-- The operation yields, on the tuples of states of `A` and `B`, the pairs of transitions that the filter lets through, in some order. -/
structure Realizes (op : TupleOp (CTup FS) W) (A B : Fst W) (F : ComposeFilter FS W) (Valid : FS → Prop) : Prop where
  join : Joinable A B
  start : op.start = .ok (composeStart A B F)
  trs : ∀ t : CTup FS, t.Ok A B Valid → ∃ l, op.trs t = .ok l ∧ (l : Multiset (MTr (CTup FS) W)) = (composeTag A B F t).map (·.1)
  fin : ∀ t : CTup FS, t.Ok A B Valid → op.fin t = .ok (composeFinOf A B t)

section
variable (hF : FilterLaw A B F ok Valid)
include hF

theorem tag_next (hc : Joinable A B) {t : CTup FS} (ht : t.Ok A B Valid) : ∀ x ∈ composeTag A B F t, x.1.next.Ok A B Valid := by
  intro x hx
  obtain ⟨flt, hf, am, bm, ep, f0, SA, SB, mv⟩ := hF.step t.s1 t.s2 t.fs ht.1 ht.2.1 ht.2.2
  unfold composeTag at hx
  rw [hf] at hx
  obtain ⟨p, hp, hq⟩ := (Multiset.mem_filterMap _ _).1 hx
  rw [Option.map_eq_some_iff] at hq
  obtain ⟨fs, hfs, rfl⟩ := hq
  simp only [pairsU, Multiset.mem_add, Multiset.mem_map, Multiset.mem_bind] at hp
  rcases hp with ((⟨b, hb, rfl⟩ | ⟨a, ha, rfl⟩) | ⟨a, ha, b, hb, rfl⟩) | ⟨a, ha, b, hb, rfl⟩
  · exact ⟨ht.1, next_lt' hc.wf2 hb, (mv.afterB fs (mv.onB b hb ▸ hfs)).1⟩
  · exact ⟨next_lt' hc.wf1 ha, ht.2.1, (mv.afterA fs (mv.onA a ha ▸ hfs)).1⟩
  · exact ⟨next_lt' hc.wf1 ha, next_lt' hc.wf2 hb, (mv.afterEps fs (mv.onEps a ha b hb ▸ hfs)).1⟩
  · have hb := Multiset.mem_of_mem_filter hb
    refine ⟨next_lt' hc.wf1 ha, next_lt' hc.wf2 hb, ?_⟩
    have := mv.onMatch a ha b hb
    dsimp only at hfs
    rw [this] at hfs
    injection hfs with hfs
    exact hfs ▸ mv.afterMatch.1

end

section
variable (hc : Realizes op A B F Valid)
include hc

theorem Realizes.trs_ok {t : CTup FS} (ht : t.Ok A B Valid) : op.trs t = .ok (op.machine.trs t) ∧
    (op.machine.trs t : Multiset (MTr (CTup FS) W)) = (composeTag A B F t).map (·.1) := by
  obtain ⟨l, h1, h2⟩ := hc.trs t ht
  have : op.machine.trs t = l := by simp only [TupleOp.machine, h1]
  rw [this]
  exact ⟨h1, h2⟩

theorem Realizes.fin_ok {t : CTup FS} (ht : t.Ok A B Valid) : op.fin t = .ok (op.machine.fin t) ∧ op.machine.fin t = composeFinOf A B t := by
  have : op.machine.fin t = composeFinOf A B t := by simp only [TupleOp.machine, hc.fin t ht]
  exact ⟨by rw [hc.fin t ht, this], this⟩

theorem Realizes.start_eq : op.machine.start = composeStart A B F := by simp only [TupleOp.machine, hc.start]

variable (hF : FilterLaw A B F ok Valid)
include hF

theorem Realizes.next {t : CTup FS} (ht : t.Ok A B Valid) : ∀ a ∈ op.machine.trs t, a.next.Ok A B Valid := by
  intro a ha
  have := (hc.trs_ok ht).2 ▸ Multiset.mem_coe.2 ha
  obtain ⟨x, hx, rfl⟩ := Multiset.mem_map.1 this
  exact tag_next hF hc.join ht x hx

theorem Realizes.start_ok {t : CTup FS} (h : op.machine.start = some t) : t.Ok A B Valid := by
  rw [hc.start_eq] at h
  simp only [composeStart] at h
  cases h1 : A.start with
  | none => simp [h1] at h
  | some i =>
    cases h2 : B.start with
    | none => simp [h1, h2] at h
    | some j =>
      simp only [h1, h2, Option.some.injEq] at h
      subst h
      exact ⟨hc.join.wf1.start_lt _ h1, hc.join.wf2.start_lt _ h2, hF.start.1⟩

theorem Realizes.reach {t : CTup FS} (h : op.machine.Reach t) : t.Ok A B Valid := by
  induction h with
  | start h => exact hc.start_ok hF h
  | step _ ha ih => exact hc.next hF ih _ ha

theorem Realizes.finite (hv : {f | Valid f}.Finite) : {t | op.machine.Reach t}.Finite := by
  have : {t | op.machine.Reach t} ⊆ (fun x : FS × Nat × Nat => (⟨x.1, x.2.1, x.2.2⟩ : CTup FS)) '' ({f | Valid f} ×ˢ (Set.Iio A.numStates ×ˢ Set.Iio B.numStates)) := by
    intro t ht
    obtain ⟨h1, h2, h3⟩ := hc.reach hF ht
    exact ⟨(t.fs, t.s1, t.s2), ⟨h3, h1, h2⟩, rfl⟩
  exact (Set.Finite.image _ (hv.prod ((Set.finite_Iio _).prod (Set.finite_Iio _)))).subset this

/-- The whole of a composition, grouped. -/
theorem Realizes.machine : ∃ part : Nat → Nat → Nat → Multiset (PathT W),
    (∀ N, op.machine.accPaths N = ∑ n ∈ Finset.range (N + 1), ∑ m ∈ Finset.range (N + 1), part N n m) ∧
    (∀ N n m, part N n m ≠ 0 → n ≤ N ∧ m ≤ N ∧ N ≤ n + m) ∧
    ∀ n m, nonzero (∑ N ∈ Finset.range (n + m + 1), part N n m) = nonzero (joinPaths (A.accPaths n) (B.accPaths m)) := by
  cases hs : op.machine.start with
  | none =>
    refine ⟨fun _ _ _ => 0, fun N => by simp [Machine.accPaths, hs], fun _ _ _ h => absurd rfl h, fun n m => ?_⟩
    have : A.accPaths n = 0 ∨ B.accPaths m = 0 := by
      rw [hc.start_eq] at hs
      simp only [composeStart] at hs
      cases h1 : A.start with
      | none => left; simp [Fst.accPaths, h1]
      | some i =>
        cases h2 : B.start with
        | none => right; simp [Fst.accPaths, h2]
        | some j => simp [h1, h2] at hs
    rcases this with h | h <;> simp [h]
  | some t =>
    have ht := hc.start_ok hF hs
    refine ⟨fun N n m => graded op.machine.fin (composeTag A B F) N n m t, fun N => ?_, fun N n m h => ?_, fun n m => ?_⟩
    · have := graded_sum op.machine (P := fun t => t.Ok A B Valid) (fun t ht => hc.next hF ht) (fun t ht => (hc.trs_ok ht).2) tag_le N t ht
      simp only [Machine.accPaths, hs]
      exact this
    · refine ⟨?_, ?_, ?_⟩ <;> by_contra hlt
      · exact h (graded_big tag_le N n m t (by omega))
      · exact h (graded_big tag_le N n m t (by omega))
      · exact h (graded_long (tag_pos hc.join) N n m t (by omega))
    · have hg : ∀ N n m (t : CTup FS), t.Ok A B Valid → graded op.machine.fin (composeTag A B F) N n m t = graded (composeFinOf A B) (composeTag A B F) N n m t := by
        intro N
        induction N with
        | zero => intro n m t ht; simp only [graded, (hc.fin_ok ht).2]
        | succ N ih =>
          intro n m t ht
          simp only [graded]
          refine Multiset.bind_congr fun x hx => ?_
          rw [ih _ _ _ (tag_next hF hc.join ht x hx)]
      have key := compose_blocks hc.join hF _ n m rfl t ht
      have e : ∑ N ∈ Finset.range (n + m + 1), graded op.machine.fin (composeTag A B F) N n m t = gradedAll (composeFinOf A B) (composeTag A B F) n m t :=
        Finset.sum_congr rfl fun N _ => hg N n m t ht
      rw [e, key]
      rw [hc.start_eq] at hs
      simp only [composeStart] at hs
      cases h1 : A.start with
      | none => simp [h1] at hs
      | some i =>
        cases h2 : B.start with
        | none => simp [h1, h2] at hs
        | some j =>
          simp only [h1, h2, Option.some.injEq] at hs
          subst hs
          rw [blocks_all hF.start.2, Fst.accPaths_some h1, Fst.accPaths_some h2]

variable [DecidableEq FS]

/-- The static result. -/
theorem Realizes.lazy (hv : {f | Valid f}.Finite) : ∃ C z, EndsWith (fun n => Lz.compute vecCache (op.withTable BiMap.findId BiMap.findTuple) n ⟨vecCache.empty, BiMap.new⟩) (.ok C, z) ∧
    C.WF ∧ C.AllCounters ∧ ∀ n, C.accPaths n = op.machine.accPaths n := by
  obtain ⟨inv, OL, h0⟩ := C36_table_op op op.machine (by rw [hc.start, hc.start_eq]) (fun t ht => (hc.trs_ok (hc.reach hF ht)).1)
    (fun t ht => (hc.fin_ok (hc.reach hF ht)).1)
  obtain ⟨C, z, h1, h2, h3⟩ := C38_paths vecCache_law OL h0 [] trivial (hc.finite hF hv)
  obtain ⟨C', z', h1', h2', h3', _⟩ := C38_compute vecCache_law OL h0 [] trivial (hc.finite hF hv)
  have e : (Except.ok C, z) = ((Except.ok C' : R (Fst W)), z') := by
    obtain ⟨N, hN⟩ := h1
    obtain ⟨N', hN'⟩ := h1'
    have a := hN (max N N') (le_max_left _ _)
    have b := hN' (max N N') (le_max_right _ _)
    rw [a] at b; injection b
  injection e with e _
  injection e with e
  subst e
  exact ⟨C, z, h1, h2, h3', h3⟩

end
end Verif
