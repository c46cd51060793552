import Verif.Lemmas.SpBack
import Verif.Lemmas.DecHist
import Verif.Props.C32

/-!
# C34: `shortest_path` with `n = 1`

The weights have the path property (the sum of two weights is one of them), distribute from the right, and going around a cycle never
adds anything. `a + b = a` says that `a` is at least as good as `b`.
-/

namespace Verif
universe u
set_option linter.unusedSectionVars false
open Fst Dfs Sd

section
variable {W : Type u} [AddCommMonoid W] [Monoid W] [RightDistribClass W] [DecidableEq W]

/-- The result has exactly one accepting path and no state that is not on it, the path is an accepting path of `f`, and no accepting path of `f` is better. -/
def IsBestPath (f o : Fst W) : Prop :=
  ∃ (L : Nat) (p : PathT W), p ∈ f.accPaths L ∧ o.numStates = L + 1 ∧ (∀ n, o.accPaths n = if n = L then {p} else 0) ∧
    ∀ n, ∀ p' ∈ f.accPaths n, p.2.2 + p'.2.2 = p.2.2

theorem walk_of_path {f : Fst W} {n : Nat} {s : StateId} {p : PathT W} (h : p ∈ f.pathsFrom n s) :
    ∃ q c w, (q, c) ∈ f.walks (fun _ => true) n s ∧ f.finOf q = some w ∧ p.2.2 = c * w := by
  induction n generalizing s p with
  | zero =>
    rw [pathsFrom_zero] at h
    cases hf : f.finOf s with
    | none => rw [hf] at h; simp at h
    | some w =>
      rw [hf] at h
      obtain rfl := Multiset.mem_singleton.1 h
      exact ⟨s, 1, w, (f.mem_walks_zero _).2 ⟨rfl, rfl⟩, hf, by simp⟩
  | succ n ih =>
    rw [pathsFrom_succ, Multiset.mem_bind] at h
    obtain ⟨t, ht, h⟩ := h
    obtain ⟨p', hp', rfl⟩ := Multiset.mem_map.1 h
    obtain ⟨q, c, w, h1, h2, h3⟩ := ih hp'
    refine ⟨q, t.weight * c, w, ?_, h2, ?_⟩
    · rw [mem_walks_succ]
      exact ⟨t, by simpa using ht, rfl, c, h1, rfl⟩
    · simp [PathT.cat, Tr.asPath, h3, mul_assoc]

/-- C34: the result, when the FST has a start state. If every accepting path has weight zero (or there is none) the result is empty. -/
theorem C34_shortest_path {sf : SemiringFlags} {f : Fst W} (hz : ∀ a : W, 0 * a = 0) (hpath : ∀ a b : W, a + b = a ∨ a + b = b)
    (hsf : sf.path = true ∧ sf.right = true) (hw : f.WF) (ht : f.Truthful) (hcyc : f.CyclesAbsorbed (fun _ => true)) :
    ∃ o, EndsWith (f.shortestPath sf) (.ok o) ∧ o.WF ∧ o.Truthful ∧
      ((o.numStates = 0 ∧ ∀ n, ∀ p ∈ f.accPaths n, p.2.2 = 0) ∨ IsBestPath f o) := by
  have hempty : ∀ (par : Nat → Option (Nat × Nat)) k, f.backtrace none par (k + 1) =
      some (.ok ((Fst.new : Fst W).setPropsMask (spProps (Fst.new : Fst W).props) Props.allMask)) := fun _ _ => rfl
  have hnew : ((Fst.new : Fst W).setPropsMask (spProps (Fst.new : Fst W).props) Props.allMask).Truthful := by
    have hedge : ∀ a b, ¬ (Fst.new : Fst W).Edge a b := by
      rintro a b ⟨t, ht, -⟩; simp at ht
    have hac : ∀ s, ¬ (Fst.new : Fst W).OnCycle s := by
      intro s hs
      obtain ⟨c, hc, -⟩ := (Relation.TransGen.head'_iff).1 hs
      exact hedge _ _ hc
    refine Sp.spProps_truthful truthful_new ?_ ?_ ?_ ?_
    · rintro ⟨s, hs⟩; exact hac s hs
    · rintro ⟨s, -, hs⟩; exact hac s hs
    · intro s hs; simp at hs
    · rintro ⟨s, t, ht, -⟩; simp at ht
  have hnwf : ((Fst.new : Fst W).setPropsMask (spProps (Fst.new : Fst W).props) Props.allMask).WF :=
    ⟨fun i hi => (nomatch hi), fun s t ht => absurd ht (by simp)⟩
  cases hs : f.start with
  | none =>
    refine ⟨_, ⟨1, fun n hn => ?_⟩, hnwf, hnew, .inl ⟨rfl, fun n p hp => ?_⟩⟩
    · obtain ⟨n, rfl⟩ : ∃ m, n = m + 1 := ⟨n - 1, by omega⟩
      unfold Fst.shortestPath Fst.singleShortest
      simp only [hs]
      exact hempty _ _
    · rw [accPaths_none hs] at hp; simp at hp
  | some src =>
    have hsrc := hw.start_lt src hs
    obtain ⟨q0, hq0, L, hL⟩ := AutoQ.new_lawful hw ht sf (fun _ => true)
    obtain ⟨q1, hq1, hr1, -⟩ := L.clear hL
    obtain ⟨q2, hq2, hr2, -⟩ := L.enqueue (s := src) hr1 ⟨hsrc, fun v hv => by cases hv⟩
    rw [Set.empty_union] at hr2
    obtain ⟨hI0, hF0⟩ := Sp.inv_init (f := f) hpath hz hsrc
    obtain ⟨fuel, hfuel⟩ : ∃ k, k = Sp.rank f src (upd (fun _ => (0 : W)) src 1) (L.size q2) + 1 := ⟨_, rfl⟩
    obtain ⟨st, e1, hI, hF⟩ := Sp.loop_spec L hpath hw hsrc hcyc fuel
      ⟨q2, upd (fun _ => 0) src 1, upd (fun _ => false) src true, fun _ => none, 0, none⟩ none {src} (by simp only; omega) hr2 hI0 hF0
    have hrun : ∀ n, fuel ≤ n → f.singleShortest sf n = some (.ok (st.fparent, st.parent)) := by
      intro n hn
      unfold Fst.singleShortest
      simp only [hs, hq0, hq1, hsf.1, hsf.2, Bool.true_eq_false, or_self, if_false, hsrc, if_true, hq2]
      rw [Sp.loop_mono _ _ _ _ _ _ e1 hn]
    have henq : ∀ x, st.enq x = false := by
      intro x
      cases h : st.enq x with
      | false => rfl
      | true => exact absurd (hI.wait x h) (Set.notMem_empty x)
    have hclosed : ∀ x, ∀ t ∈ f.trsOf x, Abs (st.dist t.nextstate) (st.dist x * t.weight) :=
      fun x t ht => hI.closed x t (henq x) ht (fun h => h)
    have hid : ∀ a : W, a + a = a := fun a => (hpath a a).elim id id
    have hwalk : ∀ n x c, (x, c) ∈ f.walks (fun _ => true) n src → Abs (st.dist x) c := by
      intro n
      induction n with
      | zero =>
        intro x c hx
        obtain ⟨rfl, rfl⟩ := (f.mem_walks_zero _).1 hx
        rw [hI.one]; exact Abs.refl hid 1
      | succ n ih =>
        intro x c hx
        obtain ⟨y, a, hy, t, htm, -, rfl, rfl⟩ := (f.mem_walks_succ' _).1 hx
        exact (hclosed y t htm).trans ((ih y a hy).mul _)
    have hbest : ∀ n, ∀ p ∈ f.accPaths n, Abs st.fdist p.2.2 := by
      intro n p hp
      rw [accPaths_some hs] at hp
      obtain ⟨x, c, w, h1, h2, h3⟩ := walk_of_path hp
      rw [h3]
      exact (hF.best x w (fun h => h) h2).trans ((hwalk n x c h1).mul w)
    rcases hF.from_ with ⟨h0, hp⟩ | ⟨p, w, hp, hfin, habs, hreach⟩
    · refine ⟨_, ⟨fuel + 1, fun n hn => ?_⟩, hnwf, hnew, .inl ⟨rfl, fun n p hp => ?_⟩⟩
      · obtain ⟨n, rfl⟩ : ∃ m, n = m + 1 := ⟨n - 1, by omega⟩
        unfold Fst.shortestPath
        simp only [hrun (n + 1) (by omega), hp]
        exact hempty _ _
      · have := hbest n p hp
        rw [h0] at this
        exact eq_zero_of_abs this
    · obtain ⟨ts, hback, hcat⟩ := Sp.Tree.back (f := f) (d := st.dist) hI.one (fun x s pos h => by
        obtain ⟨t, h1, h2, h3⟩ := hI.edge x s pos h
        refine ⟨t, h1, h2, ?_⟩
        refine h3.antisymm ?_
        rw [← h2]
        exact hclosed s t (List.mem_of_getElem? h1)) (hI.tree p hreach)
      have hfd : st.fdist = st.dist p * w := (hF.best p w (fun h => h) hfin).antisymm habs
      obtain ⟨o, ho, hto, hnum, hwo, hacc⟩ := Sp.backtrace_spec hfin hback (ts.length + 2) (by omega)
      refine ⟨o, ⟨fuel + (ts.length + 2), fun n hn => ?_⟩, hwo, hto, .inr ⟨ts.length, Sp.cats ts ([], [], w), ?_, hnum, hacc, ?_⟩⟩
      · unfold Fst.shortestPath
        simp only [hrun n (by omega), hp]
        obtain ⟨o', ho', hto', -⟩ := Sp.backtrace_spec hfin hback n (by omega)
        have : o' = o := by
          unfold Fst.backtrace at ho ho'
          cases hb : f.backLoop ((some p).getD 0) st.parent (ts.length + 2) Fst.new none none (some p) with
          | none => rw [hb] at ho; cases ho
          | some x =>
            rw [hb] at ho
            rw [Sp.backLoop_mono _ n _ _ _ _ _ hb (by omega)] at ho'
            rw [ho] at ho'
            cases ho'; rfl
        rw [ho', this]
      · rw [accPaths_some hs]
        refine hback.mem 0 _ ?_
        simp [pathsFrom_zero, hfin]
      · intro n p' hp'
        rw [hcat, ← hfd]
        exact hbest n p' hp'

/-- C34: weights that do not claim the path property and right distributivity are refused. -/
theorem C34_refused {sf : SemiringFlags} {f : Fst W} (hw : f.WF) (ht : f.Truthful) (hsf : sf.path = false ∨ sf.right = false)
    (hs : f.start ≠ none) (n : Nat) : f.shortestPath sf n = some (.error .err) := by
  obtain ⟨i, hi⟩ := Option.ne_none_iff_exists'.1 hs
  obtain ⟨q0, hq0, L, hL⟩ := AutoQ.new_lawful hw ht sf (fun _ => true)
  obtain ⟨q1, hq1, hr1, -⟩ := L.clear hL
  unfold Fst.shortestPath Fst.singleShortest
  simp only [hi, hq0, hq1]
  rw [if_pos hsf]

end

/-- C34 for tropical weights that are not negative: a path of least weight. -/
theorem C34_tropical {K : Type u} [LinearOrder K] [AddCommMonoid K] [IsOrderedAddMonoid K] {f : Fst (TW K)} (hw : f.WF) (ht : f.Truthful)
    (hpos : ∀ s, ∀ t ∈ f.trsOf s, t.weight.Nonneg) :
    ∃ o, EndsWith (f.shortestPath (TW.ops (K := K)).flags) (.ok o) ∧ o.WF ∧ o.Truthful ∧
      ((o.numStates = 0 ∧ ∀ n, ∀ p ∈ f.accPaths n, p.2.2 = 0) ∨ IsBestPath f o) := by
  refine C34_shortest_path (fun a => zero_mul a) ?_ ⟨rfl, rfl⟩ hw ht (TW.cyclesAbsorbed hpos)
  intro a b
  change TW.plus a b = a ∨ TW.plus a b = b
  cases a <;> cases b <;> simp [TW.plus_fin, le_total]

/-- The FST of C32 with two final states. -/
def exFin : Fst (TW Nat) := (exTropCyc.setFinal 2 (.fin 3)).setFinal 1 (.fin 9)

/-- 0 → 1 → 2, weight 4 + 1 + 3. -/
example : (match exFin.shortestPath (TW.ops (K := Nat)).flags 20 with
    | some (.ok o) => decide (o.start = some 2 ∧ o.states.map (·.fin) = [some (.fin 3), none, none] ∧
        o.states.map (·.trs) = [[], [⟨1, 1, .fin 1, 0⟩], [⟨1, 1, .fin 4, 1⟩]])
    | _ => false) = true := by
  decide +kernel

example : ∃ o, EndsWith (exFin.shortestPath (TW.ops (K := Nat)).flags) (.ok o) ∧ o.WF ∧ o.Truthful ∧ IsBestPath exFin o := by
  have h : ∀ s, ∀ t ∈ exFin.trsOf s, t.weight ≠ TW.negInf := by
    intro s
    by_cases hs : s < 3
    · have : ∀ s < 3, ∀ t ∈ exFin.trsOf s, t.weight ≠ TW.negInf := by decide +kernel
      exact this s hs
    · rw [trsOf_eq, List.getElem?_eq_none (show exFin.states.length ≤ s from Nat.le_of_not_lt hs)]
      intro t ht; cases ht
  obtain ⟨o, h1, h2, h3, h4⟩ := C34_tropical (f := exFin) (Fst.wf_of_wfB (by decide)) (by
    unfold exFin exTropCyc
    refine truthful_setFinal (truthful_setFinal (truthful_addTr (truthful_addTr (truthful_addTr (truthful_addTr (truthful_addTr
      (truthful_setStart (truthful_addStates truthful_new 3) 0) ?_ _) ?_ _) ?_ _) ?_ _) ?_ _) ?_ _) ?_ _ <;> decide) (by
    intro s t ht
    have := h s t ht
    generalize t.weight = w at this
    cases w with
    | negInf => exact absurd rfl this
    | fin x => exact Nat.zero_le x
    | inf => trivial)
  refine ⟨o, h1, h2, h3, h4.resolve_left ?_⟩
  rintro ⟨-, h5⟩
  have := h5 1 ([1], [1], .fin 10) (by decide +kernel)
  cases this

end Verif
