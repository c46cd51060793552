import Verif.Lemmas.DetFinite
import Verif.Lemmas.DetWeights
import Verif.Props.C38
import Mathlib.Data.Rat.Floor
import Mathlib.Algebra.Order.Field.Rat

/-!
# C42: determinize preserves weights and is deterministic

The lists of states behind the states of the result come out of a hash map. Every theorem holds for all orders `ord` the hash maps
may have, a different one each time. ε is an ordinary label here, as in the code.
-/

namespace Verif
universe u v
variable {W : Type u} {S : Type v}

/-- What `determinize` is called on: an acceptor, known to be one, whose transition weights are `good`; finitely many subsets. -/
structure DetInput [Zero W] [One W] (f : Fst W) (good : W → Prop) : Prop where
  wf : f.WF
  flag : f.props .acceptor = true
  acceptor : f.Holds .acceptor
  weights : ∀ s, ∀ tr ∈ f.trsOf s, good tr.weight

section
variable [Zero W] [One W] [Mul W] [DecidableEq W] [Semiring S] {f : Fst W} {o : DetOps W} {val : W → S} {good : W → Prop}
  {ord : DTup W → Label → List (DElt W) → List (DElt W)}

theorem det_no_error (L : DetLaw o val good) (T : DetTotal o good) (ho : Orders ord) (hi : DetInput f good) {t : DTup W}
    (h : (detMachine f o ord).Reach t) : (∃ as, detTrs f o ord t = .ok as) ∧ ∃ w, detFin f o t = .ok w := by
  have hg := det_reach_good L ho hi.wf hi.weights h
  refine ⟨detTrs_ok L ho hi.wf hi.weights T hg, ?_⟩
  obtain ⟨w, hw⟩ := detFinSum_ok (f := f) T.plus (acc := 0) (fun e he => (hg e he).1)
  unfold detFin
  rw [hw]
  by_cases h0 : w = 0 <;> simp [h0]

/-- `compute` on the machine of the determinization. -/
theorem det_static (hl : o.leftSemiring = true) (hflag : f.props .acceptor = true)
    (hok : ∀ t, (detMachine f o ord).Reach t → (∃ as, detTrs f o ord t = .ok as) ∧ ∃ w, detFin f o t = .ok w)
    (hfin : {t | (detMachine f o ord).Reach t}.Finite) (distinct : Bool) :
    ∃ F, EndsWith (determinize f o ord distinct) (.ok F) ∧ F.WF ∧ F.AllCounters ∧ F.props = Props.determinize f.props false distinct ∧
      ∃ nm, (detMachine f o ord).Presents nm F ∧ (detMachine f o ord).InSearchOrder nm := by
  obtain ⟨F, z', ⟨N, hN⟩, h2, h3, _, nm, h5, h6⟩ := C38_present mapCache_law BiMap.law BiMap.findTuple_eq (detOp f o ord) (detMachine f o ord) rfl
    (fun t ht => by
      obtain ⟨as, h⟩ := (hok t ht).1
      show detTrs f o ord t = _
      simp only [TupleOp.machine, detOp, h])
    (fun t ht => by
      obtain ⟨w, h⟩ := (hok t ht).2
      show detFin f o t = _
      simp only [TupleOp.machine, detOp, h]) BiMap.ok_new (fun s => by simp [BiMap.tup, BiMap.new]) hfin
  refine ⟨F.setProps (Props.determinize f.props false distinct), ⟨N, fun n hn => ?_⟩, ⟨h2.1, h2.2⟩, h3, rfl, nm, ⟨h5.1, h5.2, h5.3, h5.4, h5.5, h5.6⟩, h6⟩
  have := hN n hn
  unfold determinize determinizeFsa
  rw [if_neg (by simp [hl]), if_neg (by simp [Props.has, hflag])]
  simp only [this, Option.map_some]

/-- C42: for any order of the hash maps, when finitely many subsets arise, `determinize` ends with an FST that has at most one
transition for each label at each state (in the order of labels), and gives each pair of strings the same total weight as the
input, already for the paths of each length. -/
theorem C42_determinize (L : DetLaw o val good) (T : DetTotal o good) (hl : o.leftSemiring = true) (ho : Orders ord) (hi : DetInput f good)
    (hfin : {t | (detMachine f o ord).Reach t}.Finite) (distinct : Bool) :
    ∃ F, EndsWith (determinize f o ord distinct) (.ok F) ∧ F.WF ∧ F.AllCounters ∧ (∀ s, s < F.numStates → F.Accessible s) ∧
      (∀ s, ((F.trsOf s).map (·.ilabel)).Pairwise (· < ·)) ∧ (∀ s, ∀ tr ∈ F.trsOf s, tr.ilabel = tr.olabel) ∧
      ∀ n x y, sumVal val (F.accPaths n) x y = sumVal val (f.accPaths n) x y := by
  have hok := fun t => det_no_error (t := t) L T ho hi
  obtain ⟨F, h1, h2, h3, _, nm, h5, _⟩ := det_static hl hi.flag hok hfin distinct
  have htr : ∀ t, (detMachine f o ord).Reach t → DetTrsOk f good t ((detMachine f o ord).trs t) := by
    intro t ht
    obtain ⟨as, h⟩ := (hok t ht).1
    have : (detMachine f o ord).trs t = as := by simp only [TupleOp.machine, detOp, h]
    rw [this]
    exact (detTrs_spec L ho hi.wf hi.weights h (det_reach_good L ho hi.wf hi.weights ht)).1
  refine ⟨F, h1, h2, h3, h5.accessible, ?_, ?_, fun n x y => ?_⟩
  · intro s
    by_cases hs : s < F.numStates
    · obtain ⟨t, ht⟩ := (h5.states s).1 hs
      have hf2 := h5.trs s t ht
      have : (F.trsOf s).map (·.ilabel) = ((detMachine f o ord).trs t).map (·.ilabel) := by
        revert hf2
        generalize F.trsOf s = l1
        generalize (detMachine f o ord).trs t = l2
        intro hf2
        induction hf2 with
        | nil => rfl
        | cons hd _ ih => rw [List.map_cons, List.map_cons, ih, hd.1]
      rw [this]
      exact (htr t ((h5.tuples t).2 ⟨s, ht⟩)).sorted
    · have : F.trsOf s = [] := by
        unfold Fst.trsOf
        rw [List.getElem?_eq_none (by simpa [Fst.numStates] using hs)]
      rw [this]; exact .nil
  · intro s tr h
    obtain ⟨t, a, _, hr, ha, hn⟩ := h5.trs_of s tr h
    rw [hn.1, hn.2.1, (htr t hr).acceptor a ha]
  · rw [h5.accPaths, det_weights L ho hi.wf hi.weights hi.acceptor hok]

/-- `determinize` ends only if there are finitely many subsets. -/
theorem det_ends_finite (hl : o.leftSemiring = true) (hflag : f.props .acceptor = true)
    (hok : ∀ t, (detMachine f o ord).Reach t → (∃ as, detTrs f o ord t = .ok as) ∧ ∃ w, detFin f o t = .ok w)
    (distinct : Bool) {n : Nat} (h : determinize f o ord distinct n ≠ none) : {t | (detMachine f o ord).Reach t}.Finite := by
  obtain ⟨inv, OL, h0⟩ := C36_table_op (detOp f o ord) (detMachine f o ord) rfl
    (fun t ht => by
      obtain ⟨as, h⟩ := (hok t ht).1
      show detTrs f o ord t = _
      simp only [TupleOp.machine, detOp, h])
    (fun t ht => by
      obtain ⟨w, h⟩ := (hok t ht).2
      show detFin f o t = _
      simp only [TupleOp.machine, detOp, h])
  have hne : ∀ m, Lz.compute mapCache ((detOp f o ord).withTable BiMap.findId BiMap.findTuple) m ⟨mapCache.empty, BiMap.new⟩ = none →
      determinize f o ord distinct m = none := by
    intro m hm
    unfold determinize determinizeFsa
    rw [if_neg (by simp [hl]), if_neg (by simp [Props.has, hflag])]
    simp only [hm, Option.map_none]
  exact (C38_ends mapCache_law OL h0 [] trivial).1 ⟨n, fun hc => h (hne n hc)⟩

/-- C42, partial correctness: whenever `determinize` returns at all, it returns such an FST. -/
theorem C42_returns (L : DetLaw o val good) (T : DetTotal o good) (hl : o.leftSemiring = true) (ho : Orders ord) (hi : DetInput f good)
    (distinct : Bool) {n : Nat} {r : R (Fst W)} (h : determinize f o ord distinct n = some r) :
    ∃ F, r = .ok F ∧ F.WF ∧ (∀ s, ((F.trsOf s).map (·.ilabel)).Pairwise (· < ·)) ∧
      ∀ n x y, sumVal val (F.accPaths n) x y = sumVal val (f.accPaths n) x y := by
  have hok := fun t => det_no_error (t := t) L T ho hi
  have hfin := det_ends_finite hl hi.flag hok distinct (by rw [h]; simp)
  obtain ⟨F, ⟨N, hN⟩, h2, _, _, h4, _, h6⟩ := C42_determinize L T hl ho hi hfin distinct
  refine ⟨F, ?_, h2, h4, h6⟩
  have hmono : ∀ m, determinize f o ord distinct m = some r → determinize f o ord distinct (m + 1) = some r := by
    intro m hm
    unfold determinize determinizeFsa at hm ⊢
    rw [if_neg (by simp [hl]), if_neg (by simp [Props.has, hi.flag])] at hm ⊢
    cases hc : Lz.compute mapCache ((detOp f o ord).withTable BiMap.findId BiMap.findTuple) m ⟨mapCache.empty, BiMap.new⟩ with
    | none => rw [hc] at hm; cases hm
    | some x =>
      rw [compute_more _ _ hc]
      rw [hc] at hm
      exact hm
  have : ∀ k, determinize f o ord distinct (n + k) = some r := by
    intro k
    induction k with
    | zero => exact h
    | succ k ih => exact hmono _ ih
  have h1 := hN (n + N) (by omega)
  rw [this N] at h1
  injection h1

end

section
variable [Semiring W] [DecidableEq W] {f : Fst W} {o : DetOps W} {good : W → Prop} {ord : DTup W → Label → List (DElt W) → List (DElt W)}

omit [DecidableEq W] in
theorem sumVal_id (f : Fst W) (n x y) : sumVal id (f.accPaths n) x y = f.weightOf n x y := rfl

/-- C42 for acceptors without cycles: `determinize` ends, for any weights with division. -/
theorem C42_acyclic (L : DetLaw o (id : W → W) good) (T : DetTotal o good) (hl : o.leftSemiring = true) (ho : Orders ord) (hi : DetInput f good)
    (hac : f.Holds .acyclic) (distinct : Bool) :
    ∃ F, EndsWith (determinize f o ord distinct) (.ok F) ∧ F.WF ∧ (∀ s, ((F.trsOf s).map (·.ilabel)).Nodup) ∧
      ∀ n x y, F.weightOf n x y = f.weightOf n x y := by
  obtain ⟨F, h1, h2, _, _, h4, _, h6⟩ := C42_determinize L T hl ho hi (det_finite_acyclic L ho hi.wf hi.weights hac) distinct
  exact ⟨F, h1, h2, fun s => (h4 s).imp (fun h => Nat.ne_of_lt h), h6⟩

/-- C42 for weights of which finitely many are good, in particular for acceptors without weights: `determinize` ends. -/
theorem C42_finitely_many (L : DetLaw o (id : W → W) good) (T : DetTotal o good) (hl : o.leftSemiring = true) (ho : Orders ord) (hi : DetInput f good)
    (hg : {w | good w}.Finite) (distinct : Bool) :
    ∃ F, EndsWith (determinize f o ord distinct) (.ok F) ∧ F.WF ∧ (∀ s, ((F.trsOf s).map (·.ilabel)).Nodup) ∧
      ∀ n x y, F.weightOf n x y = f.weightOf n x y := by
  obtain ⟨F, h1, h2, _, _, h4, _, h6⟩ := C42_determinize L T hl ho hi (det_finite_good L ho hi.wf hi.weights hg) distinct
  exact ⟨F, h1, h2, fun s => (h4 s).imp (fun h => Nat.ne_of_lt h), h6⟩

end

/-! ### The weights of the library -/

/-- C42, tropical weights, quantization included: when all transition weights are finite multiples of `delta` and there are no
cycles, `determinize` ends and preserves all weights. Final weights may be anything. -/
theorem C42_tropical {K : Type} [Field K] [LinearOrder K] [IsStrictOrderedRing K] [FloorRing K] {delta : K} (hd : delta ≠ 0) {f : Fst (TW K)}
    {ord : DTup (TW K) → Label → List (DElt (TW K)) → List (DElt (TW K))} (ho : Orders ord)
    (hi : DetInput f (FinIn (AddSubgroup.zmultiples delta))) (hac : f.Holds .acyclic) (distinct : Bool) :
    ∃ F, EndsWith (determinize f (tropDet (quantize delta)) ord distinct) (.ok F) ∧ F.WF ∧ (∀ s, ((F.trsOf s).map (·.ilabel)).Nodup) ∧
      ∀ n x y, F.weightOf n x y = f.weightOf n x y :=
  C42_acyclic (tropDet_grid hd).1 (tropDet_grid hd).2 rfl ho hi hac distinct

/-- C42, tropical weights: an acceptor whose transitions all have weight one, cycles or not, is determinized by a subset construction
that ends. -/
theorem C42_tropical_unweighted {K : Type} [Field K] [LinearOrder K] [IsStrictOrderedRing K] [FloorRing K] {delta : K} {f : Fst (TW K)}
    {ord : DTup (TW K) → Label → List (DElt (TW K)) → List (DElt (TW K))} (ho : Orders ord)
    (hi : DetInput f (fun w => w = 1)) (distinct : Bool) :
    ∃ F, EndsWith (determinize f (tropDet (quantize delta)) ord distinct) (.ok F) ∧ F.WF ∧ (∀ s, ((F.trsOf s).map (·.ilabel)).Nodup) ∧
      ∀ n x y, F.weightOf n x y = f.weightOf n x y := by
  have hq : ∀ x ∈ (⊥ : AddSubgroup K), quantize delta x = x := by
    intro x hx
    rw [AddSubgroup.mem_bot] at hx
    subst hx
    have : ⌊(0 : K) + 1 / 2⌋ = 0 := by
      rw [Int.floor_eq_iff]
      constructor
      · simp
      · norm_num
    simp only [quantize, zero_div, this]
    simp
  obtain ⟨L, T⟩ := tropDet_law (quantize delta) (⊥ : AddSubgroup K) hq
  refine C42_finitely_many L T rfl ho ⟨hi.wf, hi.flag, hi.acceptor, fun s tr h => ⟨0, AddSubgroup.zero_mem _, hi.weights s tr h⟩⟩ ?_ distinct
  refine Set.Finite.subset (Set.finite_singleton (1 : TW K)) ?_
  rintro w ⟨x, hx, rfl⟩
  rw [AddSubgroup.mem_bot] at hx
  subst hx
  rfl

open Classical in
/-- C42, log weights, quantization idealised away. -/
theorem C42_log {f : Fst LW} {ord : DTup LW → Label → List (DElt LW) → List (DElt LW)} (ho : Orders ord)
    (hi : DetInput f (fun w => w ≠ 0)) (hac : f.Holds .acyclic) (distinct : Bool) :
    ∃ F, EndsWith (determinize f logDet ord distinct) (.ok F) ∧ F.WF ∧ (∀ s, ((F.trsOf s).map (·.ilabel)).Nodup) ∧
      ∀ n x y, F.weightOf n x y = f.weightOf n x y :=
  C42_acyclic logDet_law.1 logDet_law.2 rfl ho hi hac distinct

/-- C42, probabilities, quantization idealised away. -/
theorem C42_prob {K : Type} [Field K] [LinearOrder K] [IsStrictOrderedRing K] {f : Fst K}
    {ord : DTup K → Label → List (DElt K) → List (DElt K)} (ho : Orders ord)
    (hi : DetInput f (fun w => 0 < w)) (hac : f.Holds .acyclic) (distinct : Bool) :
    ∃ F, EndsWith (determinize f probDet ord distinct) (.ok F) ∧ F.WF ∧ (∀ s, ((F.trsOf s).map (·.ilabel)).Nodup) ∧
      ∀ n x y, F.weightOf n x y = f.weightOf n x y :=
  C42_acyclic probDet_law.1 probDet_law.2 rfl ho hi hac distinct

/-! ### Examples and defects -/

/-- `a b` twice, with weights `0 + 0` and `1 + 5`, then a final weight between two grid points. -/
def exDet : Fst (TW ℚ) where
  states := [⟨none, [⟨1, 1, .fin 0, 1⟩, ⟨1, 1, .fin 1, 2⟩], 0, 0⟩, ⟨none, [⟨2, 2, .fin 0, 3⟩], 0, 0⟩, ⟨none, [⟨2, 2, .fin 5, 3⟩], 0, 0⟩,
    ⟨some (.fin (1 / 3)), [], 0, 0⟩]
  start := some 0
  props := Props.of [.acceptor]

theorem exDet_trs : ∀ s, ∀ tr ∈ exDet.trsOf s, (∃ n : ℤ, tr.weight = .fin (n : ℚ)) ∧ tr.ilabel = tr.olabel ∧ s < tr.nextstate ∧ tr.nextstate < 4 := by
  intro s tr h
  match s, h with
  | 0, h =>
    simp [exDet, Fst.trsOf] at h
    rcases h with rfl | rfl
    · exact ⟨⟨0, by simp⟩, rfl, by decide, by decide⟩
    · exact ⟨⟨1, by simp⟩, rfl, by decide, by decide⟩
  | 1, h => simp [exDet, Fst.trsOf] at h; subst h; exact ⟨⟨0, by simp⟩, rfl, by decide, by decide⟩
  | 2, h => simp [exDet, Fst.trsOf] at h; subst h; exact ⟨⟨5, by simp⟩, rfl, by decide, by decide⟩
  | 3, h => simp [exDet, Fst.trsOf] at h
  | n + 4, h => simp [exDet, Fst.trsOf] at h

theorem exDet_input : DetInput exDet (FinIn (AddSubgroup.zmultiples (1 / 1024))) where
  wf := ⟨by simp [exDet, Fst.numStates], fun s tr h => (exDet_trs s tr h).2.2.2⟩
  flag := by decide
  acceptor := fun s tr h => (exDet_trs s tr h).2.1
  weights := fun s tr h => by
    obtain ⟨n, hn⟩ := (exDet_trs s tr h).1
    refine ⟨n, ?_, hn⟩
    rw [AddSubgroup.mem_zmultiples_iff]
    exact ⟨n * 1024, by rw [zsmul_eq_mul]; push_cast; ring⟩

theorem exDet_acyclic : exDet.Holds .acyclic := Fst.acyclic_of_topSorted fun s tr h => (exDet_trs s tr h).2.2.1

example : ∃ F, EndsWith (determinize exDet (tropDet (quantize (1 / 1024))) (fun _ _ es => es) true) (.ok F) ∧ F.WF ∧
    (∀ s, ((F.trsOf s).map (·.ilabel)).Nodup) ∧ ∀ n x y, F.weightOf n x y = exDet.weightOf n x y :=
  C42_tropical (by norm_num) (fun _ _ _ => List.Perm.refl _) exDet_input exDet_acyclic true

example : ((determinize exDet (tropDet (quantize (1 / 1024))) (fun _ _ es => es) true 10).map fun r => r.toOption.map (·.states)) =
    some (some [⟨none, [⟨1, 1, .fin 0, 1⟩], 0, 0⟩, ⟨none, [⟨2, 2, .fin 0, 2⟩], 0, 0⟩, ⟨some (.fin (1 / 3)), [], 0, 0⟩]) := by decide +kernel

theorem out_of_ok {α β : Type} {x : Option (R α)} (g : α → β) {b : β} (h : x.map (fun r => r.toOption.map g) = some (some b)) :
    ∃ F, x = some (.ok F) ∧ g F = b := by
  match x, h with
  | some (.ok F), h => exact ⟨F, rfl, by simpa [Except.toOption] using h⟩

/-- `a` to two final states, `b` to the same two. -/
def exOrder : Fst (TW ℚ) where
  states := [⟨none, [⟨1, 1, .fin 0, 1⟩, ⟨1, 1, .fin 0, 2⟩, ⟨2, 2, .fin 0, 1⟩, ⟨2, 2, .fin 0, 2⟩], 0, 0⟩, ⟨some (.fin 0), [], 0, 0⟩,
    ⟨some (.fin 0), [], 0, 0⟩]
  start := some 0
  props := Props.of [.acceptor]

/-- Defect: the subset `{1, 2}` is looked up as a list in the order of a hash map, so it can become two states: the number of states of the
result depends on the order of the hash maps and is not that of the subset construction. -/
theorem C42_order_defect : ∃ ord ord', Orders ord ∧ Orders ord' ∧
    (determinize exOrder (tropDet (quantize (1 / 1024))) ord true 10).map (fun r => r.toOption.map (·.numStates)) = some (some 2) ∧
    (determinize exOrder (tropDet (quantize (1 / 1024))) ord' true 10).map (fun r => r.toOption.map (·.numStates)) = some (some 3) := by
  refine ⟨fun _ _ es => es, fun _ l es => if l = 2 then es.reverse else es, fun _ _ _ => List.Perm.refl _, ?_, by decide +kernel, by decide +kernel⟩
  intro _ l es
  by_cases h : l = 2
  · simp only [h, if_true]; exact List.reverse_perm es
  · simp only [h, if_false]; exact List.Perm.refl _

/-- Two transitions `a` whose weights differ by a quarter of `delta`. -/
def exQuant : Fst (TW ℚ) where
  states := [⟨none, [⟨1, 1, .fin 0, 1⟩, ⟨1, 1, .fin (1 / 4096), 2⟩], 0, 0⟩, ⟨none, [], 0, 0⟩, ⟨some (.fin 0), [], 0, 0⟩]
  start := some 0
  props := Props.of [.acceptor]

/-- Defect: residual weights are rounded to multiples of `delta`, and the rounding error goes into the weight of the string. Here the
weight `1/4096` of the string `a` becomes `0`. -/
theorem C42_quantize_defect : exQuant.weightOf 1 [1] [1] = .fin (1 / 4096) ∧
    ∃ F, determinize exQuant (tropDet (quantize (1 / 1024))) (fun _ _ es => es) true 10 = some (.ok F) ∧ F.weightOf 1 [1] [1] = .fin 0 := by
  refine ⟨by decide +kernel, ?_⟩
  exact out_of_ok (fun F : Fst (TW ℚ) => F.weightOf 1 [1] [1]) (by decide +kernel)

/-- One transition of weight ∞. -/
def exInf : Fst (TW ℚ) where
  states := [⟨none, [⟨1, 1, .inf, 1⟩], 0, 0⟩, ⟨some (.fin 0), [], 0, 0⟩]
  start := some 0
  props := Props.of [.acceptor]

/-- Defect: a transition whose weight is zero is divided by itself. For tropical weights `∞ - ∞` is not a number, which the model shows as
a panic. -/
theorem C42_zero_defect : ∀ n, 1 ≤ n → determinize exInf (tropDet (quantize (1 / 1024))) (fun _ _ es => es) true n = some (.error .panic) := by
  intro n hn
  obtain ⟨n, rfl⟩ : ∃ m, n = m + 1 := ⟨n - 1, by omega⟩
  rfl

/-- A final state of weight ∞. -/
def exFinZero : Fst (TW ℚ) where
  states := [⟨some .inf, [], 0, 0⟩]
  start := some 0
  props := Props.of [.acceptor, .coaccessible]

/-- Defect: a final weight zero is dropped, the flag `COACCESSIBLE` is kept. -/
theorem C42_coaccessible_defect : exFinZero.Truthful ∧ ∃ F, determinize exFinZero (tropDet (quantize (1 / 1024))) (fun _ _ es => es) true 10 = some (.ok F) ∧
    F.props .coaccessible = true ∧ ¬ F.Holds .coaccessible := by
  constructor
  · intro b hb
    have : b = .acceptor ∨ b = .coaccessible := by
      cases b <;> first | (exact Or.inl rfl) | (exact Or.inr rfl) | (exact absurd hb (by decide))
    rcases this with rfl | rfl
    · intro s tr h
      match s, h with
      | 0, h => simp [exFinZero, Fst.trsOf] at h
      | n + 1, h => simp [exFinZero, Fst.trsOf] at h
    · intro s hs
      have : s = 0 := by simpa [exFinZero, Fst.numStates] using hs
      subst this
      exact ⟨0, .refl, rfl⟩
  · obtain ⟨F, h1, h2⟩ := out_of_ok (x := determinize exFinZero (tropDet (quantize (1 / 1024))) (fun _ _ es => es) true 10)
      (fun F => (F.states, F.props .coaccessible)) (b := ([⟨none, [], 0, 0⟩], true)) (by decide +kernel)
    refine ⟨F, h1, by simpa using congrArg (·.2) h2, ?_⟩
    intro hc
    have hst : F.states = [⟨none, [], 0, 0⟩] := congrArg (·.1) h2
    obtain ⟨q, _, hq⟩ := hc 0 (by simp [Fst.numStates, hst])
    unfold Fst.IsFinal Fst.finOf at hq
    rw [hst] at hq
    match q, hq with
    | 0, hq => simp at hq
    | n + 1, hq => simp at hq

/-- `a*` along two loops with different weights: the residual weights grow without end. -/
def exDiverge : Fst (TW ℤ) where
  states := [⟨none, [⟨1, 1, .fin 0, 1⟩, ⟨1, 1, .fin 0, 2⟩], 0, 0⟩, ⟨some (.fin 0), [⟨1, 1, .fin 0, 1⟩], 0, 0⟩, ⟨some (.fin 0), [⟨1, 1, .fin 1, 2⟩], 0, 0⟩]
  start := some 0
  props := Props.of [.acceptor]

theorem exDiverge_trs (k : Nat) : detTrs exDiverge (tropDet id) (fun _ _ es => es) ⟨[⟨1, .fin 0⟩, ⟨2, .fin k⟩], 0⟩ =
    .ok [⟨1, 1, .fin 0, ⟨[⟨1, .fin 0⟩, ⟨2, .fin ((k + 1 : Nat) : ℤ)⟩], 0⟩⟩] := by
  have h1 : exDiverge.getTrsR 1 = .ok [⟨1, 1, .fin 0, 1⟩] := rfl
  have h2 : exDiverge.getTrsR 2 = .ok [⟨1, 1, .fin 1, 2⟩] := rfl
  have m1 : (.fin 0 : TW ℤ) * .fin 0 = .fin 0 := rfl
  have m2 : (.fin (k : ℤ) : TW ℤ) * .fin 1 = .fin ((k + 1 : Nat) : ℤ) := rfl
  have h0 : (0 : TW ℤ) = .inf := rfl
  have p1 : TW.plus (.inf : TW ℤ) (.fin 0) = .fin 0 := rfl
  have p2 : TW.plus (.fin 0 : TW ℤ) (.fin ((k + 1 : Nat) : ℤ)) = .fin 0 := by
    have hm : min (0 : ℤ) ((k + 1 : Nat) : ℤ) = 0 := by omega
    rw [TW.plus_fin, hm]
  have d1 : TW.divide (.fin 0 : TW ℤ) (.fin 0) = some (.fin 0) := rfl
  have d2 : TW.divide (.fin ((k + 1 : Nat) : ℤ) : TW ℤ) (.fin 0) = some (.fin ((k + 1 : Nat) : ℤ)) := by simp [TW.divide]
  revert m2 p2 d2
  generalize ((k + 1 : Nat) : ℤ) = j
  intro m2 p2 d2
  simp [detTrs, detCollect, h1, h2, m1, m2, lmPush, normAll, normTr, commonFold, tropDet, mergePairs, mergeInto, divideAll,
    p1, p2, d1, d2, numOr, h0]

theorem exDiverge_reach (k : Nat) : (detMachine exDiverge (tropDet id) (fun _ _ es => es)).Reach ⟨[⟨1, .fin 0⟩, ⟨2, .fin (k : ℤ)⟩], 0⟩ := by
  induction k with
  | zero =>
    have h0 : (detMachine exDiverge (tropDet id) (fun _ _ es => es)).Reach ⟨[⟨0, .fin 0⟩], 0⟩ := .start rfl
    exact Machine.Reach.step (a := (⟨1, 1, .fin 0, ⟨[⟨1, .fin 0⟩, ⟨2, .fin 0⟩], 0⟩⟩ : MTr (DTup (TW ℤ)) (TW ℤ))) h0 (by decide +kernel)
  | succ k ih =>
    refine Machine.Reach.step (a := (⟨1, 1, .fin 0, ⟨[⟨1, .fin 0⟩, ⟨2, .fin ((k + 1 : Nat) : ℤ)⟩], 0⟩⟩ : MTr (DTup (TW ℤ)) (TW ℤ))) ih ?_
    simp only [TupleOp.machine, detOp, exDiverge_trs]
    simp

/-- Without the hypothesis that there are finitely many subsets: `determinize` need not end. -/
theorem C42_diverges (distinct : Bool) (n : Nat) : determinize exDiverge (tropDet id) (fun _ _ es => es) distinct n = none := by
  by_contra h
  have hi : DetInput exDiverge (FinIn (⊤ : AddSubgroup ℤ)) := by
    have key : ∀ s, ∀ tr ∈ exDiverge.trsOf s, FinIn (⊤ : AddSubgroup ℤ) tr.weight ∧ tr.ilabel = tr.olabel ∧ tr.nextstate < 3 := by
      intro s tr h
      match s, h with
      | 0, h =>
        simp [exDiverge, Fst.trsOf] at h
        rcases h with rfl | rfl <;> exact ⟨⟨0, trivial, rfl⟩, rfl, by decide⟩
      | 1, h => simp [exDiverge, Fst.trsOf] at h; subst h; exact ⟨⟨0, trivial, rfl⟩, rfl, by decide⟩
      | 2, h => simp [exDiverge, Fst.trsOf] at h; subst h; exact ⟨⟨1, trivial, rfl⟩, rfl, by decide⟩
      | n + 3, h => simp [exDiverge, Fst.trsOf] at h
    exact ⟨⟨by simp [exDiverge, Fst.numStates], fun s tr h => (key s tr h).2.2⟩, by decide, fun s tr h => (key s tr h).2.1,
      fun s tr h => (key s tr h).1⟩
  have hfin := det_ends_finite (ord := fun _ _ es => es) rfl hi.flag
    (fun t => det_no_error (t := t) tropDet_exact.1 tropDet_exact.2 (fun _ _ _ => List.Perm.refl _) hi) distinct h
  refine Set.infinite_of_injective_forall_mem (f := fun k : Nat => (⟨[⟨1, .fin 0⟩, ⟨2, .fin (k : ℤ)⟩], 0⟩ : DTup (TW ℤ))) ?_ exDiverge_reach hfin
  intro a b e
  simpa using e

end Verif
