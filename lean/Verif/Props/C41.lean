import Verif.Lemmas.FactorFinite
import Verif.Props.C38
import Verif.Lemmas.Truthful

/-!
# C41: factor_weight preserves total weight

The result first follows the input, giving off one factor of each weight it has gathered and keeping the other (the first leg of a
path), and then gives off the factors of what is left together with the final weight (the second leg).
-/

namespace Verif
universe u
variable {W : Type u}

/-- `compute` on the machine of `factor_weight`. -/
theorem fw_static [Zero W] [One W] [Mul W] [DecidableEq W] {f : Fst W} {factors : W → List (W × W)} {quantize : W → R W} {o : FwOpts}
    (hq : Exact factors quantize) (hf : f.WF) (hm : o.factorFinal = true ∨ o.factorTr = true)
    (hfin : {e | (fwMachine f factors quantize o).Reach e}.Finite) :
    ∃ F, EndsWith (factorWeight f factors quantize o) (.ok F) ∧ F.WF ∧ ∀ n, F.accPaths n = (fwMachine f factors quantize o).accPaths n := by
  have OL := TupleOp.law FwTable.law FwTable.findTuple_eq (fwOp f factors quantize o) (fwMachine f factors quantize o)
    rfl (fun t ht => (fw_no_error hq hf t ht).1) (fun t ht => (fw_no_error hq hf t ht).2)
  obtain ⟨F, z', h1, h2, h3⟩ := C38_paths mapCache_law OL (o := FwTable.new o.factorTr)
    ⟨FwTable.ok_new _, fun s t h => by simp [FwTable.tup, FwTable.byLeft, FwTable.new] at h⟩ [] trivial hfin
  refine ⟨F, ?_, h2, h3⟩
  obtain ⟨N, hN⟩ := h1
  refine ⟨N, fun n hn => ?_⟩
  have := hN n hn
  simp only [Lz.run] at this
  unfold factorWeight fwNew
  rw [if_neg (by rcases hm with h | h <;> simp [h])]
  simp only [this, Option.map_some]

/-- C41, in any semiring: when factors multiply and add up to the weight they come from, and quantization does not change second
factors, the static result is grouped by the length `n` of the first leg and `k` of the second, `k` bounded for each `n`,
such that for all strings the paths with first leg `n` sum up to the weight of the paths of `n` transitions of the input. -/
theorem C41_total [Semiring W] [DecidableEq W] {f : Fst W} {factors : W → List (W × W)} {quantize : W → R W} {o : FwOpts}
    (hq : Exact factors quantize) (hd : Factoring factors) (hs : Factorizes factors) (ho : o.Plain) (hf : f.WF)
    (hm : o.factorFinal = true ∨ o.factorTr = true) (hfin : {e | (fwMachine f factors quantize o).Reach e}.Finite) :
    ∃ F, EndsWith (factorWeight f factors quantize o) (.ok F) ∧ F.WF ∧
      ∃ part : Nat → Nat → Multiset (PathT W), (∀ m, F.accPaths m = ∑ n ∈ Finset.range (m + 1), part n (m - n)) ∧
        ∀ n, ∃ D, (∀ k, D ≤ k → part n k = 0) ∧ ∀ x y, sumOf (∑ k ∈ Finset.range D, part n k) x y = f.weightOf n x y := by
  obtain ⟨F, h1, h2, h3⟩ := fw_static hq hf hm hfin
  refine ⟨F, h1, h2, (fwMachine f factors quantize o).legs FwElt.following, ?_, ?_⟩
  · intro m
    rw [h3]
    unfold Machine.accPaths Machine.legs
    cases (fwMachine f factors quantize o).start with
    | none => simp
    | some t => exact paths_legs (fw_second_leg hq) m t
  · intro n
    cases hi : f.start with
    | none =>
      have e : (fwMachine f factors quantize o).start = none := by simp [TupleOp.machine, fwOp, hi]
      exact ⟨0, fun k _ => by simp [Machine.legs, e], fun x y => by simp [sumOf, Fst.weightOf, Fst.accPaths, hi]⟩
    | some i =>
      have e : (fwMachine f factors quantize o).start = some ⟨some i, 1⟩ := by simp [TupleOp.machine, fwOp, hi]
      obtain ⟨D, hD⟩ := fw_legs_bound (f := f) (o := o) hq hd n ⟨some i, 1⟩
      refine ⟨D, fun k hk => by simp only [Machine.legs, e]; exact hD k hk, fun x y => ?_⟩
      have key := fw_total hq hd hs ho hf n D i 1 (fun x' y' => if x' = x ∧ y' = y then 1 else 0) (hf.start_lt i hi) hD
      rw [one_mul, ← Fst.accPaths_some hi, ← Fst.weightOf_eq_total] at key
      rw [← key]
      simp only [Machine.legs, e]
      show sumOf ((fwMachine f factors quantize o).legsBelow FwElt.following D n ⟨some i, 1⟩) x y = _
      generalize (fwMachine f factors quantize o).legsBelow FwElt.following D n ⟨some i, 1⟩ = A
      unfold sumOf total
      induction A using Multiset.induction_on with
      | empty => simp
      | cons a A ih =>
        rw [Multiset.map_cons, Multiset.sum_cons, ← ih, Multiset.filter_cons]
        by_cases h : a.1 = x ∧ a.2.1 = y <;> simp [h]

/-- C41, in any monoid with zero: when each weight is split in at most one way, the paths of the result with first leg `n` are the paths
of `n` transitions of the input, one for one, with the same strings and the same weights; paths of weight zero aside. -/
theorem C41_paths [MonoidWithZero W] [DecidableEq W] {f : Fst W} {factors : W → List (W × W)} {quantize : W → R W} {o : FwOpts}
    (hq : Exact factors quantize) (hd : Factoring factors) (hs : SplitsInTwo factors) (ho : o.Plain) (hf : f.WF)
    (hm : o.factorFinal = true ∨ o.factorTr = true) (hfin : {e | (fwMachine f factors quantize o).Reach e}.Finite) :
    ∃ F, EndsWith (factorWeight f factors quantize o) (.ok F) ∧ F.WF ∧
      ∃ part : Nat → Nat → Multiset (PathT W), (∀ m, F.accPaths m = ∑ n ∈ Finset.range (m + 1), part n (m - n)) ∧
        ∀ n, ∃ D, (∀ k, D ≤ k → part n k = 0) ∧ nonzero (∑ k ∈ Finset.range D, part n k) = nonzero (f.accPaths n) := by
  obtain ⟨F, h1, h2, h3⟩ := fw_static hq hf hm hfin
  refine ⟨F, h1, h2, (fwMachine f factors quantize o).legs FwElt.following, ?_, ?_⟩
  · intro m
    rw [h3]
    unfold Machine.accPaths Machine.legs
    cases (fwMachine f factors quantize o).start with
    | none => simp
    | some t => exact paths_legs (fw_second_leg hq) m t
  · intro n
    cases hi : f.start with
    | none =>
      have e : (fwMachine f factors quantize o).start = none := by simp [TupleOp.machine, fwOp, hi]
      exact ⟨0, fun k _ => by simp [Machine.legs, e], by simp [Fst.accPaths, hi]⟩
    | some i =>
      have e : (fwMachine f factors quantize o).start = some ⟨some i, 1⟩ := by simp [TupleOp.machine, fwOp, hi]
      obtain ⟨D, hD⟩ := fw_legs_bound (f := f) (o := o) hq hd n ⟨some i, 1⟩
      refine ⟨D, fun k hk => by simp only [Machine.legs, e]; exact hD k hk, ?_⟩
      have key := fw_paths hq hs ho hd hf n D i 1 (hf.start_lt i hi) hD
      simp only [Machine.legs, e]
      rw [Fst.accPaths_some hi]
      refine key.trans ?_
      congr 1
      conv_rhs => rw [← Multiset.map_id (f.pathsFrom n i)]
      exact Multiset.map_congr rfl fun p _ => by simp [scaled]

/-- C41: the result is finite, so that the theorems above apply, when the input has no cycle, and when only final weights are factored. -/
theorem C41_finite [Zero W] [One W] [Mul W] [DecidableEq W] {f : Fst W} {factors : W → List (W × W)} {quantize : W → R W} {o : FwOpts}
    (hq : Exact factors quantize) (hd : Factoring factors) (hf : f.WF) (h : f.Holds .acyclic ∨ o.factorTr = false) :
    {e | (fwMachine f factors quantize o).Reach e}.Finite :=
  h.elim (fw_finite_acyclic hq hd hf) (fw_finite_final hq hd hf)

/-- C41: the iterators of the library meet the hypotheses. `IdentityFactor` on any weights; the string factors; the four gallic
factors that split one string, over any weights whose one is not changed by quantization; and `GallicFactor` on proper gallic weights
over any semiring, with the additions and multiplications of `GallicWeight` (`GW.add_ok`, `GW.mul_ok`). -/
theorem C41_iterators :
    (∀ (W : Type u) [MonoidWithZero W], Exact (identityFactor (W := W)) .ok ∧ Factoring (identityFactor (W := W)) ∧ SplitsInTwo (identityFactor (W := W))) ∧
    (Exact stringFactor strQuantize ∧ Factoring stringFactor ∧ SplitsInTwo stringFactor) ∧
    (∀ (W : Type u) [MonoidWithZero W] (q : W → R W), q 1 = .ok 1 →
      Exact (gallicFactor (W := W)) (prodQuantize strQuantize q) ∧ Factoring (gallicFactor (W := W)) ∧ SplitsInTwo (gallicFactor (W := W))) ∧
    (∀ (W : Type u) [Semiring W] [DecidableEq W], (∀ w : GW W, (gwFactor w).map (fun p => (p.1.1, p.2.1)) = gallicUnionFactor w.1) ∧
      Factoring (gwFactor (W := W)) ∧ Factorizes (gwFactor (W := W)) ∧
      ∀ quantize : GW W → R (GW W), (∀ (w : GW W) s, w.1 = [(s, 1)] → quantize w = .ok w) → Exact (gwFactor (W := W)) quantize) :=
  ⟨fun _ _ => identity_laws, string_laws, fun _ _ _ h => gallic_laws h,
    fun _ _ _ => ⟨gwFactor_eq, gw_factoring, gw_factorizes, fun _ h => gw_exact h⟩⟩

/-- C41: factoring nothing is an error. -/
theorem C41_mode [Zero W] [One W] [Mul W] [DecidableEq W] (f : Fst W) (factors : W → List (W × W)) (quantize : W → R W) (o : FwOpts) (n : Nat)
    (h : o.factorFinal = false ∧ o.factorTr = false) : factorWeight f factors quantize o n = some (.error .err) := by
  simp [factorWeight, fwNew, h]

/-- An acceptor with the final string `1 2`. -/
def exFinalString : Fst StrW := ⟨[⟨some (.labels [1, 2]), [], 0, 0⟩], some 0, Props.of [.acceptor]⟩

/-- The flags of the result are not always true: with different labels for final weights the result is declared an acceptor and is none. -/
theorem C41_acceptor_defect : exFinalString.Truthful ∧ ∃ F, factorWeight exFinalString stringFactor strQuantize ⟨true, false, 1, 2, false, false⟩ 10 = some (.ok F) ∧
    F.props .acceptor = true ∧ ¬ F.Holds .acceptor := by
  refine ⟨?_, _, rfl, rfl, ?_⟩
  · intro b hb
    cases b <;> first | (exact absurd hb (by decide)) | skip
    intro s t ht
    rcases s with _ | s <;> simp [exFinalString, Fst.trsOf] at ht
  · intro h
    have := h 0 ⟨1, 2, .labels [1], 1⟩ (List.mem_singleton.2 rfl)
    exact absurd this (by decide)

/-! ### A concrete case -/

/-- One transition with the string `1 2 3`, and the final string `4 5`. -/
def exStrings : Fst StrW := ⟨[⟨none, [⟨7, 8, .labels [1, 2, 3], 1⟩], 0, 0⟩, ⟨some (.labels [4, 5]), [], 0, 0⟩], some 0, Props.nullMask⟩

def exFwOpts : FwOpts := ⟨true, true, EPS, EPS, false, false⟩

/-- The string is given off label by label. -/
example : (factorWeight exStrings stringFactor strQuantize exFwOpts 10).map (fun r => r.toOption.map fun F => (F.states, F.start)) = some (some (
    [⟨none, [⟨7, 8, .labels [1], 1⟩], 0, 0⟩, ⟨none, [⟨0, 0, .labels [2], 2⟩], 1, 1⟩, ⟨none, [⟨0, 0, .labels [3], 3⟩], 1, 1⟩,
     ⟨none, [⟨0, 0, .labels [4], 4⟩], 1, 1⟩, ⟨none, [⟨0, 0, .labels [5], 5⟩], 1, 1⟩, ⟨some (.labels []), [], 0, 0⟩], some 0)) := by rfl

/-- The hypotheses are met by it. -/
example : ∃ F, EndsWith (factorWeight exStrings stringFactor strQuantize exFwOpts) (.ok F) ∧ F.WF ∧
      ∃ part : Nat → Nat → Multiset (PathT StrW), (∀ m, F.accPaths m = ∑ n ∈ Finset.range (m + 1), part n (m - n)) ∧
        ∀ n, ∃ D, (∀ k, D ≤ k → part n k = 0) ∧ nonzero (∑ k ∈ Finset.range D, part n k) = nonzero (exStrings.accPaths n) := by
  have hwf : exStrings.WF := ⟨by simp [exStrings, Fst.numStates], by
    intro s t ht
    rcases s with _ | _ | s
    · simp [exStrings, Fst.trsOf] at ht; subst ht; simp [exStrings, Fst.numStates]
    · simp [exStrings, Fst.trsOf] at ht
    · simp [exStrings, Fst.trsOf] at ht⟩
  refine C41_paths string_laws.1 string_laws.2.1 string_laws.2.2 ⟨rfl, rfl, rfl, rfl⟩ hwf (.inl rfl)
    (C41_finite string_laws.1 string_laws.2.1 hwf (.inl ?_))
  refine Fst.acyclic_of_topSorted ?_
  intro s t ht
  rcases s with _ | _ | s
  · simp [exStrings, Fst.trsOf] at ht; subst ht; exact Nat.zero_lt_one
  · simp [exStrings, Fst.trsOf] at ht
  · simp [exStrings, Fst.trsOf] at ht

end Verif
