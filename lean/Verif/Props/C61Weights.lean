import Verif.Props.C61
import Verif.Props.C42

/-! # C61: determinization of transducers over the weights of the library -/

namespace Verif
set_option linter.unusedSectionVars false

/-! ### Division -/

section
variable {K : Type} [Field K] [LinearOrder K] [IsStrictOrderedRing K]

/-- Tropical weights on the grid of the quantization. -/
theorem tropical_div [FloorRing K] {delta : K} (hd : delta ≠ 0) : DivLaw (tropDet (quantize delta)) (FinIn (AddSubgroup.zmultiples delta)) where
  plus _ _ := rfl
  one := ⟨0, AddSubgroup.zero_mem _, rfl⟩
  mul := by
    rintro _ _ ⟨x, hx, rfl⟩ ⟨y, hy, rfl⟩
    exact ⟨x + y, AddSubgroup.add_mem _ hx hy, rfl⟩
  add := by
    rintro _ _ ⟨x, hx, rfl⟩ ⟨y, hy, rfl⟩
    show FinIn _ (TW.plus _ _)
    rw [TW.plus_fin]
    rcases min_choice x y with h | h
    · rw [h]; exact ⟨x, hx, rfl⟩
    · rw [h]; exact ⟨y, hy, rfl⟩
  divide := by
    rintro _ _ ⟨x, hx, rfl⟩ ⟨y, hy, rfl⟩
    refine ⟨.fin (x - y), rfl, ?_, x - y, AddSubgroup.sub_mem _ hx hy, rfl⟩
    show TW.times (.fin y) (.fin (x - y)) = .fin x
    simp [TW.times]
  quantize := by
    rintro _ ⟨x, hx, rfl⟩
    simp only [tropDet, quantize_multiple hd x hx]

theorem tropical_quantize_one [FloorRing K] {delta : K} (hd : delta ≠ 0) : (tropDet (quantize delta)).quantize 1 = .ok 1 :=
  (tropical_div hd).quantize 1 (tropical_div hd).one


/-- Tropical weights have the path property. -/
theorem tropical_path : PathLaw (TW.ops (K := K)) where
  flag := rfl
  plus _ _ := rfl
  path a b := by
    show TW.plus a b = a ∨ TW.plus a b = b
    unfold TW.plus
    split
    · exact .inr rfl
    · exact .inl rfl

/-- Probabilities, without quantization. -/
theorem probability_div : DivLaw (probDet (K := K)) (fun w => 0 < w) where
  plus _ _ := rfl
  one := one_pos
  mul _ _ := mul_pos
  add _ _ := add_pos
  divide a d ha hd := ⟨a / d, by simp [probDet, probDivide, hd.ne'], mul_div_cancel₀ _ hd.ne', div_pos ha hd⟩
  quantize _ _ := rfl

end

/-- Log weights, without quantization. -/
theorem log_div : DivLaw logDet (fun w : LW => w ≠ 0) where
  plus _ _ := rfl
  one := fun h => by cases h
  mul a b ha hb := by
    cases a with
    | inf => exact absurd rfl ha
    | fin x => cases b with
      | inf => exact absurd rfl hb
      | fin y => intro h; cases h
  add a b ha hb h := by
    cases a with
    | inf => exact absurd rfl ha
    | fin x => cases b with
      | inf => exact absurd rfl hb
      | fin y =>
        have h : LW.plus (.fin x) (.fin y) = .inf := h
        simp only [LW.plus] at h
        split at h <;> cases h
  divide a d ha hd := by
    cases a with
    | inf => exact absurd rfl ha
    | fin x => cases d with
      | inf => exact absurd rfl hd
      | fin y =>
        refine ⟨.fin (x - y), rfl, ?_, fun h => by cases h⟩
        show LW.times (.fin y) (.fin (x - y)) = .fin x
        simp [LW.times]
  quantize _ _ := rfl

/-! ### Tropical weights -/

section
variable {K : Type} [Field K] [LinearOrder K] [IsStrictOrderedRing K] [FloorRing K] {delta : K} {f : Fst (TW K)}

/-- **C61** for `TropicalWeight`: on acyclic transducers whose weights are multiples of `delta` the types `DeterminizeNonFunctional` and `DeterminizeDisambiguate` end, and
so does `DeterminizeFunctional` if the transducer is functional and has no dead states. -/
theorem C61_tropical (hd : delta ≠ 0) {ordU} (hoU : Orders ordU) {ordF} (ho : Orders ordF) (hi : DetTInput f (FinIn (AddSubgroup.zmultiples delta))) (hac : f.Holds .acyclic) :
    (∃ F, EndsWith (determinizeNF (tropDet (quantize delta)) (tropDet (quantize delta)).quantize ordU f) (.ok F) ∧ F.WF ∧ F.AllCounters ∧ F.InputDeterministicUpToEps ∧
      SameWeightsDelayed f F) ∧
    (f.Functional → f.Holds .coaccessible → ∃ F, EndsWith (determinizeF (tropDet (quantize delta)) (tropDet (quantize delta)).quantize ordF f) (.ok F) ∧ F.WF ∧ F.AllCounters ∧
      F.InputDeterministicUpToEps ∧ SameWeightsDelayed f F) ∧
    ∃ F, EndsWith (determinizeD (TW.ops (K := K)) (tropDet (quantize delta)) (tropDet (quantize delta)).quantize ordF f) (.ok F) ∧ F.WF ∧ F.AllCounters ∧ F.InputDeterministicUpToEps ∧
      SameInputWeightsDelayed f F ∧ (∀ x y v, F.Accepts x y v → f.Accepts x y v) ∧ (f.Holds .noIEpsilons → F.Unambiguous) :=
  ⟨C61_nonfunctional (tropical_div hd) rfl (tropical_quantize_one hd) hoU hi hac,
    fun hfun hco => C61_functional (tropical_div hd) rfl (tropical_quantize_one hd) ho hi hac hfun hco,
    C61_disambiguate tropical_path (tropical_div hd) rfl (tropical_quantize_one hd) ho hi hac⟩

end

/-! ### Examples -/

/-- Both transitions of the start read `1`; what they should have written is known only after the second label. -/
def exTrans : Fst (TW ℚ) where
  states := [⟨none, [⟨1, 2, .fin 0, 1⟩, ⟨1, 3, .fin 1, 2⟩], 0, 0⟩, ⟨none, [⟨2, 4, .fin 0, 3⟩], 0, 0⟩, ⟨none, [⟨3, 5, .fin 5, 3⟩], 0, 0⟩,
    ⟨some (.fin (1 / 3)), [], 0, 0⟩]
  start := some 0
  props := fun _ => false

theorem exTrans_trs : ∀ s, ∀ tr ∈ exTrans.trsOf s, (∃ n : ℤ, tr.weight = .fin (n : ℚ)) ∧ s < tr.nextstate ∧ tr.nextstate < 4 ∧ tr.ilabel ≠ EPS := by
  intro s tr h
  match s, h with
  | 0, h =>
    simp [exTrans, Fst.trsOf] at h
    rcases h with rfl | rfl
    · exact ⟨⟨0, by simp⟩, by decide, by decide, by decide⟩
    · exact ⟨⟨1, by simp⟩, by decide, by decide, by decide⟩
  | 1, h => simp [exTrans, Fst.trsOf] at h; subst h; exact ⟨⟨0, by simp⟩, by decide, by decide, by decide⟩
  | 2, h => simp [exTrans, Fst.trsOf] at h; subst h; exact ⟨⟨5, by simp⟩, by decide, by decide, by decide⟩
  | 3, h => simp [exTrans, Fst.trsOf] at h
  | n + 4, h => simp [exTrans, Fst.trsOf] at h

theorem exTrans_input : DetTInput exTrans (FinIn (AddSubgroup.zmultiples (1 / 1024))) where
  wf := ⟨by simp [exTrans, Fst.numStates], fun s tr h => (exTrans_trs s tr h).2.2.1⟩
  weights := fun s tr h => by
    obtain ⟨n, hn⟩ := (exTrans_trs s tr h).1
    refine ⟨n, ?_, hn⟩
    rw [AddSubgroup.mem_zmultiples_iff]
    exact ⟨n * 1024, by rw [zsmul_eq_mul]; push_cast; ring⟩
  finals := fun s => by
    match s with
    | 0 => decide
    | 1 => decide
    | 2 => decide
    | 3 => decide +kernel
    | n + 4 => simp [exTrans, Fst.finOf]

theorem exTrans_acyclic : exTrans.Holds .acyclic := Fst.acyclic_of_topSorted fun s tr h => (exTrans_trs s tr h).2.1

theorem exTrans_coaccessible : exTrans.Holds .coaccessible := by
  have h3 : exTrans.IsFinal 3 := rfl
  have e1 : exTrans.Edge 1 3 := ⟨⟨2, 4, .fin 0, 3⟩, by decide +kernel, rfl⟩
  have e2 : exTrans.Edge 2 3 := ⟨⟨3, 5, .fin 5, 3⟩, by decide +kernel, rfl⟩
  have e0 : exTrans.Edge 0 1 := ⟨⟨1, 2, .fin 0, 1⟩, by decide +kernel, rfl⟩
  intro s hs
  match s, hs with
  | 0, _ => exact ⟨3, .head e0 (.head e1 .refl), h3⟩
  | 1, _ => exact ⟨3, .head e1 .refl, h3⟩
  | 2, _ => exact ⟨3, .head e2 .refl, h3⟩
  | 3, _ => exact ⟨3, .refl, h3⟩

theorem exTrans_functional : exTrans.Functional := by
  have hp : ∀ n x y w, (x, y, w) ∈ exTrans.accPaths n → (x, y) = ([1, 2], [2, 4]) ∨ (x, y) = ([1, 3], [3, 5]) := by
    intro n x y w h
    rw [Fst.accPaths_some (show exTrans.start = some 0 from rfl)] at h
    match n, h with
    | 0, h => simp [Fst.pathsFrom, exTrans, Fst.finOf] at h
    | 1, h => simp [Fst.pathsFrom, exTrans, Fst.finOf, Fst.trsOf] at h
    | 2, h =>
      simp [Fst.pathsFrom, exTrans, Fst.finOf, Fst.trsOf, PathT.cat, Tr.asPath, strip] at h
      rcases h with ⟨rfl, rfl, -⟩ | ⟨rfl, rfl, -⟩ <;> simp
    | n + 3, h => simp [Fst.pathsFrom, exTrans, Fst.trsOf] at h
  rintro x y y' w w' ⟨n, h⟩ ⟨m, h'⟩
  rcases hp _ _ _ _ h with e | e <;> rcases hp _ _ _ _ h' with e' | e' <;> simp only [Prod.mk.injEq] at e e'
  · rw [e.2, e'.2]
  · have := e.1.symm.trans e'.1; simp at this
  · have := e.1.symm.trans e'.1; simp at this
  · rw [e.2, e'.2]

example := C61_tropical (by norm_num) (fun _ _ _ => List.Perm.refl _) (fun _ _ _ => List.Perm.refl _) exTrans_input exTrans_acyclic
example := (C61_tropical (by norm_num) (ordU := fun _ _ es => es) (fun _ _ _ => List.Perm.refl _) (ordF := fun _ _ es => es) (fun _ _ _ => List.Perm.refl _) exTrans_input exTrans_acyclic).2.1
  exTrans_functional exTrans_coaccessible

/-- The outputs are delayed. -/
example : ((determinizeF (tropDet (quantize (1 / 1024))) (tropDet (quantize (1 / 1024))).quantize (fun _ _ es => es) exTrans 10).map fun r => r.toOption.map (·.states)) =
    some (some [⟨none, [⟨1, 0, .fin 0, 1⟩], 0, 1⟩, ⟨none, [⟨2, 2, .fin 0, 2⟩, ⟨3, 3, .fin 6, 3⟩], 0, 0⟩, ⟨none, [⟨0, 4, .fin (1 / 3), 4⟩], 1, 0⟩,
      ⟨none, [⟨0, 5, .fin (1 / 3), 4⟩], 1, 0⟩, ⟨some (.fin 0), [], 0, 0⟩]) := by decide +kernel

/-- `1` is read with output `2` or, at a smaller weight, `3`. -/
def exTwoOut : Fst (TW ℚ) where
  states := [⟨none, [⟨1, 2, .fin 1, 1⟩, ⟨1, 3, .fin 0, 1⟩, ⟨2, 2, .fin 0, 1⟩], 0, 0⟩, ⟨some (.fin 0), [], 0, 0⟩]
  start := some 0
  props := fun _ => false

/-- `DeterminizeDisambiguate` keeps the output of the smaller weight. -/
example : ((determinizeD (TW.ops) (tropDet (quantize (1 / 1024))) (tropDet (quantize (1 / 1024))).quantize (fun _ _ es => es) exTwoOut 10).map fun r => r.toOption.map (·.states)) =
    some (some [⟨none, [⟨1, 0, .fin 0, 1⟩, ⟨2, 2, .fin 0, 2⟩], 0, 1⟩, ⟨none, [⟨0, 3, .fin 0, 3⟩], 1, 0⟩, ⟨some (.fin 0), [], 0, 0⟩, ⟨some (.fin 0), [], 0, 0⟩]) := by
  decide +kernel

/-- `DeterminizeFunctional` rejects it. -/
example : ((determinizeF (tropDet (quantize (1 / 1024))) (tropDet (quantize (1 / 1024))).quantize (fun _ _ es => es) exTwoOut 10).map fun r => r.toOption.map (·.states)) =
    some none := by decide +kernel

/-- `2` is read with output `2`; `1` leads to a state from which no final state can be reached. -/
def exDeadEnd : Fst (TW ℚ) where
  states := [⟨none, [⟨1, 2, .fin 0, 1⟩, ⟨1, 3, .fin 0, 1⟩, ⟨2, 2, .fin 0, 2⟩], 0, 0⟩, ⟨none, [], 0, 0⟩, ⟨some (.fin 0), [], 0, 0⟩]
  start := some 0
  props := fun _ => false

/-- Defect: `DeterminizeFunctional` rejects a functional, acyclic transducer, because of a state that is on no path: outputs are compared that no accepted pair of
strings contains. -/
theorem C61_dead_defect : exDeadEnd.Functional ∧ exDeadEnd.Holds .acyclic ∧ DetTInput exDeadEnd (FinIn (AddSubgroup.zmultiples (1 / 1024))) ∧
    ∀ n, 10 ≤ n → ∃ e, determinizeF (tropDet (quantize (1 / 1024))) (tropDet (quantize (1 / 1024))).quantize (fun _ _ es => es) exDeadEnd n = some (.error e) := by
  have htr : ∀ s, ∀ tr ∈ exDeadEnd.trsOf s, tr.weight = .fin (0 : ℚ) ∧ s < tr.nextstate ∧ tr.nextstate < 3 := by
    intro s tr h
    match s, h with
    | 0, h =>
      simp [exDeadEnd, Fst.trsOf] at h
      rcases h with rfl | rfl | rfl <;> exact ⟨rfl, by decide, by decide⟩
    | 1, h => simp [exDeadEnd, Fst.trsOf] at h
    | 2, h => simp [exDeadEnd, Fst.trsOf] at h
    | n + 3, h => simp [exDeadEnd, Fst.trsOf] at h
  refine ⟨?_, Fst.acyclic_of_topSorted fun s tr h => (htr s tr h).2.1, ⟨⟨by simp [exDeadEnd, Fst.numStates], fun s tr h => (htr s tr h).2.2⟩, ?_, ?_⟩, ?_⟩
  · have hp : ∀ n x y w, (x, y, w) ∈ exDeadEnd.accPaths n → y = [2] := by
      intro n x y w h
      rw [Fst.accPaths_some (show exDeadEnd.start = some 0 from rfl)] at h
      match n, h with
      | 0, h => simp [Fst.pathsFrom, exDeadEnd, Fst.finOf] at h
      | 1, h =>
        simp [Fst.pathsFrom, exDeadEnd, Fst.finOf, Fst.trsOf, PathT.cat, Tr.asPath, strip] at h
        exact h.2.1.symm
      | n + 2, h => simp [Fst.pathsFrom, exDeadEnd, Fst.trsOf] at h
    rintro x y y' w w' ⟨n, h⟩ ⟨m, h'⟩
    rw [hp _ _ _ _ h, hp _ _ _ _ h']
  · intro s tr h
    exact ⟨0, AddSubgroup.zero_mem _, (htr s tr h).1⟩
  · intro s
    match s with
    | 0 => decide
    | 1 => decide
    | 2 => decide +kernel
    | n + 3 => simp [exDeadEnd, Fst.finOf]
  · intro n hn
    have h10 : ((determinizeF (tropDet (quantize (1 / 1024))) (tropDet (quantize (1 / 1024))).quantize (fun _ _ es => es) exDeadEnd 10).map fun r => r.toOption.map (·.states)) =
      some none := by decide +kernel
    match h1 : exDeadEnd.weightConvert (toGallic (RG.mk' (W := TW ℚ))) with
    | .error e => exact ⟨e, by simp only [determinizeF, determinizeT, determinizeVia, h1]⟩
    | .ok g =>
      match h2 : determinizeFsa g (rgDet (tropDet (quantize (1 / 1024)))) (fun _ _ es => es) 10 with
      | none => simp only [determinizeF, determinizeT, determinizeVia, h1, h2] at h10; cases h10
      | some (.error e) => exact ⟨e, by simp only [determinizeF, determinizeT, determinizeVia, h1, det_fsa_mono h2 hn]⟩
      | some (.ok D) =>
        match h3 : factorWeight D rgFactor (rgQuantize (tropDet (quantize (1 / 1024))).quantize) detFwOpts 10 with
        | none => simp only [determinizeF, determinizeT, determinizeVia, h1, h2, h3] at h10; cases h10
        | some (.error e) => exact ⟨e, by simp only [determinizeF, determinizeT, determinizeVia, h1, det_fsa_mono h2 hn, factorWeight_mono h3 hn]⟩
        | some (.ok H) =>
          match h4 : H.weightConvert (fromGallic (fun v : RG (TW ℚ) => extractPair v.1) EPS) with
          | .error e => exact ⟨e, by simp only [determinizeF, determinizeT, determinizeVia, h1, det_fsa_mono h2 hn, factorWeight_mono h3 hn, h4]⟩
          | .ok F => simp only [determinizeF, determinizeT, determinizeVia, h1, h2, h3, h4] at h10; cases h10

end Verif
