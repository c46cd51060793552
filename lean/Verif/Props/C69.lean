import Verif.Lemmas.Optimize
import Verif.Props.C62
import Verif.Props.C61Weights

/-!
# C69: `optimize`

`optimize` (algorithms/optimize.rs 11-129) removes ε-transitions, joins parallel transitions, determinizes and minimizes.
-/

namespace Verif
open Fst
universe u

section
variable {W : Type u}

theorem noCycles_of_acyclic [Zero W] [One W] [Mul W] {f : Fst W} (h : f.Holds .acyclic) (keep : Tr W → Bool) : f.NoCycles keep := by
  have key : ∀ n s x c, (x, c) ∈ f.walks keep n s → f.Reach s x := by
    intro n
    induction n with
    | zero =>
      intro s x c hx
      simp only [walks, Multiset.mem_singleton, Prod.mk.injEq] at hx
      rw [hx.1]; exact .refl
    | succ n ih =>
      intro s x c hx
      simp only [walks, Multiset.mem_bind, Multiset.mem_coe, List.mem_filter, Multiset.mem_map, Prod.exists, Prod.mk.injEq] at hx
      obtain ⟨t, ⟨ht, -⟩, y, v, hv, rfl, -⟩ := hx
      exact .head ⟨t, ht, rfl⟩ (ih _ _ _ hv)
  intro n s c hc
  simp only [walks, Multiset.mem_bind, Multiset.mem_coe, List.mem_filter, Multiset.mem_map, Prod.exists, Prod.mk.injEq] at hc
  obtain ⟨t, ⟨ht, -⟩, y, v, hv, rfl, -⟩ := hc
  exact h ⟨_, Relation.TransGen.head' ⟨t, ht, rfl⟩ (key _ _ _ _ hv)⟩
end

section
variable {K : Type} [Field K] [LinearOrder K] [IsStrictOrderedRing K] [FloorRing K]

/-- `optimize` for tropical weights (optimize.rs 11-129): `determinize` rounds to multiples of `delta` (`KDELTA`), `minimize` to multiples of `delta'`
(`KSHORTESTDELTA`). The comparison of distances is exact. `ord`, `ordT` are the orders of hash maps, `merge`, `mergeT` the heaps. -/
def tropEnv (delta delta' : K) (ord : DTup (TW K) → Label → List (DElt (TW K)) → List (DElt (TW K)))
    (ordT : DTup (RG (TW K)) → Label → List (DElt (RG (TW K))) → List (DElt (RG (TW K))))
    (merge : List (List (Tr (TW K))) → List (Tr (TW K))) (mergeT : List (List (Tr (StrR × TW K))) → List (Tr (StrR × TW K))) : OptEnv (TW K) where
  idempotent := (TW.ops (K := K)).flags.idempotent
  rmEps := fun f n => f.rmEpsilon (TW.ops (K := K)).flags (fun a b => decide (b = a)) n
  detAcceptor := fun f n => Verif.determinize f (tropDet (quantize delta)) ord true n
  detTransducer := fun f n => determinizeF (tropDet (quantize delta)) (tropDet (quantize delta)).quantize ordT f n
  minimize := fun f n => f.minimizeWith TW.divE TW.divE id id (TW.ops (K := K)).flags (fun a b => decide (b = a)) (fun w => .ok (TW.quantize delta' w)) TW.lt merge
    (minimizeTransducer TW.divE id id (TW.ops (K := K)).flags (fun a b => decide (b = a)) (fun w => .ok (TW.quantize delta' w))
      (fun w => .ok (TW.quantize delta w)) TW.lt mergeT) false n

variable {delta delta' : K} {ord : DTup (TW K) → Label → List (DElt (TW K)) → List (DElt (TW K))}
  {ordT : DTup (RG (TW K)) → Label → List (DElt (RG (TW K))) → List (DElt (RG (TW K)))}
  {merge : List (List (Tr (TW K))) → List (Tr (TW K))} {mergeT : List (List (Tr (StrR × TW K))) → List (Tr (StrR × TW K))} {f : Fst (TW K)}

/-- The finite weights neither rounding changes. -/
def OnBothGrids (delta delta' : K) : TW K → Prop := FinIn (AddSubgroup.zmultiples delta ⊓ AddSubgroup.zmultiples delta')

theorem trop_idem (a : TW K) : a + a = a := by
  change TW.plus a a = a
  cases a <;> simp [TW.plus_fin]

theorem exact_one : OnBothGrids delta delta' 1 := ⟨0, zero_mem _, rfl⟩

theorem exact_ne (w : TW K) (h : OnBothGrids delta delta' w) : w ≠ 0 := by
  rintro rfl
  obtain ⟨x, -, h⟩ := h
  cases h

theorem exact_closed (a b : TW K) : OnBothGrids delta delta' a → OnBothGrids delta delta' b → OnBothGrids delta delta' (a + b) ∧ OnBothGrids delta delta' (a * b) := by
  rintro ⟨x, hx, rfl⟩ ⟨y, hy, rfl⟩
  refine ⟨?_, x + y, add_mem hx hy, rfl⟩
  show FinIn _ (TW.plus _ _)
  rw [TW.plus_fin]
  rcases min_choice x y with h | h
  · rw [h]; exact ⟨x, hx, rfl⟩
  · rw [h]; exact ⟨y, hy, rfl⟩

theorem Fst.WeightsIn.mono {W : Type u} {P Q : W → Prop} {f : Fst W} (h : f.WeightsIn P) (hs : ∀ w, P w → Q w) : f.WeightsIn Q :=
  ⟨fun s t ht => hs _ (h.1 s t ht), fun s w hw => hs _ (h.2 s w hw)⟩

theorem trop_epsPositive (hf : ∀ s, ∀ t ∈ f.trsOf s, isEps t = true → OnBothGrids delta delta' t.weight) : f.EpsPositive :=
  ⟨OnBothGrids delta delta', exact_one, fun h => exact_ne _ h rfl, exact_closed, hf⟩

/-- What the result of `optimize` on an acceptor is. -/
structure Optimal (f h : Fst (TW K)) : Prop where
  same : f.SameTotals h
  wf : h.WF
  truthful : h.Truthful
  useful : h.AllUseful
  det : h.Deterministic
  acceptor : h.Holds .acceptor

/-- `minimize` on the deterministic acceptors that `optimize` gives it. -/
theorem opt_minimize (hd' : delta' ≠ 0) (hmg : HeapMerge merge) {f g : Fst (TW K)} (hs : f.SameTotals g) (hw : g.WF) (tg : g.Truthful)
    (gs : g.start ≠ none ∨ g.numStates = 0) (hp : g.CanPush) (hg : g.WeightsIn (OnBothGrids delta delta')) (hdet : g.Deterministic) (ha : g.Holds .acceptor)
    (he : ∀ s, ∀ t ∈ g.trsOf s, t.ilabel ≠ EPS) :
    ∃ h, EndsWith ((tropEnv delta delta' ord ordT merge mergeT).minimize g) (.ok h) ∧ Optimal f h := by
  have L := tropMinLaw delta' (eqv := fun a b => decide (b = a)) (fun a b => decide_eq_true_iff) hmg
  obtain ⟨h, k, h1, -, h3, h4, h5, h6, h7, h8⟩ := C59_minimize (divR := TW.divE) L
    (minimizeTransducer TW.divE id id (TW.ops (K := K)).flags (fun a b => decide (b = a)) (fun w => .ok (TW.quantize delta' w))
      (fun w => .ok (TW.quantize delta w)) TW.lt mergeT) false hw tg gs hp
    (hg.mono fun w ⟨x, hx, e⟩ => .inr ⟨x, hx.2, e⟩) (hg.mono exact_ne) hdet ha (fun s _ => he s)
    (by
      rintro _ _ v (rfl | ⟨x, hx, rfl⟩) (rfl | ⟨y, hy, rfl⟩) hb h
      · exact absurd rfl hb
      · cases h; exact .inl rfl
      · exact absurd rfl hb
      · cases h; exact .inr ⟨x - y, sub_mem hx hy, rfl⟩)
    (by
      rintro _ (rfl | ⟨x, hx, rfl⟩)
      · rfl
      · show TW.fin (Verif.quantize delta' x) = _
        rw [quantize_multiple hd' x hx])
  exact ⟨h, h1, SameTotals.of_delay hs h3, h4, h5, h6, h7, h8⟩

/-- `determinize` on the acyclic acceptors that `optimize` gives it. -/
theorem opt_determinize (hd : delta ≠ 0) (ho : Orders ord) {f g : Fst (TW K)} (hs : f.SameTotals g) (hw : g.WF) (tg : g.Truthful)
    (hac : g.props .acyclic = true) (hg : g.WeightsIn (OnBothGrids delta delta')) (ha : g.props .acceptor = true) :
    ∃ d, EndsWith ((tropEnv delta delta' ord ordT merge mergeT).detAcceptor g) (.ok d) ∧ DetResult g d (OnBothGrids delta delta') (id : TW K → TW K) ∧
      f.SameTotals d := by
  obtain ⟨L, T⟩ := tropDet_law (quantize delta) (AddSubgroup.zmultiples delta ⊓ AddSubgroup.zmultiples delta') fun x hx => quantize_multiple hd x hx.1
  have hi : DetInput g (OnBothGrids delta delta') := ⟨hw, ha, tg _ ha, hg.1⟩
  obtain ⟨d, d1, d2⟩ := det_full (ord := ord) (fun a => mul_zero a) L T rfl ho hi tg hg.2 (fun h => exact_ne _ h rfl)
    (by
      rintro a b c (rfl | h) hb e
      · cases e
        rwa [show TW.plus 0 b = b from zero_add b]
      · cases e
        exact (exact_closed a b h hb).1)
    (by
      rintro a b c (rfl | h) hb e
      · cases e
        rwa [show TW.plus 0 b = b from zero_add b]
      · cases e
        rcases hb with rfl | hb
        · right; rwa [show TW.plus a 0 = a from add_zero a]
        · exact .inr (exact_closed a b h hb).1)
    (by
      intro a b c e h0
      cases e
      revert h0
      cases a <;> cases b <;> simp [TW.plus, TW.lt, show (0 : TW K) = TW.inf from rfl] <;> split <;> simp)
    (by
      rintro _ b ⟨x, -, rfl⟩ h
      cases b with
      | inf => rfl
      | _ => cases h)
    (fun w h => h) (det_finite_acyclic L ho hi.wf hi.weights (tg _ hac)) true
  exact ⟨d, d1, d2, SameTotals.of_weightOf hs fun n x y => d2.sums n x y⟩

theorem optimize_acceptor_ends {e : OptEnv (TW K)} {g : Fst (TW K)} {r : R (Fst (TW K))} (hacc : f.props .acceptor = true) (hp : EndsWith (e.prepare f) (.ok g))
    (hr : EndsWith (fun n =>
      if !e.idempotent then
        if !g.props .iDeterministic then
          if g.props .acyclic then andThen (e.determinize g n) fun d => e.minimize d n else some (.ok g)
        else e.minimize g n
      else if !g.props .iDeterministic then
        if !(g.props .acyclic || g.props .unweighted || g.props .unweightedCycles) then
          andThen (e.encodeDeterMiniDecode .encodeWeights g n) fun h => some (.ok h.trSum)
        else andThen (e.determinize g n) fun d => e.minimize d n
      else e.minimize g n) r) : EndsWith (e.optimize f) r := by
  have := endsWith_andThen (a := e.prepare f) (b := fun g n =>
      if !e.idempotent then
        if !g.props .iDeterministic then
          if g.props .acyclic then andThen (e.determinize g n) fun d => e.minimize d n else some (.ok g)
        else e.minimize g n
      else if !g.props .iDeterministic then
        if !(g.props .acyclic || g.props .unweighted || g.props .unweightedCycles) then
          andThen (e.encodeDeterMiniDecode .encodeWeights g n) fun h => some (.ok h.trSum)
        else andThen (e.determinize g n) fun d => e.minimize d n
      else e.minimize g n) (x := g) hp hr
  obtain ⟨N, hN⟩ := this
  refine ⟨N, fun n hn => ?_⟩
  unfold OptEnv.optimize
  rw [if_pos hacc]
  exact hN n hn

/-- **C69**, acyclic acceptors. An acceptor flagged `ACCEPTOR` and `ACYCLIC` and also `NO_EPSILONS` or `TOP_SORTED`, the weights of which are finite and not
changed by rounding. `optimize` succeeds. The result gives every string the same weight; it is a deterministic acceptor, all its states are useful
and its flags are right. -/
theorem C69_acyclic_acceptor_partial (hd : delta ≠ 0) (hd' : delta' ≠ 0) (ho : Orders ord) (hmg : HeapMerge merge) (hw : f.WF) (tf : f.Truthful) (hs : f.start ≠ none)
    (ha : f.props .acceptor = true) (hac : f.props .acyclic = true) (hc : f.props .noEpsilons = true ∨ f.props .topSorted = true)
    (hf : f.WeightsIn (OnBothGrids delta delta')) :
    ∃ h, EndsWith ((tropEnv delta delta' ord ordT merge mergeT).optimize f) (.ok h) ∧ Optimal f h := by
  obtain ⟨g, g1, G⟩ := prepare_spec (e := tropEnv delta delta' ord ordT merge mergeT) (f := f) rfl (fun a b => decide_eq_true_iff) rfl (fun _ => trop_idem) hw tf hs
    (.inr ⟨trop_epsPositive fun s t ht _ => hf.1 s t ht, .inl (noCycles_of_acyclic (tf _ hac) _)⟩)
  have gA := G.acceptor ha
  have gC := G.acyclic hac hc
  have gW := G.weights _ exact_one exact_closed hf
  have ne : ∀ s, ∀ t ∈ g.trsOf s, t.ilabel ≠ EPS := by
    intro s t ht h0
    have h1 := G.noEps s t ht
    have h2 : t.ilabel = t.olabel := G.truthful _ gA s t ht
    simp [isEps, ← h2, h0] at h1
  by_cases hdet : g.props .iDeterministic = true
  · obtain ⟨h, h1, h2⟩ := opt_minimize (ord := ord) (ordT := ordT) (mergeT := mergeT) hd' hmg G.same G.wf G.truthful G.start
      (.inl (noCycles_of_acyclic (G.truthful _ gC) _)) gW (G.truthful _ hdet) (G.truthful _ gA) ne
    refine ⟨h, optimize_acceptor_ends ha g1 ?_, h2⟩
    simpa [hdet, tropEnv, TW.ops] using h1
  · obtain ⟨d, d1, D, d3⟩ := opt_determinize (ord := ord) (ordT := ordT) (merge := merge) (mergeT := mergeT) hd ho G.same G.wf G.truthful gC gW gA
    obtain ⟨h, h1, h2⟩ := opt_minimize (ord := ord) (ordT := ordT) (mergeT := mergeT) hd' hmg d3 D.wf D.truthful D.start
      (.inl (noCycles_of_acyclic (D.acyclic gC) _)) D.weights D.det D.acceptor
      (fun s t ht => by obtain ⟨s', t', h', e⟩ := D.labels s t ht; rw [← e]; exact ne s' t' h')
    refine ⟨h, optimize_acceptor_ends ha g1 ?_, h2⟩
    have := endsWith_andThen (b := (tropEnv delta delta' ord ordT merge mergeT).minimize) d1 h1
    simpa [hdet, gC, OptEnv.determinize, gA, tropEnv, TW.ops] using this

/-- **C69**, deterministic acceptors. An acceptor flagged `ACCEPTOR`, `NO_EPSILONS` and `I_DETERMINISTIC`, with or without cycles, the weights of which
are finite and not changed by rounding, and no transition of which has a negative weight. -/
theorem C69_deterministic_acceptor_partial (hd' : delta' ≠ 0) (hmg : HeapMerge merge) (hw : f.WF) (tf : f.Truthful) (hs : f.start ≠ none)
    (ha : f.props .acceptor = true) (hne : f.props .noEpsilons = true) (hdet : f.props .iDeterministic = true)
    (hf : f.WeightsIn (OnBothGrids delta delta')) (hpos : ∀ s, ∀ t ∈ f.trsOf s, t.weight.Nonneg) :
    ∃ h, EndsWith ((tropEnv delta delta' ord ordT merge mergeT).optimize f) (.ok h) ∧ Optimal f h := by
  obtain ⟨g, g1, G⟩ := prepare_spec (e := tropEnv delta delta' ord ordT merge mergeT) (f := f) rfl (fun a b => decide_eq_true_iff) rfl (fun _ => trop_idem) hw tf hs
    (.inl hne)
  have eg : g = f.trSum := by
    obtain ⟨N, hN⟩ := g1
    have := hN N (Nat.le_refl _)
    simp only [OptEnv.prepare, hne, if_true, andThen, Option.some.injEq, Except.ok.injEq] at this
    exact this.symm
  have gA := G.acceptor ha
  have gD := G.det hne hdet
  have ne : ∀ s, ∀ t ∈ g.trsOf s, t.ilabel ≠ EPS := by
    intro s t ht h0
    have h1 := G.noEps s t ht
    have h2 : t.ilabel = t.olabel := G.truthful _ gA s t ht
    simp [isEps, ← h2, h0] at h1
  have gpos : ∀ s, ∀ t ∈ g.trsOf s, t.weight.Nonneg := by
    rw [eg]
    refine trSum_trWeights f (P := TW.Nonneg) (fun a b h1 h2 => ?_) hpos
    show TW.Nonneg (TW.plus a b)
    unfold TW.plus
    split <;> assumption
  obtain ⟨h, h1, h2⟩ := opt_minimize (ord := ord) (ordT := ordT) (mergeT := mergeT) hd' hmg G.same G.wf G.truthful G.start
    (.inr ⟨trop_idem, fun n s c hc a => by rw [mul_comm c a]; exact TW.cyclesAbsorbed gpos n s c hc a⟩)
    (G.weights _ exact_one exact_closed hf) (G.truthful _ gD) (G.truthful _ gA) ne
  refine ⟨h, optimize_acceptor_ends ha g1 ?_, h2⟩
  simpa [gD, tropEnv, TW.ops] using h1

end

/-! ## Instances and defects -/

section
variable {W : Type u}

/-- `sum_trs` with an insertion sort. -/
def Fst.sumStE [Add W] (st : State W) : State W :=
  let r := sumLoop (insSort trLe st.trs) st.niepsilons st.noepsilons
  { st with trs := r.1, niepsilons := r.2.1, noepsilons := r.2.2 }

/-- `tr_sum` with an insertion sort. -/
def Fst.trSumE [Add W] (f : Fst W) : Fst W :=
  let g := (List.range f.numStates).foldl (fun f s => f.modifySt s sumStE) f
  let o := ((f.props.and Props.arcsortMask).and Props.deleteArcsMask).and Props.weightInvariantMask
  g.setPropsMask (if g.numStates = 0 then o.or Props.nullMask else o) Props.allMask

theorem Fst.trSum_eval [Add W] (f : Fst W) : f.trSum = f.trSumE := by
  have : (fun (f : Fst W) (s : StateId) => f.sumTrs s) = fun f s => f.modifySt s sumStE := by
    funext f s
    unfold sumTrs
    congr 1
    funext st
    unfold sumSt sumStE
    rw [sortTrsBy_ins trLe_trans trLe_total]
  unfold trSum trSumE
  rw [this]

end

/-- `optimize` for tropical weights, rounding to multiples of 1. -/
def exEnv : OptEnv (TW ℚ) := tropEnv 1 1 (fun _ _ es => es) (fun _ _ es => es) sortMerge sortMerge

/-- An acyclic acceptor with two paths for `1 2` and an ε-transition. -/
def exOptA : Fst (TW ℚ) :=
  (((((((Fst.new.addStates 4).setStart 0).setFinal 3 (.fin 1)).addTr 0 ⟨1, 1, .fin 1, 1⟩).addTr 0 ⟨1, 1, .fin (-2), 2⟩).addTr 1 ⟨2, 2, .fin 1, 3⟩).addTr 2
    ⟨2, 2, .fin 6, 3⟩).addTr 2 ⟨0, 0, .fin 0, 3⟩

theorem onGrids_int (z : ℤ) : OnBothGrids (1 : ℚ) 1 (.fin (z : ℚ)) :=
  ⟨z, ⟨AddSubgroup.mem_zmultiples_iff.2 ⟨z, by simp⟩, AddSubgroup.mem_zmultiples_iff.2 ⟨z, by simp⟩⟩, rfl⟩

/-- The instance meets the hypotheses of `C69_acyclic_acceptor_partial`. -/
example : exOptA.WF ∧ exOptA.Truthful ∧ exOptA.start ≠ none ∧ exOptA.props .acceptor = true ∧ exOptA.props .acyclic = true ∧ exOptA.props .topSorted = true ∧
    exOptA.WeightsIn (OnBothGrids 1 1) := by
  have key : ∀ s < 4, (∀ t ∈ exOptA.trsOf s, ∃ x ∈ List.range 10, t.weight = TW.fin (((x : ℤ) - 3 : ℤ) : ℚ)) ∧
      ∀ w ∈ exOptA.finOf s, ∃ x ∈ List.range 10, w = TW.fin (((x : ℤ) - 3 : ℤ) : ℚ) := by decide +kernel
  refine ⟨Fst.wf_of_wfB (by decide), ?_, by decide, by decide, by decide, by decide, fun s t ht => ?_, fun s w hw => ?_⟩
  · unfold exOptA
    repeat' first
      | apply truthful_new
      | (refine truthful_addTr ?_ (by decide) _)
      | (refine truthful_setFinal ?_ (by decide) _)
      | apply truthful_setStart
      | apply truthful_addStates
  · obtain ⟨x, -, hx⟩ := (key s (lt_of_mem_trsOf ht)).1 t ht
    rw [hx]; exact onGrids_int _
  · obtain ⟨x, -, hx⟩ := (key s (IsFinal.lt (by unfold IsFinal; rw [hw]; rfl))).2 w hw
    rw [hx]; exact onGrids_int _

/-- `exMinW`, an acceptor with a cycle, with the flags its computed properties have. -/
def exOptD : Fst (TW ℚ) := { exMinW with props := Props.of [.acceptor, .iDeterministic, .noEpsilons] }

/-- It meets the hypotheses of `C69_deterministic_acceptor_partial`. -/
example : exOptD.WF ∧ exOptD.Truthful ∧ exOptD.start ≠ none ∧ exOptD.props .acceptor = true ∧ exOptD.props .noEpsilons = true ∧
    exOptD.props .iDeterministic = true ∧ exOptD.WeightsIn (OnBothGrids 1 1) ∧ ∀ s, ∀ t ∈ exOptD.trsOf s, t.weight.Nonneg := by
  have key : ∀ s < 3, (∀ t ∈ exOptD.trsOf s, (∃ x ∈ List.range 10, t.weight = TW.fin (((x : ℤ)) : ℚ)) ∧ t.ilabel = t.olabel ∧ t.ilabel ≠ EPS) ∧
      ∀ w ∈ exOptD.finOf s, ∃ x ∈ List.range 10, w = TW.fin (((x : ℤ)) : ℚ) := by decide +kernel
  have key1 := fun s t (ht : t ∈ exOptD.trsOf s) => (key s (lt_of_mem_trsOf ht)).1 t ht
  refine ⟨Fst.wf_of_wfB (by decide), ?_, by decide, by decide, by decide, by decide, ⟨fun s t ht => ?_, fun s w hw => ?_⟩, fun s t ht => ?_⟩
  · intro b hb
    cases b <;> first | (exact absurd hb (by decide)) | skip
    · exact fun s t ht => (key1 s t ht).2.1
    · exact deterministic_of_b (f := exOptD) (by decide)
    · rintro ⟨s, t, ht, h, -⟩
      exact (key1 s t ht).2.2 h
  · obtain ⟨⟨x, -, hx⟩, -⟩ := key1 s t ht
    rw [hx]; exact onGrids_int _
  · obtain ⟨x, -, hx⟩ := (key s (IsFinal.lt (by unfold IsFinal; rw [hw]; rfl))).2 w hw
    rw [hx]; exact onGrids_int _
  · obtain ⟨⟨x, -, hx⟩, -⟩ := key1 s t ht
    rw [hx]
    exact Int.cast_nonneg (Int.natCast_nonneg x)

/-- What `optimize` makes of the first instance. -/
example : (match exEnv.optimize exOptA 20 with
    | some (.ok g) => decide (g.numStates = 3 ∧ g.start = some 0 ∧ g.trsOf 0 = [⟨1, 1, .fin (-1), 1⟩] ∧ g.trsOf 1 = [⟨2, 2, .fin 4, 2⟩] ∧
        g.finOf 1 = some (.fin 0) ∧ g.finOf 2 = some (.fin 0))
    | _ => false) = true := by
  unfold OptEnv.optimize OptEnv.optimizeAcceptor OptEnv.prepare OptEnv.encodeDeterMiniDecode OptEnv.determinize exEnv tropEnv minimizeWith minimizeTransducer
    minimizeWeighted minimizeEncoded acceptorMinimize cyclicPartition
  simp only [trSort_eval, trUnique_eval, trSum_eval]
  decide +kernel

/-- The acceptor of the strings `1 … 1`, with a loop of weight 1. -/
def exLoopA : Fst (TW ℚ) := (((((Fst.new.addStates 2).setStart 0).setFinal 1 (.fin 0)).addTr 0 ⟨1, 1, .fin 1, 0⟩).addTr 0 ⟨1, 1, .fin 0, 1⟩)

/-- Defect: `optimize` panics on an acceptor that is not flagged deterministic or acyclic. Only the weights are encoded (`EncodeWeights`), so the FST
is minimized as a transducer. Its outputs all begin with 1, which is moved to a new ε-transition in front, as the start state is on a cycle; and the label of that transition cannot be
decoded. -/
theorem C69_acceptor_panic : exLoopA.WF ∧ exLoopA.Truthful ∧ exLoopA.props .acceptor = true ∧ exLoopA.props .noEpsilons = true ∧
    exEnv.optimize exLoopA 30 = some (.error .panic) := by
  refine ⟨Fst.wf_of_wfB (by decide), ?_, by decide, by decide, ?_⟩
  · unfold exLoopA
    repeat' first
      | apply truthful_new
      | (refine truthful_addTr ?_ (by decide) _)
      | (refine truthful_setFinal ?_ (by decide) _)
      | apply truthful_setStart
      | apply truthful_addStates
  · have : (match exEnv.optimize exLoopA 30 with | some (.error .panic) => true | _ => false) = true := by
      unfold OptEnv.optimize OptEnv.optimizeAcceptor OptEnv.prepare OptEnv.encodeDeterMiniDecode OptEnv.determinize exEnv tropEnv minimizeWith minimizeTransducer
        minimizeWeighted minimizeEncoded acceptorMinimize cyclicPartition
      simp only [trSort_eval, trUnique_eval, trSum_eval]
      decide +kernel
    split at this
    · next h => exact h
    · cases this

/-- `exCycT` with the flags its computed properties have. -/
def exCycP : Fst (TW ℚ) := { exCycT with props := Props.of [.iDeterministic, .noEpsilons, .notAcceptor] }

/-- Defect: `optimize` changes the output of a deterministic transducer with a cycle, since it hands it to `minimize` (`C62_cycle_defect`). The input `1 1` had
the output 9 and now has the output `9 9`. -/
theorem C69_cycle_defect : exCycP.WF ∧ exCycP.Truthful ∧ (∀ y w, exCycP.Accepts [1, 1] y w → y = [9]) ∧
    ∃ g, exEnv.optimize exCycP 50 = some (.ok g) ∧ g.weightOf 3 [1, 1] [9, 9] = .fin 0 := by
  have key : ∀ s, ∀ t ∈ exCycT.trsOf s, t.ilabel ≠ EPS := fun s t ht => (C62_cycle_defect.2.2.2.1 s t ht).1
  refine ⟨⟨C62_cycle_defect.1.1, C62_cycle_defect.1.2⟩, ?_, fun y w ⟨n, hn⟩ => C62_cycle_defect.2.2.2.2.1 y w ⟨n, ?_⟩, ?_⟩
  · intro b hb
    cases b <;> first | (exact absurd hb (by decide)) | skip
    · exact fun h => absurd (h 2 ⟨1, 0, .fin 0, 1⟩ (by decide)) (by decide)
    · exact deterministic_of_b (f := exCycT) (by decide)
    · rintro ⟨s, t, ht, h, -⟩
      exact key s t ht h
  · have e : exCycP.accPaths n = exCycT.accPaths n :=
      (pathsFrom_congr (f := exCycP) (g := exCycT) (fun _ => rfl) (fun _ => rfl) n 2).symm
    rwa [e] at hn
  · have h : (match exEnv.optimize exCycP 50 with
        | some (.ok g) => decide (g.weightOf 3 [1, 1] [9, 9] = .fin 0)
        | _ => false) = true := by
      unfold OptEnv.optimize OptEnv.optimizeTransducer OptEnv.prepare OptEnv.encodeDeterMiniDecode OptEnv.determinize exEnv tropEnv minimizeWith minimizeTransducer
        minimizeWeighted minimizeEncoded acceptorMinimize cyclicPartition
      simp only [trSort_eval, trUnique_eval, trSum_eval]
      decide +kernel
    split at h
    · next g hg => exact ⟨g, hg, of_decide_eq_true h⟩
    · cases h

end Verif
