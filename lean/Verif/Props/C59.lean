import Verif.Lemmas.EncMinMain
import Verif.Lemmas.PushShape
import Verif.Lemmas.MinFuel
import Verif.Lemmas.DetWeights

/-!
# C59: minimization of weighted acceptors

`minimize_with_config` (algorithms/minimize.rs 90-170) on deterministic acceptors.
-/

namespace Verif
open Fst
universe u v
set_option linter.unusedSectionVars false

section
variable {W : Type u} {V : Type v} [AddCommMonoid W] [Monoid W] [LeftDistribClass W] [DecidableEq W] [AddCommMonoid V] [Monoid V] [RightDistribClass V] [DecidableEq V]
variable {divL divR : W → W → R W} {P : W → Prop} {rev : W → V} {back : V → W} {sf : SemiringFlags} {eqv : V → V → Bool}
  {q : W → R W} {qf : W → W} {lt : W → W → Bool} {merge : List (List (Tr V)) → List (Tr V)} {f : Fst W}

/-- What `minimize` needs to know of the weights, besides one of the distributive laws: zero annihilates; `rev` turns products around and `back` undoes it; the comparison of distances is exact; the
weights that occur belong to a set `P` with weak division; rounding with `qf` cannot fail; `lt` tells zero from one; the heap is one. -/
structure MinLaw (divL : W → W → R W) (P : W → Prop) (rev : W → V) (back : V → W) (sf : SemiringFlags) (eqv : V → V → Bool) (q : W → R W)
    (qf : W → W) (lt : W → W → Bool) (merge : List (List (Tr V)) → List (Tr V)) : Prop where
  mul_zero' : ∀ a : W, a * 0 = 0
  zero_mul' : ∀ a : W, 0 * a = 0
  back_rev : ∀ a, back (rev a) = a
  rev_back : ∀ v, rev (back v) = v
  zero : rev 0 = 0
  one : rev 1 = 1
  add : ∀ a b, rev (a + b) = rev a + rev b
  mul : ∀ a b, rev (a * b) = rev b * rev a
  exact : ∀ a b, eqv a b = true ↔ b = a
  right : sf.right = true
  idem : sf.idempotent = true → ∀ a : W, a + a = a
  div : WeakLeft divL P
  round : ∀ w, q w = .ok (qf w)
  lt_ok : LtOk lt
  heap : HeapMerge merge

/-- The distances to the final states exist: the FST is acyclic, or sums are idempotent and going round a cycle does not improve a path. -/
def Fst.CanPush (f : Fst W) : Prop := f.NoCycles (fun _ => true) ∨ ((∀ a : W, a + a = a) ∧ f.CyclesAbsorbedLeft (fun _ => true))

theorem Fst.CanPush.congr {f g : Fst W} (h : f.CanPush) (e : ∀ s, g.trsOf s = f.trsOf s) : g.CanPush := by
  have hw : ∀ n s, g.walks (fun _ => true) n s = f.walks (fun _ => true) n s := by
    intro n
    induction n with
    | zero => intro s; rfl
    | succ n ih => intro s; simp only [walks, e, ih]
  rcases h with h | ⟨h1, h2⟩
  · exact .inl fun n s c => by rw [hw]; exact h n s c
  · exact .inr ⟨h1, fun n s c hc => h2 n s c (by rwa [hw] at hc)⟩

/-- C59, the weighted branch. Let `f` be a deterministic acceptor no final state of which has an ε-transition. `minimize` pushes its weights
towards the start state, which gives `g`, rounds them, which gives `r`, and merges states. The result `h` has the accepting paths of `r`
(those of nonzero weight, with the same labels and weights), is again a deterministic acceptor, all its states are useful and its
flags are right. -/
theorem C59_weighted (L : MinLaw divL P rev back sf eqv q qf lt merge) (allowAcyclic : Bool) (hw : f.WF) (tf : f.Truthful) (hs : f.start ≠ none)
    (hp : f.CanPush) (hf : f.WeightsIn P) (hd : f.Deterministic) (ha : f.Holds .acceptor) (he : ∀ s, f.IsFinal s → ∀ t ∈ f.trsOf s, t.ilabel ≠ EPS) :
    ∃ (g r h : Fst W) (k : Nat), EndsWith (f.pushInitial divL divR rev back sf eqv false) (.ok g) ∧ k ≤ 1 ∧
      (∀ n, live (g.accPaths n) = delay k (fun n => live (f.accPaths n)) n) ∧
      (∀ s, r.trsOf s = (g.trsOf s).map fun t => { t with weight := qf t.weight }) ∧ (∀ s, r.finOf s = (g.finOf s).map qf) ∧ r.start = g.start ∧
      EndsWith (f.minimizeWeighted divL divR rev back sf eqv q lt merge allowAcyclic) (.ok h) ∧
      (∀ n, live (h.accPaths n) = live (r.accPaths n)) ∧ h.WF ∧ h.Truthful ∧ h.AllUseful ∧ h.Deterministic ∧ h.Holds .acceptor ∧
      ((∀ a b v, P a → P b → b ≠ 0 → divL a b = .ok v → P v) → g.WeightsIn P ∧ (f.WeightsIn (· ≠ 0) → g.WeightsIn (· ≠ 0))) ∧
      (∀ Q : W → Prop, r.WeightsIn Q → h.WeightsIn Q) := by
  obtain ⟨g, k, ⟨N, hN⟩, gw, gt, hk, gp, gs, sk, gn, gP, gN⟩ := push_initial_shape (divR := divR) L.back_rev L.rev_back L.zero L.one L.add L.mul L.mul_zero' L.zero_mul'
    L.exact L.right L.idem hw tf hp L.div hf hs
  obtain ⟨r, hr, rw', rt, rs, rn, rtr, rfin⟩ := quantized_spec q qf L.round g gs gw gt
  have sk' := sk.weights rtr rfin
  have hmain := fun n => minimizeEncoded_spec L.mul_zero' L.lt_ok rev L.heap allowAcyclic r rw' rt (by rw [rs]; exact gs) (sk'.unique hd he) n
  obtain ⟨h, hh, h1, h2, h3, h4, h5, h6, hW⟩ := hmain (r.numStates + 2) (by omega)
  refine ⟨g, r, h, k, ⟨N, hN⟩, hk, gp, rtr, rfin, rs, ⟨max N (r.numStates + 2), fun n hn => ?_⟩, h4, h1, h2, h3, h5 (sk'.deterministic hd), h6 (sk'.acceptor ha),
    fun hdP => ⟨gP hdP, gN hdP⟩, hW⟩
  unfold minimizeWeighted
  rw [hN n (by omega)]
  simp only
  rw [hr]
  simp only
  exact minimizeEncoded_mono hh (by omega)

/-- The mask of `minimize`. -/
theorem minimizeWith_props (f : Fst W) (hw : f.WF) (tf : f.Truthful) (hs : f.start ≠ none ∨ f.numStates = 0) (hz : ∀ s, f.finOf s ≠ some 0) :
    ∃ f' p, f.computeAndUpdate (Props.of [.acceptor, .iDeterministic, .weighted, .unweighted]) = .ok (f', p) ∧ f'.states = f.states ∧ f'.start = f.start ∧
      f'.Truthful ∧ (p .acceptor = true ↔ f.Holds .acceptor) ∧ (p .iDeterministic = true ↔ f.Holds .iDeterministic) ∧
      (p .weighted = true ↔ f.Holds .weighted) := by
  obtain ⟨f', p, h1, h2, h3, h4, h5, -⟩ := C07_update f hw tf hs (Props.of [.acceptor, .iDeterministic, .weighted, .unweighted]) (fun _ => hz)
  refine ⟨f', p, h1, h3, h4, h5, ?_, ?_, ?_⟩ <;> rw [h2] <;> simp [Props.of_apply]

/-- C59: `minimize` on a deterministic acceptor whose weights are not zero and no final state of which has an ε-transition, if rounding does not
change the weights in `P`. It terminates, succeeds, and the result has the same accepting paths with the same weights, up to one leading ε (which
is needed if the start state is on a cycle). It is a deterministic acceptor, all its states are useful and its flags are right. -/
theorem C59_minimize (L : MinLaw divL P rev back sf eqv q qf lt merge) (transducer : Bool → Fst W → Nat → Option (R (Fst W))) (allowNondet : Bool)
    (hw : f.WF) (tf : f.Truthful) (hs : f.start ≠ none ∨ f.numStates = 0)
    (hp : f.CanPush) (hf : f.WeightsIn P) (hnz : f.WeightsIn (· ≠ 0)) (hd : f.Deterministic) (ha : f.Holds .acceptor)
    (he : ∀ s, f.IsFinal s → ∀ t ∈ f.trsOf s, t.ilabel ≠ EPS)
    (hdP : ∀ a b v, P a → P b → b ≠ 0 → divL a b = .ok v → P v) (hq : ∀ w, P w → qf w = w) :
    ∃ (h : Fst W) (k : Nat), EndsWith (f.minimizeWith divL divR rev back sf eqv q lt merge transducer allowNondet) (.ok h) ∧ k ≤ 1 ∧
      (∀ n, live (h.accPaths n) = delay k (fun n => live (f.accPaths n)) n) ∧
      h.WF ∧ h.Truthful ∧ h.AllUseful ∧ h.Deterministic ∧ h.Holds .acceptor := by
  obtain ⟨f', p, h1, h2, h3, h4, h5, h6, h7⟩ := minimizeWith_props f hw tf hs (fun s hfs => hnz.2 s _ hfs rfl)
  have eT : ∀ s, f'.trsOf s = f.trsOf s := by intro s; unfold trsOf; rw [h2]
  have eF : ∀ s, f'.finOf s = f.finOf s := by intro s; unfold finOf; rw [h2]
  have eN : f'.numStates = f.numStates := by unfold numStates; rw [h2]
  have w' : f'.WF := ⟨fun i hi => by rw [eN]; exact hw.start_lt i (h3 ▸ hi), fun s t ht => by rw [eN]; exact hw.next_lt s t (eT s ▸ ht)⟩
  have hpath : ∀ n, f'.accPaths n = f.accPaths n := by
    intro n
    unfold accPaths
    rw [h3]
    cases f.start with
    | none => rfl
    | some i => exact pathsFrom_congr eT eF n i
  have pA := h5.2 ha
  have pD : p .iDeterministic = true := h6.2 hd
  have hd' : f'.Deterministic := fun s => by rw [eT]; exact hd s
  have ha' : f'.Holds .acceptor := fun s t ht => ha s t (eT s ▸ ht)
  have hrun : ∀ n, f.minimizeWith divL divR rev back sf eqv q lt merge transducer allowNondet n =
      if p .weighted = true then f'.minimizeWeighted divL divR rev back sf eqv q lt merge true n else acceptorMinimize lt rev merge true f' n := by
    intro n
    unfold minimizeWith
    rw [h1]
    simp [pA, pD]
  by_cases hwt : p .weighted = true
  · have hs' : f'.start ≠ none := by
      rw [h3]
      rcases hs with h | h
      · exact h
      · exfalso
        refine (h7.1 hwt) ⟨fun s t ht => ?_, fun s w hsw => ?_⟩
        · have := lt_of_mem_trsOf ht; omega
        · rw [finOf_of_ge (by omega)] at hsw; cases hsw
    obtain ⟨g, r, h, k, -, b, c, d, e, e', ⟨N, hN⟩, i1, i2, i3, i4, i5, i6, i7, -⟩ := C59_weighted (divR := divR) (f := f') L true w' h4 hs' (hp.congr eT)
      ⟨fun s t ht => hf.1 s t (eT s ▸ ht), fun s w hsw => hf.2 s w (eF s ▸ hsw)⟩ hd' ha'
      (fun s hfs t ht => he s (by unfold IsFinal at *; rwa [eF] at hfs) t (eT s ▸ ht))
    have gP := (i7 hdP).1
    have hr : ∀ n, r.accPaths n = g.accPaths n := by
      intro n
      unfold accPaths
      rw [e']
      cases g.start with
      | none => rfl
      | some i =>
        refine pathsFrom_congr (fun s => ?_) (fun s => ?_) n i
        · rw [d]
          conv_rhs => rw [← List.map_id (g.trsOf s)]
          refine List.map_congr_left fun t ht => ?_
          rw [hq _ (gP.1 s t ht)]; rfl
        · rw [e]
          cases hgf : g.finOf s with
          | none => rfl
          | some w => rw [Option.map_some, hq _ (gP.2 s w hgf)]
    refine ⟨h, k, ⟨N, fun n hn => by rw [hrun, if_pos hwt]; exact hN n hn⟩, b, fun n => ?_, i2, i3, i4, i5, i6⟩
    rw [i1, hr, c]
    simp only [hpath]
  · have hu : f.Unweighted := by
      by_contra hc
      exact hwt (h7.2 hc)
    have pf : f'.Plain := by
      refine ⟨fun s t ht => (ha' s t ht).symm, fun s t ht => ?_, fun s w hsw => ?_⟩
      · exact (hu.1 s t (eT s ▸ ht)).resolve_left (hnz.1 s t (eT s ▸ ht))
      · exact (hu.2 s w (eF s ▸ hsw)).resolve_left (hnz.2 s w (eF s ▸ hsw))
    obtain ⟨h, i1, i2, i3, i4, i5, i6, -, i7, i8, -⟩ := C57_acceptor_minimize.{u, v, 0} L.lt_ok rev L.heap true f' w' h4 (by rw [h3, eN]; exact hs) pf (.inl hd')
      (f'.numStates + 1) (by omega)
    refine ⟨h, 0, ⟨_, fun n hn => by rw [hrun, if_neg hwt]; exact acceptorMinimize_mono i1 hn⟩, by omega, fun n => ?_, i3, i6, i4, i7 hd',
      fun s t ht => (i5.acceptor s t ht).symm⟩
    rw [delay_zero, i8 n hd', hpath]

/-- C59: an FST that is not deterministic is refused, unless the weights are idempotent and the caller allows it. -/
theorem C59_refuses (transducer : Bool → Fst W → Nat → Option (R (Fst W))) (allowNondet : Bool)
    (hw : f.WF) (tf : f.Truthful) (hs : f.start ≠ none ∨ f.numStates = 0) (hz : ∀ s, f.finOf s ≠ some 0) (hd : ¬ f.Deterministic)
    (h : sf.idempotent = false ∨ allowNondet = false) (n : Nat) :
    f.minimizeWith divL divR rev back sf eqv q lt merge transducer allowNondet n = some (.error .err) := by
  obtain ⟨f', p, h1, h2, h3, h4, h5, h6, h7⟩ := minimizeWith_props f hw tf hs hz
  have pD : p .iDeterministic = false := by
    rw [Bool.eq_false_iff]
    exact fun hc => hd (h6.1 hc)
  unfold minimizeWith
  rw [h1]
  rcases h with h | h <;> simp [pD, h]

end
/-! ## Tropical weights -/

/-- `quantize_assign` of a tropical weight (semiring.rs 132-145): infinite values stay. -/
def TW.quantize {K : Type} [Field K] [LinearOrder K] [IsStrictOrderedRing K] [FloorRing K] (delta : K) : TW K → TW K
  | .fin x => .fin (Verif.quantize delta x)
  | w => w

section trop
variable {K : Type} [Field K] [LinearOrder K] [IsStrictOrderedRing K] [FloorRing K] {delta : K}

/-- Infinity and the multiples of `delta`. -/
def OnGrid (delta : K) (w : TW K) : Prop := w = .inf ∨ ∃ x ∈ AddSubgroup.zmultiples delta, w = .fin x

theorem onGrid_closed : Closed (OnGrid delta) := by
  refine ⟨.inl rfl, .inr ⟨0, zero_mem _, rfl⟩, ?_, ?_⟩
  · intro a b ha hb
    show OnGrid delta (TW.plus a b)
    unfold TW.plus
    split <;> assumption
  · rintro _ _ (rfl | ⟨x, hx, rfl⟩) (rfl | ⟨y, hy, rfl⟩)
    · exact .inl rfl
    · exact .inl rfl
    · exact .inl rfl
    · exact .inr ⟨x + y, add_mem hx hy, rfl⟩

theorem WeakLeft.sub {W : Type u} [Zero W] [One W] [Add W] [Mul W] {divL : W → W → R W} {P Q : W → Prop} (h : WeakLeft divL P) (hq : Closed Q)
    (hs : ∀ a, Q a → P a) : WeakLeft divL Q :=
  ⟨hq, fun a b ha hb => h.noZeroDiv a b (hs a ha) (hs b hb), fun a b ha hb => h.zeroSumFree a b (hs a ha) (hs b hb),
    fun a b ha hb => h.div a b (hs a ha) (hs b hb)⟩

theorem tropLtOk : LtOk (TW.lt (K := K)) := ⟨rfl, by
  show TW.lt (.fin 0) (.fin 0) = false
  simp [TW.lt], rfl⟩

/-- Tropical weights that are multiples of `delta` meet all the conditions. -/
theorem tropMinLaw (delta : K) {eqv : TW K → TW K → Bool} (hexact : ∀ a b, eqv a b = true ↔ b = a)
    {merge : List (List (Tr (TW K))) → List (Tr (TW K))} (hmg : HeapMerge merge) :
    MinLaw TW.divE (OnGrid delta) id id (TW.ops (K := K)).flags eqv (fun w => .ok (TW.quantize delta w)) (TW.quantize delta) TW.lt merge where
  mul_zero' := mul_zero
  zero_mul' := zero_mul
  back_rev _ := rfl
  rev_back _ := rfl
  zero := rfl
  one := rfl
  add _ _ := rfl
  mul a b := mul_comm a b
  exact := hexact
  right := rfl
  idem _ a := by
    change TW.plus a a = a
    cases a <;> simp [TW.plus_fin]
  div := TW.weakLeft.sub onGrid_closed (by
    rintro _ (rfl | ⟨x, -, rfl⟩) h <;> cases h)
  round _ := rfl
  lt_ok := tropLtOk
  heap := hmg

/-- C59 for tropical weights: if no transition weight is negative and all weights are multiples of `delta`, `minimize` keeps the accepting paths and their
weights. -/
theorem C59_tropical (hd0 : delta ≠ 0) {eqv : TW K → TW K → Bool} (hexact : ∀ a b, eqv a b = true ↔ b = a)
    {merge : List (List (Tr (TW K))) → List (Tr (TW K))} (hmg : HeapMerge merge)
    (transducer : Bool → Fst (TW K) → Nat → Option (R (Fst (TW K)))) (allowNondet : Bool) {f : Fst (TW K)} (hw : f.WF) (tf : f.Truthful)
    (hs : f.start ≠ none ∨ f.numStates = 0) (hpos : ∀ s, ∀ t ∈ f.trsOf s, t.weight.Nonneg)
    (hgrid : f.WeightsIn fun w => ∃ x ∈ AddSubgroup.zmultiples delta, w = .fin x) (hd : f.Deterministic) (ha : f.Holds .acceptor)
    (he : ∀ s, f.IsFinal s → ∀ t ∈ f.trsOf s, t.ilabel ≠ EPS) :
    ∃ (h : Fst (TW K)) (k : Nat), EndsWith (f.minimizeWith TW.divE TW.divE id id (TW.ops (K := K)).flags eqv (fun w => .ok (TW.quantize delta w)) TW.lt merge
        transducer allowNondet) (.ok h) ∧ k ≤ 1 ∧
      (∀ n, live (h.accPaths n) = delay k (fun n => live (f.accPaths n)) n) ∧
      h.WF ∧ h.Truthful ∧ h.AllUseful ∧ h.Deterministic ∧ h.Holds .acceptor := by
  have L := tropMinLaw delta hexact hmg
  refine C59_minimize L transducer allowNondet hw tf hs (.inr ⟨L.idem rfl, fun n s c hc a => ?_⟩) ⟨fun s t ht => .inr (hgrid.1 s t ht), fun s w h => .inr (hgrid.2 s w h)⟩
    ⟨fun s t ht h => ?_, fun s w hsw h => ?_⟩ hd ha he ?_ ?_
  · rw [mul_comm c a]; exact TW.cyclesAbsorbed hpos n s c hc a
  · obtain ⟨x, -, hx⟩ := hgrid.1 s t ht
    rw [hx] at h; cases h
  · obtain ⟨x, -, hx⟩ := hgrid.2 s w hsw
    rw [hx] at h; cases h
  · rintro _ _ v (rfl | ⟨x, hx, rfl⟩) (rfl | ⟨y, hy, rfl⟩) hb h
    · exact absurd rfl hb
    · cases h; exact .inl rfl
    · exact absurd rfl hb
    · cases h; exact .inr ⟨x - y, sub_mem hx hy, rfl⟩
  · rintro _ (rfl | ⟨x, hx, rfl⟩)
    · rfl
    · show TW.fin (Verif.quantize delta x) = _
      rw [quantize_multiple hd0 x hx]

end trop

/-! ## Instances -/

/-- A weighted acceptor with a cycle through the start state; states 1 and 2 do the same once the weights are pushed. -/
def exMinW : Fst (TW ℚ) :=
  ((((((((Fst.new.addStates 3).setStart 0).setFinal 1 (.fin 1)).setFinal 2 (.fin 3)).addTr 0 ⟨1, 1, .fin 4, 1⟩).addTr 0 ⟨2, 2, .fin 2, 2⟩).addTr 1
    ⟨3, 3, .fin 0, 0⟩).addTr 2 ⟨3, 3, .fin 2, 0⟩)

theorem exMinW_truthful : exMinW.Truthful := by
  unfold exMinW
  repeat' first
    | apply truthful_new
    | (refine truthful_addTr ?_ (by decide) _)
    | (refine truthful_setFinal ?_ (by decide) _)
    | apply truthful_setStart
    | apply truthful_addStates

/-- The instance meets the hypotheses of `C59_tropical`. -/
example : exMinW.WF ∧ exMinW.Truthful ∧ exMinW.start ≠ none ∧ (∀ s, ∀ t ∈ exMinW.trsOf s, t.weight.Nonneg) ∧
    (exMinW.WeightsIn fun w => ∃ x ∈ AddSubgroup.zmultiples (1 : ℚ), w = .fin x) ∧ exMinW.Deterministic ∧ exMinW.Holds .acceptor ∧
    ∀ s, exMinW.IsFinal s → ∀ t ∈ exMinW.trsOf s, t.ilabel ≠ EPS := by
  have key : ∀ s < 3, (∀ t ∈ exMinW.trsOf s, (∃ x ∈ List.range 10, t.weight = TW.fin (x : ℚ)) ∧ t.ilabel = t.olabel ∧ t.ilabel ≠ EPS) ∧
      ∀ w ∈ exMinW.finOf s, ∃ x ∈ List.range 10, w = TW.fin (x : ℚ) := by decide +kernel
  have key1 : ∀ s, ∀ t ∈ exMinW.trsOf s, (∃ x ∈ List.range 10, t.weight = TW.fin (x : ℚ)) ∧ t.ilabel = t.olabel ∧ t.ilabel ≠ EPS :=
    fun s t ht => (key s (lt_of_mem_trsOf ht)).1 t ht
  have hnat : ∀ x : Nat, (x : ℚ) ∈ AddSubgroup.zmultiples (1 : ℚ) := fun x => AddSubgroup.mem_zmultiples_iff.2 ⟨x, by simp⟩
  refine ⟨Fst.wf_of_wfB (by decide), exMinW_truthful, by decide, fun s t ht => ?_, ⟨fun s t ht => ?_, fun s w hw => ?_⟩, deterministic_of_b (by decide),
    fun s t ht => (key1 s t ht).2.1, fun s _ t ht => (key1 s t ht).2.2⟩
  · obtain ⟨⟨x, -, hx⟩, -⟩ := key1 s t ht
    rw [hx]
    exact Nat.cast_nonneg x
  · obtain ⟨⟨x, -, hx⟩, -⟩ := key1 s t ht
    exact ⟨x, hnat x, hx⟩
  · obtain ⟨x, -, hx⟩ := (key s (IsFinal.lt (by unfold IsFinal; rw [hw]; rfl))).2 w hw
    exact ⟨x, hnat x, hx⟩

/-- States 1 and 2 are merged; the new start state carries the total weight 5. -/
example : (match exMinW.minimizeWith TW.divE TW.divE id id (TW.ops (K := ℚ)).flags (fun a b => decide (b = a)) (fun w => .ok (TW.quantize 1 w)) TW.lt
    sortMerge (fun _ _ _ => none) false 20 with
    | some (.ok g) => decide (g.numStates = 3 ∧ g.start = some 2 ∧ g.trsOf 2 = [⟨EPS, EPS, .fin 5, 0⟩] ∧ (g.trsOf 0).map (·.weight) = [.fin 0, .fin 0] ∧
        g.trsOf 1 = [⟨3, 3, .fin 4, 0⟩] ∧ g.finOf 1 = some (.fin 0))
    | _ => false) = true := by
  unfold minimizeWith minimizeWeighted minimizeEncoded acceptorMinimize cyclicPartition
  simp only [trSort_eval, trUnique_eval]
  decide +kernel

/-- A loop of weight 2/5. -/
def exMinR : Fst (TW ℚ) := (((Fst.new.addStates 1).setStart 0).setFinal 0 (.fin 0)).addTr 0 ⟨1, 1, .fin (2/5), 0⟩

/-- What rounding costs: it is done once for each transition, so the error of a path is not bounded by `delta` but grows with its length. With `delta = 1`, five
turns of a loop of weight 2/5 have weight 2 before and 0 after. -/
theorem C59_rounding_defect : exMinR.WF ∧ exMinR.Deterministic ∧ exMinR.weightOf 5 [1, 1, 1, 1, 1] [1, 1, 1, 1, 1] = .fin 2 ∧
    ∃ g, exMinR.minimizeWith TW.divE TW.divE id id (TW.ops (K := ℚ)).flags (fun a b => decide (b = a)) (fun w => .ok (TW.quantize 1 w)) TW.lt
      sortMerge (fun _ _ _ => none) false 20 = some (.ok g) ∧ g.weightOf 5 [1, 1, 1, 1, 1] [1, 1, 1, 1, 1] = .fin 0 := by
  refine ⟨Fst.wf_of_wfB (by decide), deterministic_of_b (by decide), by decide +kernel, ?_⟩
  have h : (match exMinR.minimizeWith TW.divE TW.divE id id (TW.ops (K := ℚ)).flags (fun a b => decide (b = a)) (fun w => .ok (TW.quantize 1 w)) TW.lt
      sortMerge (fun _ _ _ => none) false 20 with
    | some (.ok g) => decide (g.weightOf 5 [1, 1, 1, 1, 1] [1, 1, 1, 1, 1] = .fin 0)
    | _ => false) = true := by
    unfold minimizeWith minimizeWeighted minimizeEncoded acceptorMinimize cyclicPartition
    simp only [trSort_eval, trUnique_eval]
    decide +kernel
  split at h
  · next g hg => exact ⟨g, hg, of_decide_eq_true h⟩
  · cases h

end Verif
