import Verif.Lemmas.EpsLoop
import Verif.Props.C32

/-!
# C35: `rm_epsilon`

Two settings, as in the property: the ε-transitions form no cycle, or the weights are idempotent and going around an ε-cycle never adds
anything. A third hypothesis, `EpsPositive`, excludes ε-transitions whose weight is zero (or that cancel each other): with them the
result is wrong, see `C35_stale_distance`.
-/

namespace Verif
universe u v
set_option linter.unusedSectionVars false
open Fst Dfs RmEps

section
variable {W : Type u} [Semiring W] [DecidableEq W]

/-- All that is known of the result. -/
theorem RmEps.rmEpsilon_all {sf : SemiringFlags} {eqv : W → W → Bool} {f : Fst W} (hexact : ∀ a b, eqv a b = true ↔ b = a) (hsf : sf.right = true)
    (hidf : sf.idempotent = true → ∀ a : W, a + a = a) (hw : f.WF) (ht : f.Truthful) {i : StateId} (hi : f.start = some i)
    (hp : f.EpsPositive) (hcase : f.NoCycles isEps ∨ ((∀ a : W, a + a = a) ∧ f.CyclesAbsorbed isEps)) :
    ∃ g, EndsWith (f.rmEpsilon sf eqv) (.ok g) ∧ g.WF ∧ g.Truthful ∧ (f.AllCounters → g.AllCounters) ∧ g.NoEpsTr ∧
      (∀ x y, ∃ v, f.IsWeight x y v ∧ g.IsWeight x y v) ∧ RmEps.Kept f g := by
  have fin : ∀ q, AutoQ.new sf f isEps = .ok q → (∃ S : Solver f AutoQ.ops, S.L.Rep none q ∅) → f.EpsCase →
      ∃ g, EndsWith (f.rmEpsilon sf eqv) (.ok g) ∧ g.WF ∧ g.Truthful ∧ (f.AllCounters → g.AllCounters) ∧ g.NoEpsTr ∧
      (∀ x y, ∃ v, f.IsWeight x y v ∧ g.IsWeight x y v) ∧ RmEps.Kept f g := by
    rintro q hq ⟨S, hS⟩ hc
    obtain ⟨g, ⟨N, hN⟩, h⟩ := rmEpsilonWith_spec S hS hexact hsf hw ht hp hi hc
    refine ⟨g, ⟨N, fun n hn => ?_⟩, h⟩
    unfold rmEpsilon
    rw [hq]
    exact hN n hn
  have idem : (∀ a : W, a + a = a) → f.CyclesAbsorbed isEps → ∃ g, EndsWith (f.rmEpsilon sf eqv) (.ok g) ∧ g.WF ∧ g.Truthful ∧
      (f.AllCounters → g.AllCounters) ∧ g.NoEpsTr ∧ (∀ x y, ∃ v, f.IsWeight x y v ∧ g.IsWeight x y v) ∧ RmEps.Kept f g := by
    intro hid hcyc
    obtain ⟨q, hq, L, hL⟩ := AutoQ.new_lawful hw ht sf isEps
    obtain ⟨S, hS⟩ := solver_idem hid hcyc L
    exact fin q hq ⟨S, hS _ _ _ hL⟩ (.idem hid)
  rcases hcase with hac | ⟨hid, hcyc⟩
  · by_cases hi' : sf.idempotent = true
    · exact idem (hidf hi') (cyclesAbsorbed_of_noCycles hac)
    · have hi' : sf.idempotent = false := by simpa using hi'
      have hac' : ¬ ∃ q, Relation.TransGen (KEdge f isEps) q q := by
        rintro ⟨q, hq⟩
        obtain ⟨n, c, hc⟩ := walk_of_transGen hq
        exact hac n q c hc
      obtain ⟨q, hq, ⟨ord, hord, L, hL⟩ | ⟨hno, L, hL⟩⟩ := AutoQ.new_topological hw ht hi sf hi' isEps hac'
      · obtain ⟨S, hS⟩ := solver_top hord L
        exact fin q hq ⟨S, hS _ _ _ hL⟩ (.ord ord fun p t ht hk => hord p _ ⟨t, ht, hk, rfl⟩)
      · obtain ⟨S, hS⟩ := solver_no hno L
        exact fin q hq ⟨S, hS _ _ _ hL⟩ (.ord id fun p t ht hk => absurd ⟨t, ht, hk, rfl⟩ (hno p t.nextstate))
  · exact idem hid hcyc

/-- C35: the result has no ε-transition, and every pair of strings keeps its weight. Also, its flags are true (C51). -/
theorem C35_rm_epsilon {sf : SemiringFlags} {eqv : W → W → Bool} {f : Fst W} (hexact : ∀ a b, eqv a b = true ↔ b = a) (hsf : sf.right = true)
    (hidf : sf.idempotent = true → ∀ a : W, a + a = a) (hw : f.WF) (ht : f.Truthful) {i : StateId} (hi : f.start = some i)
    (hp : f.EpsPositive) (hcase : f.NoCycles isEps ∨ ((∀ a : W, a + a = a) ∧ f.CyclesAbsorbed isEps)) :
    ∃ g, EndsWith (f.rmEpsilon sf eqv) (.ok g) ∧ g.WF ∧ g.Truthful ∧ (f.AllCounters → g.AllCounters) ∧ g.NoEpsTr ∧
      ∀ x y, ∃ v, f.IsWeight x y v ∧ g.IsWeight x y v := by
  obtain ⟨g, h1, h2, h3, h4, h5, h6, -⟩ := RmEps.rmEpsilon_all hexact hsf hidf hw ht hi hp hcase
  exact ⟨g, h1, h2, h3, h4, h5, h6⟩

/-- C35: an FST without start state is left as it is. -/
theorem C35_startless {sf : SemiringFlags} {eqv : W → W → Bool} {f : Fst W} (hw : f.WF) (ht : f.Truthful) (hi : f.start = none) (n : Nat) :
    f.rmEpsilon sf eqv n = some (.ok f) := by
  obtain ⟨q, hq, -⟩ := AutoQ.new_lawful hw ht sf isEps
  unfold rmEpsilon rmEpsilonWith
  simp only [hq, hi]

/-! ## The lazy version -/

/-- A sequence of calls of the lazy operation, each with the state the last one left. -/
def RmEps.computeAll (eqv : W → W → Bool) (sf : SemiringFlags) (f : Fst W) (fuel : Nat) :
    List StateId → RmEps W (List StateId) → Option (R (List (List (Tr W) × Option W)))
  | [], _ => some (.ok [])
  | s :: l, r =>
    match RmEps.computeTrs eqv sf f s fuel r with
    | none => none
    | some (.error x) => some (.error x)
    | some (.ok (row, r)) =>
      match RmEps.computeAll eqv sf f fuel l r with
      | none => none
      | some (.error x) => some (.error x)
      | some (.ok rows) => some (.ok (row :: rows))

/-- What a row of the lazy FST stands for. -/
structure RowOk (f : Fst W) (s : StateId) (row : List (Tr W) × Option W) : Prop where
  non : ∀ t ∈ row.1, isEps t = false ∧ t.nextstate < f.numStates
  sum : ∀ h b (B : StateId → W), f.IsClosure (f.row h b) B →
    (if b then row.2.getD 0 else 0) + ((row.1).map fun t => t.weight * h t.ilabel t.olabel t.nextstate).sum = B s

theorem rowOk_of_expansion {f : Fst W} (hw : f.WF) {d : StateId → StateId → W} (hd : f.EpsDist d) {s : StateId} (hs : s < f.numStates)
    {trs : List (Tr W)} {w : W} {d' : StateId → W} (h3 : Expansion f s trs w d') : RowOk f s (trs.reverse, if w ≠ 0 then some w else none) := by
  have hrepl := putBack_repl hw hd hs h3
  have hbel := putBack_below hw hs h3
  have htrs : (f.putBack s trs w).trsOf s = trs.reverse := by rw [putBack_trs f hs, if_pos rfl]
  have hfin : (f.putBack s trs w).finOf s = if w ≠ 0 then some w else none := by
    rw [putBack_fin f hs, if_pos rfl]
    by_cases h : w = 0 <;> simp [h]
  refine ⟨fun t ht => ⟨hrepl.non t (by rw [htrs]; exact ht), ?_⟩, fun h b B hB => ?_⟩
  · have := hbel.wf.next_lt s t (by rw [htrs]; exact ht)
    rwa [hbel.num] at this
  · rw [← hrepl.row h b B hB]
    unfold Fst.row nonOp
    rw [List.filter_eq_self.2 fun t ht => by simp [hrepl.non t ht], htrs, hfin]

theorem computeAll_spec {f : Fst W} (S : Solver f fifoOps) {eqv : W → W → Bool} (hex : ∀ a b, eqv a b = true ↔ b = a) {sf : SemiringFlags}
    (hsf : sf.right = true) (hw : f.WF) (hp : f.EpsPositive) {i : StateId} (hi : f.start = some i) :
    ∀ (l : List StateId) (r : RmEps W (List StateId)), (∀ s ∈ l, s < f.numStates) → Rest S ⟨fifoOps, eqv, isEps, true⟩ r →
      ∃ rows, EndsWith (fun n => RmEps.computeAll eqv sf f n l r) (.ok rows) ∧ rows.length = l.length ∧
        ∀ (k : Nat) s row, l[k]? = some s → rows[k]? = some row → RowOk f s row
  | [], r, _, _ => ⟨[], ⟨0, fun _ _ => rfl⟩, rfl, fun k s row h => by simp at h⟩
  | s :: l, r, hl, hr => by
    have hs := hl s (by simp)
    obtain ⟨N, trs, w, r', d', h1, h2, h3⟩ := expand_spec S hex hsf hp hi (Below.refl hw) hs hr
    obtain ⟨d, hd⟩ := epsDist S hex hp hi (Below.refl hw) hr
    obtain ⟨rows, ⟨M, hM⟩, hlen, hrows⟩ := computeAll_spec S hex hsf hw hp hi l r' (fun p hp => hl p (by simp [hp])) h2
    refine ⟨(trs.reverse, if w ≠ 0 then some w else none) :: rows, ⟨max N M, fun n hn => ?_⟩, by simp [hlen], fun k p row hk hrow => ?_⟩
    · simp only [RmEps.computeAll, RmEps.computeTrs, h1 n (by omega)]
      have := hM n (by omega)
      simp only at this
      rw [this]
    · cases k with
      | zero =>
        simp only [List.getElem?_cons_zero, Option.some.injEq] at hk hrow
        subst hk hrow
        exact rowOk_of_expansion hw hd hs h3
      | succ k =>
        simp only [List.getElem?_cons_succ] at hk hrow
        exact hrows k p row hk hrow

/-- An FST made of such rows. -/
theorem rows_weights {f g : Fst W} (hw : f.WF) {i : StateId} (hi : f.start = some i) (hc : f.EpsCase) {d : StateId → StateId → W} (hd : f.EpsDist d)
    (hn : g.numStates = f.numStates) (hst : g.start = f.start) (hrow : ∀ s, s < f.numStates → RowOk f s (g.trsOf s, g.finOf s)) :
    g.NoEpsTr ∧ g.WF ∧ ∀ x y, ∃ v, f.IsWeight x y v ∧ g.IsWeight x y v := by
  have hno : g.NoEpsTr := by
    intro s t ht
    have := lt_of_mem_trsOf ht
    exact ((hrow s (by omega)).non t ht).1
  have gw : g.WF := by
    refine ⟨fun j hj => ?_, fun s t ht => ?_⟩
    · rw [hn]; rw [hst] at hj; exact hw.start_lt j hj
    · have := lt_of_mem_trsOf ht
      rw [hn]
      exact ((hrow s (by omega)).non t ht).2
  refine ⟨hno, gw, fun x y => ?_⟩
  have heq : EpsEquiv f g := by
    refine ⟨hn, hst, fun h b => ⟨_, closure_of_dist hw hd _, fun s hs => ⟨1, fun n hn' => ?_⟩⟩⟩
    obtain ⟨n, rfl⟩ : ∃ m, n = m + 1 := ⟨n - 1, by omega⟩
    rw [hn] at hs
    rw [← (hrow s hs).sum h b _ (closure_of_dist hw hd _)]
    simp only [epsSum, epsOp, Fst.row, nonOp]
    have e1 : (g.trsOf s).filter isEps = [] := List.filter_eq_nil_iff.2 fun t ht => by simp [hno s t ht]
    have e2 : (g.trsOf s).filter (fun t => !isEps t) = g.trsOf s := List.filter_eq_self.2 fun t ht => by simp [hno s t ht]
    rw [e1, e2]
    simp
  obtain ⟨V, hV⟩ := heq.reads hw gw hc (.ord id fun p t ht hk => by rw [hno p t ht] at hk; cases hk)
  obtain ⟨⟨N1, hN1⟩, ⟨N2, hN2⟩⟩ := hV (x, y) i (hw.start_lt i hi)
  refine ⟨V (x, y) i, ⟨N1, fun n hn => ?_⟩, ⟨N2, fun n hn => ?_⟩⟩
  · rw [← hN1 n hn]
    exact Finset.sum_congr rfl fun k _ => weightOf_eq hi k x y
  · rw [← hN2 n hn]
    exact Finset.sum_congr rfl fun k _ => weightOf_eq (hst.trans hi) k x y

/-- The states numbered along the transitions that are kept, if these form no cycle. -/
theorem ord_of_noCycles {f : Fst W} (hw : f.WF) {keep : Tr W → Bool} (hac : f.NoCycles keep) :
    ∃ ord : StateId → Nat, ∀ a b, KEdge f keep a b → ord a < ord b := by
  classical
  have hno : ∀ q, ¬ Relation.TransGen (KEdge f keep) q q := fun q hq => by
    obtain ⟨n, c, hc⟩ := walk_of_transGen hq
    exact hac n q c hc
  refine ⟨fun b => ((Finset.range f.numStates).filter fun a => Relation.TransGen (KEdge f keep) a b).card, fun a b hab => ?_⟩
  refine Finset.card_lt_card ⟨fun x hx => ?_, fun h => ?_⟩
  · rw [Finset.mem_filter] at hx ⊢
    exact ⟨hx.1, hx.2.tail hab⟩
  · obtain ⟨t, ht, hk, e⟩ := hab
    have := h (Finset.mem_filter.2 ⟨Finset.mem_range.2 (lt_of_mem_trsOf ht), Relation.TransGen.single ⟨t, ht, hk, e⟩⟩)
    exact hno a (Finset.mem_filter.1 this).2

/-- The lazy operation has what it needs. -/
theorem solver_fifo {f : Fst W} (hw : f.WF) (hcase : f.NoCycles isEps ∨ ((∀ a : W, a + a = a) ∧ f.CyclesAbsorbed isEps)) :
    f.EpsCase ∧ ∃ S : Solver f fifoOps, S.L.Rep none [] ∅ := by
  have h0 : (fifoLaw (EdgeOk f isEps)).Rep none [] ∅ := fun x => ⟨fun h => absurd h (Set.notMem_empty x), fun h => by cases h⟩
  rcases hcase with hac | ⟨hid, hcyc⟩
  · obtain ⟨ord, hord⟩ := ord_of_noCycles hw hac
    obtain ⟨S, hS⟩ := solver_any hw hord (fifoLaw (EdgeOk f isEps))
    exact ⟨.ord ord fun p t ht hk => hord p _ ⟨t, ht, hk, rfl⟩, S, hS _ _ _ h0⟩
  · obtain ⟨S, hS⟩ := solver_idem hid hcyc (fifoLaw (EdgeOk f isEps))
    exact ⟨.idem hid, S, hS _ _ _ h0⟩

/-- C35 for the lazy operation (`RmEpsilonFst`): whatever states are asked for, in whatever order and however often, an FST made of the
answers has no ε-transition and gives every pair of strings the weight it had. -/
theorem C35_lazy {sf : SemiringFlags} {eqv : W → W → Bool} {f : Fst W} (hexact : ∀ a b, eqv a b = true ↔ b = a) (hsf : sf.right = true)
    (hw : f.WF) {i : StateId} (hi : f.start = some i) (hp : f.EpsPositive)
    (hcase : f.NoCycles isEps ∨ ((∀ a : W, a + a = a) ∧ f.CyclesAbsorbed isEps)) (l : List StateId) (hl : ∀ s ∈ l, s < f.numStates) :
    ∃ rows, EndsWith (fun n => RmEps.computeAll eqv sf f n l (RmEps.new [])) (.ok rows) ∧ rows.length = l.length ∧
      ∀ g : Fst W, g.numStates = f.numStates → g.start = f.start →
        (∀ s, s < f.numStates → ∃ k : Nat, l[k]? = some s ∧ rows[k]? = some (g.trsOf s, g.finOf s)) →
        g.NoEpsTr ∧ ∀ x y, ∃ v, f.IsWeight x y v ∧ g.IsWeight x y v := by
  obtain ⟨hc, S, hS⟩ := solver_fifo hw hcase
  have hrest : Rest S ⟨fifoOps, eqv, isEps, true⟩ (RmEps.new []) := Rest.new hS
  obtain ⟨rows, h1, h2, h3⟩ := computeAll_spec S hexact hsf hw hp hi l (RmEps.new []) hl hrest
  refine ⟨rows, h1, h2, fun g hn hst hg => ?_⟩
  obtain ⟨d, hd⟩ := epsDist S hexact hp hi (Below.refl hw) hrest
  obtain ⟨e1, -, e2⟩ := rows_weights hw hi hc hd hn hst (g := g) fun s hs => by
    obtain ⟨k, hk, hr⟩ := hg s hs
    exact h3 k s _ hk hr
  exact ⟨e1, e2⟩
end

/-- C35 for tropical weights: the weights of the ε-transitions are finite and not negative. -/
theorem C35_tropical {K : Type u} [LinearOrder K] [AddCommMonoid K] [IsOrderedAddMonoid K] {eqv : TW K → TW K → Bool} {f : Fst (TW K)}
    (hexact : ∀ a b, eqv a b = true ↔ b = a) (hw : f.WF) (ht : f.Truthful) {i : StateId} (hi : f.start = some i)
    (hpos : ∀ s, ∀ t ∈ f.trsOf s, isEps t = true → ∃ x : K, 0 ≤ x ∧ t.weight = .fin x) :
    ∃ g, EndsWith (f.rmEpsilon (TW.ops (K := K)).flags eqv) (.ok g) ∧ g.WF ∧ g.Truthful ∧ (f.AllCounters → g.AllCounters) ∧ g.NoEpsTr ∧
      ∀ x y, ∃ v, f.IsWeight x y v ∧ g.IsWeight x y v := by
  have hid : ∀ a : TW K, a + a = a := fun a => by
    change TW.plus a a = a
    cases a <;> simp [TW.plus_fin]
  refine C35_rm_epsilon hexact rfl (fun _ => hid) hw ht hi ⟨fun w => ∃ x : K, 0 ≤ x ∧ w = .fin x, ⟨0, le_refl _, rfl⟩, ?_, ?_, hpos⟩
    (.inr ⟨hid, TW.cyclesAbsorbed_keep isEps fun s t ht hk => ?_⟩)
  · rintro ⟨x, -, h⟩
    exact absurd (show (TW.inf : TW K) = TW.fin x from h) (by simp)
  · rintro a b ⟨x, hx, rfl⟩ ⟨y, hy, rfl⟩
    refine ⟨⟨min x y, le_min hx hy, TW.plus_fin ..⟩, ⟨x + y, add_nonneg hx hy, TW.fin_fin ..⟩⟩
  · obtain ⟨x, hx, e⟩ := hpos s t ht hk
    rw [e]
    exact hx

/-! ## The third hypothesis is needed -/

/-- State 2 has an ε-transition to state 4; state 1 has one to state 3 with weight zero (∞). State 3 leads to state 4. -/
def exStale : Fst (TW Nat) :=
  (((((((Fst.new.addStates 5).setStart 0).addTr 0 ⟨1, 1, .fin 0, 1⟩).addTr 0 ⟨2, 2, .fin 0, 2⟩).addTr 1 ⟨0, 0, .inf, 3⟩).addTr 2
    ⟨0, 0, .fin 0, 4⟩).addTr 3 ⟨0, 0, .fin 0, 4⟩).setFinal 4 (.fin 5)

/-- The computed result. -/
def exStaleOut : Fst (TW Nat) :=
  match exStale.rmEpsilon (TW.ops (K := Nat)).flags (fun a b => decide (b = a)) 30 with
  | some (.ok g) => g
  | _ => exStale

/-- Once no state has a path with `n` transitions, none has a longer one. -/
theorem pathsFrom_none {W : Type u} [Mul W] {f : Fst W} {n : Nat} (h : ∀ s < f.numStates, f.pathsFrom n s = 0) :
    ∀ m, n ≤ m → ∀ s, f.pathsFrom m s = 0 := by
  intro m hm
  induction m, hm using Nat.le_induction with
  | base =>
    intro s
    by_cases hs : s < f.numStates
    · exact h s hs
    · exact pathsFrom_ge (Nat.le_of_not_lt hs) n
  | succ m _ ih =>
    intro s
    rw [pathsFrom_succ]
    simp [ih]

/-- The weight of a pair of strings in an FST without long paths. -/
theorem isWeight_of_none {W : Type u} [Semiring W] {f : Fst W} {n : Nat} (h : ∀ s < f.numStates, f.pathsFrom n s = 0) (x y : List Label) :
    f.IsWeight x y (∑ k ∈ Finset.range n, f.weightOf k x y) := by
  refine ⟨n, fun m hm => ?_⟩
  induction m, hm using Nat.le_induction with
  | base => rfl
  | succ m hm ih =>
    have : f.weightOf m x y = 0 := by
      unfold weightOf accPaths
      split <;> simp [pathsFrom_none h m hm]
    rw [Finset.sum_range_succ, ih, this, add_zero]

/-- `rm_epsilon` can change weights: the distances of one state are kept while the next one is expanded, and a state reached only by
ε-paths of weight zero is still visited, with the distance left there. Before, the string 1 has weight ∞ (no path of finite weight);
after, 5. -/
theorem C35_stale_distance : exStale.rmEpsilon (TW.ops (K := Nat)).flags (fun a b => decide (b = a)) 30 = some (.ok exStaleOut) ∧
    exStale.IsWeight [1] [1] .inf ∧ exStaleOut.IsWeight [1] [1] (.fin 5) := by
  refine ⟨?_, ?_, ?_⟩
  · have : (match exStale.rmEpsilon (TW.ops (K := Nat)).flags (fun a b => decide (b = a)) 30 with | some (.ok _) => true | _ => false) = true := by
      decide +kernel
    unfold exStaleOut
    split at this <;> simp_all
  · have := isWeight_of_none (f := exStale) (n := 4) (by decide +kernel) [1] [1]
    have e : ∑ k ∈ Finset.range 4, exStale.weightOf k [1] [1] = .inf := by decide +kernel
    rwa [e] at this
  · have := isWeight_of_none (f := exStaleOut) (n := 4) (by decide +kernel) [1] [1]
    have e : ∑ k ∈ Finset.range 4, exStaleOut.weightOf k [1] [1] = .fin 5 := by decide +kernel
    rwa [e] at this

/-- An ε-path whose first transition has weight zero. -/
def exShort : Fst (TW Nat) :=
  (((((Fst.new.addStates 4).setStart 0).addTr 0 ⟨1, 1, .fin 0, 1⟩).addTr 1 ⟨0, 0, .inf, 2⟩).addTr 2 ⟨0, 0, .fin 0, 3⟩).setFinal 3 (.fin 5)

/-- For the same reason `rm_epsilon` can panic: the vector of distances has no entry for the state reached. -/
theorem C35_panics : (match exShort.rmEpsilon (TW.ops (K := Nat)).flags (fun a b => decide (b = a)) 30 with
    | some (.error .panic) => true | _ => false) = true := by
  decide +kernel

/-! ## Examples -/

/-- An ε-cycle between states 1 and 2, left by two transitions. -/
def exEpsCycle : Fst (TW Nat) :=
  ((((((Fst.new.addStates 4).setStart 0).addTr 0 ⟨1, 2, .fin 3, 1⟩).addTr 1 ⟨0, 0, .fin 1, 2⟩).addTr 2 ⟨0, 0, .fin 2, 1⟩).addTr 2
    ⟨3, 0, .fin 4, 3⟩).setFinal 3 (.fin 5)

example : ∃ g, EndsWith (exEpsCycle.rmEpsilon (TW.ops (K := Nat)).flags (fun a b => decide (b = a))) (.ok g) ∧ g.WF ∧ g.Truthful ∧
    (exEpsCycle.AllCounters → g.AllCounters) ∧ g.NoEpsTr ∧ ∀ x y, ∃ v, exEpsCycle.IsWeight x y v ∧ g.IsWeight x y v := by
  refine C35_tropical (by simp) (Fst.wf_of_wfB (by decide)) ?_ rfl ?_
  · unfold exEpsCycle
    refine truthful_setFinal (truthful_addTr (truthful_addTr (truthful_addTr (truthful_addTr (truthful_setStart
      (truthful_addStates truthful_new 4) 0) ?_ _) ?_ _) ?_ _) ?_ _) ?_ _ <;> decide
  · intro s
    by_cases hs : s < 4
    · have : ∀ s < 4, ∀ t ∈ exEpsCycle.trsOf s, t.weight ≠ .negInf ∧ t.weight ≠ .inf := by decide +kernel
      intro t ht _
      have h := this s hs t ht
      match ht' : t.weight with
      | .fin x => exact ⟨x, Nat.zero_le x, rfl⟩
      | .negInf => exact absurd ht' h.1
      | .inf => exact absurd ht' h.2
    · rw [trsOf_eq, List.getElem?_eq_none (show exEpsCycle.states.length ≤ s from Nat.le_of_not_lt hs)]
      intro t ht; cases ht

/-- Weights that are not idempotent: two ε-paths from state 0 to state 2. -/
def exEpsNat : Fst Nat :=
  ((((((Fst.new.addStates 4).setStart 0).addTr 0 ⟨0, 0, 2, 1⟩).addTr 0 ⟨0, 0, 3, 2⟩).addTr 1 ⟨0, 0, 5, 2⟩).addTr 2 ⟨7, 7, 1, 3⟩).setFinal 3 11

example : ∃ g, EndsWith (exEpsNat.rmEpsilon ⟨true, true, true, false, false⟩ (fun a b => decide (b = a))) (.ok g) ∧ g.WF ∧ g.Truthful ∧
    (exEpsNat.AllCounters → g.AllCounters) ∧ g.NoEpsTr ∧ ∀ x y, ∃ v, exEpsNat.IsWeight x y v ∧ g.IsWeight x y v := by
  have hall : ∀ s, ∀ t ∈ exEpsNat.trsOf s, s < t.nextstate ∧ 0 < t.weight := by
    intro s
    by_cases hs : s < 4
    · have : ∀ s < 4, ∀ t ∈ exEpsNat.trsOf s, s < t.nextstate ∧ 0 < t.weight := by decide +kernel
      exact this s hs
    · rw [trsOf_eq, List.getElem?_eq_none (show exEpsNat.states.length ≤ s from Nat.le_of_not_lt hs)]
      intro t ht; cases ht
  refine C35_rm_epsilon (by simp) rfl (fun h => by cases h) (Fst.wf_of_wfB (by decide)) ?_ rfl
    ⟨fun w => 0 < w, by decide, by decide, fun a b ha hb => ⟨by omega, Nat.mul_pos ha hb⟩, fun s t ht _ => (hall s t ht).2⟩
    (.inl (noCycles_of_ord id fun s t ht => (hall s t ht).1))
  unfold exEpsNat
  refine truthful_setFinal (truthful_addTr (truthful_addTr (truthful_addTr (truthful_addTr (truthful_setStart
    (truthful_addStates truthful_new 4) 0) ?_ _) ?_ _) ?_ _) ?_ _) ?_ _ <;> decide

/-- The two ε-paths of `exEpsNat` are summed: 3 + 2 · 5. -/
example : (match exEpsNat.rmEpsilon ⟨true, true, true, false, false⟩ (fun a b => decide (b = a)) 20 with
    | some (.ok g) => decide (g.trsOf 0 = [⟨7, 7, 13, 1⟩]) | _ => false) = true := by decide +kernel

end Verif
