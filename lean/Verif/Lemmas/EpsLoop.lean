import Verif.Lemmas.EpsExpand
import Verif.Lemmas.Shape
import Verif.Props.C18

/-! # The loop of epsilon removal -/

namespace Verif
universe u v
set_option linter.unusedSectionVars false

namespace RmEps
open Fst Dfs
variable {W : Type u} {Q : Type v} [Semiring W] [DecidableEq W] {f g : Fst W} {ops : QueueOps Q}

section putBack
variable (g) {s : StateId} (hs : s < g.numStates) (trs : List (Tr W)) (w : W)

theorem putBack_num : (g.putBack s trs w).numStates = g.numStates := by
  unfold putBack; simp only; split <;> simp
theorem putBack_start : (g.putBack s trs w).start = g.start := by
  unfold putBack; simp only; split <;> rfl
include hs in
theorem putBack_trs (p : StateId) : (g.putBack s trs w).trsOf p = if p = s then trs.reverse else g.trsOf p := by
  unfold putBack
  have : (((g.delTrs s).setTrs s trs.reverse)).trsOf p = if p = s then trs.reverse else g.trsOf p := by
    rw [setTrs_trsOf, delTrs_trsOf]
    by_cases h : p = s <;> simp [h, hs]
  simp only
  split <;> simpa using this
include hs in
theorem putBack_fin (p : StateId) : (g.putBack s trs w).finOf p = if p = s then (if w = 0 then none else some w) else g.finOf p := by
  unfold putBack
  simp only
  by_cases hw : w = 0
  · simp only [hw, ne_eq, not_true, if_false, if_true]
    rw [delFinal_finOf]
    simp
  · simp only [hw, ne_eq, not_false_eq_true, if_true, if_false]
    rw [setFinal_finOf]
    simp [hs]
include hs in
theorem putBack_truthful (h : g.Truthful) : (g.putBack s trs w).Truthful := by
  have h1 : ((g.delTrs s).setTrs s trs.reverse).Truthful :=
    truthful_setTrs (truthful_delTrs h s) (by simpa using hs) (by rw [delTrs_trsOf]; simp) _
  unfold putBack
  simp only
  split
  · exact truthful_setFinal h1 (by simpa using hs) w
  · exact truthful_delFinal h1 (by simpa using hs)
theorem putBack_counters (h : g.AllCounters) : (g.putBack s trs w).AllCounters := by
  have h1 : ((g.delTrs s).setTrs s trs.reverse).AllCounters := allCounters_setTrs (allCounters_delTrs h s) _ _
  unfold putBack
  simp only
  split
  · exact allCounters_setFinal h1 _ _
  · exact allCounters_delFinal h1 _
end putBack

theorem lin_reverse (h : Label → Label → StateId → W) (l : List (Tr W)) : lin h l.reverse = lin h l := by
  unfold lin
  rw [List.map_reverse, List.sum_reverse]

theorem elem_next {t u : Tr W} (h : t.elem = u.elem) : t.nextstate = u.nextstate := congrArg (fun x => x.2.2) h

/-- The expansion of a state put back in its place. -/
theorem putBack_repl {d : StateId → StateId → W} (hw : g.WF) (hd : g.EpsDist d) {s : StateId} (hs : s < g.numStates) {trs : List (Tr W)} {w : W}
    {d' : StateId → W} (he : Expansion g s trs w d') : Repl g (g.putBack s trs w) s := by
  have hnon : ∀ t ∈ trs, isEps t = false := by
    intro t ht
    obtain ⟨q, -, t', -, h1, h2⟩ := he.orig t ht
    rw [isEps_elem h2, h1]
  have hdd : ∀ q, d' q = d s q := by
    intro q
    obtain ⟨N, hN⟩ := he.dist q
    obtain ⟨M, hM⟩ := hd s hs q
    rw [← hN (max N M) (by omega), hM (max N M) (by omega)]
  refine ⟨putBack_num g trs w, putBack_start g trs w, fun p hp => by rw [putBack_trs g hs, if_neg hp], fun p hp => by rw [putBack_fin g hs, if_neg hp],
    fun t ht => ?_, fun h b B hB => ?_⟩
  · rw [putBack_trs g hs, if_pos rfl] at ht
    exact hnon t (List.mem_reverse.1 ht)
  · rw [hB.unique (closure_of_dist hw hd _) hs]
    unfold Fst.row
    simp only [mul_add, Finset.sum_add_distrib]
    congr 1
    · rw [putBack_fin g hs, if_pos rfl]
      cases b with
      | false => simp
      | true =>
        simp only [if_true]
        have hw' : (if w = 0 then none else some w : Option W).getD 0 = w := by
          split
          · next h => simp [h]
          · rfl
        rw [hw', he.fin]
        exact Finset.sum_congr rfl fun q _ => by rw [hdd]
    · unfold nonOp
      rw [putBack_trs g hs, if_pos rfl, List.filter_eq_self.2 fun t ht => by simp [hnon t (List.mem_reverse.1 ht)]]
      have := (lin_reverse h trs).trans (he.trs h)
      unfold lin at this
      rw [this]
      exact Finset.sum_congr rfl fun q _ => by rw [hdd]; rfl

theorem Below.trans {a b c : Fst W} (h : Below a b) (h' : Below b c) : Below a c :=
  ⟨h'.wf, h'.num.trans h.num, h'.start.trans h.start, fun s t ht he => h.eps s t (h'.eps s t ht he) he⟩

theorem putBack_below (hw : g.WF) {s : StateId} (hs : s < g.numStates) {trs : List (Tr W)} {w : W} {d : StateId → W}
    (he : Expansion g s trs w d) : Below g (g.putBack s trs w) := by
  refine ⟨⟨fun i hi => ?_, fun p t ht => ?_⟩, putBack_num g trs w, putBack_start g trs w, fun p t ht hk => ?_⟩
  · rw [putBack_num]
    rw [putBack_start] at hi
    exact hw.start_lt i hi
  · rw [putBack_num]
    rw [putBack_trs g hs] at ht
    split at ht
    · obtain ⟨q, -, t', ht', -, h2⟩ := he.orig t (List.mem_reverse.1 ht)
      rw [elem_next h2]
      exact hw.next_lt q t' ht'
    · exact hw.next_lt p t ht
  · rw [putBack_trs g hs] at ht
    split at ht
    · obtain ⟨q, -, t', -, h1, h2⟩ := he.orig t (List.mem_reverse.1 ht)
      rw [isEps_elem h2, h1] at hk
      cases hk
    · exact ht

theorem epsCase_below (hb : Below f g) (hc : f.EpsCase) : g.EpsCase := by
  cases hc with
  | ord ord h => exact .ord ord fun p t ht hk => h p t (hb.eps p t ht hk) hk
  | idem h => exact .idem h

/-! ## Weights and flags that are kept -/

/-- The flags of the result that `optimize` looks at. -/
structure _root_.Verif.FlagsKept (p p' : Props) : Prop where
  acceptor : p .acceptor = true → p' .acceptor = true
  top : p .topSorted = true → p .acyclic = true → p' .topSorted = true ∧ p' .acyclic = true

theorem _root_.Verif.FlagsKept.refl (p : Props) : FlagsKept p p := ⟨id, fun h h' => ⟨h, h'⟩⟩
theorem _root_.Verif.FlagsKept.trans {a b c : Props} (h : FlagsKept a b) (h' : FlagsKept b c) : FlagsKept a c :=
  ⟨fun x => h'.acceptor (h.acceptor x), fun x y => h'.top (h.top x y).1 (h.top x y).2⟩

theorem flagsKept_addTr (p : Props) (s : StateId) (t : Tr W) (prev : Option (Tr W)) (h1 : p .acceptor = true → t.ilabel = t.olabel)
    (h2 : p .topSorted = true → s < t.nextstate) : FlagsKept p (Props.addTr p s t prev) := by
  have e1 : ((Props.of [.acceptor, .noEpsilons, .noIEpsilons, .noOEpsilons, .iLabelSorted, .oLabelSorted, .unweighted, .topSorted] : Props) .acceptor) = true := by decide
  have e2 : ((Props.of [.acceptor, .noEpsilons, .noIEpsilons, .noOEpsilons, .iLabelSorted, .oLabelSorted, .unweighted, .topSorted] : Props) .topSorted) = true := by decide
  have e3 : ((Props.of [.acyclic, .initialAcyclic] : Props) .acyclic) = true := by decide
  constructor
  · intro h
    have he := h1 h
    cases prev <;> simp only [Props.addTr, Props.has_apply, ite_apply, Props.or_apply, Props.and_apply, Props.flipIf_apply, e1, he] <;> simp [h]
  · intro h h'
    have hlt : ¬ t.nextstate ≤ s := Nat.not_le.2 (h2 h)
    cases prev <;> simp only [Props.addTr, Props.has_apply, ite_apply, Props.or_apply, Props.and_apply, Props.flipIf_apply, e2, e3, hlt] <;> simp [h]

theorem flagsKept_foldAddTr (s : StateId) : ∀ (ts : List (Tr W)) (p : Props) (prev : Option (Tr W)),
    (p .acceptor = true → ∀ t ∈ ts, t.ilabel = t.olabel) → (p .topSorted = true → ∀ t ∈ ts, s < t.nextstate) → 
    FlagsKept p (foldAddTrProps p s prev ts)
  | [], p, _, _, _ => .refl p
  | t :: ts, p, prev, h1, h2 => by
    have h := flagsKept_addTr p s t prev (fun h => h1 h t (by simp)) (fun h => h2 h t (by simp))
    refine h.trans (flagsKept_foldAddTr s ts _ _ (fun ha u hu => h1 ?_ u (by simp [hu])) (fun ha u hu => h2 ?_ u (by simp [hu])))
    · by_contra hn
      cases prev <;> simp only [Props.addTr, Props.has_apply, ite_apply, Props.or_apply, Props.and_apply, Props.flipIf_apply] at ha <;> simp_all [Props.of]
    · by_contra hn
      cases prev <;> simp only [Props.addTr, Props.has_apply, ite_apply, Props.or_apply, Props.and_apply, Props.flipIf_apply] at ha <;> simp_all [Props.of]

theorem flagsKept_and (p m : Props) (h1 : m .acceptor = true) (h2 : m .topSorted = true) (h3 : m .acyclic = true) : FlagsKept p (p.and m) :=
  ⟨fun h => by simp [h, h1], fun h h' => by simp [h, h', h2, h3]⟩

theorem flagsKept_setFinal (p : Props) (a b : Option W) : FlagsKept p (p.setFinal a b) := by
  have key : ∀ c : PropBit, c ≠ .weighted → c ≠ .unweighted → (Props.setFinalMask c = true) → p c = true → p.setFinal a b c = true := by
    intro c hc1 hc2 hm h
    unfold Props.setFinal
    simp only [Props.clearIf, Props.flipIf_apply, Props.and_apply, Props.or_apply, hm, hc1, hc2]
    cases Props.nontrivialO a <;> cases Props.nontrivialO b <;> simp [h, hc1]
  exact ⟨key _ (by decide) (by decide) (by decide), fun h h' => ⟨key _ (by decide) (by decide) (by decide) h, key _ (by decide) (by decide) (by decide) h'⟩⟩

theorem flagsKept_putBack (g : Fst W) {s : StateId} (ts : List (Tr W)) (w : W)
    (h1 : g.props .acceptor = true → ∀ t ∈ ts, t.ilabel = t.olabel) (h2 : g.props .topSorted = true → ∀ t ∈ ts, s < t.nextstate) :
    FlagsKept g.props (g.putBack s ts w).props := by
  have k : FlagsKept g.props ((g.delTrs s).setTrs s ts.reverse).props := by
    refine FlagsKept.trans (flagsKept_and g.props Props.deleteArcsMask (by decide) (by decide) (by decide)) ?_
    refine flagsKept_foldAddTr s ts.reverse _ none (fun h t ht => h1 ?_ t (List.mem_reverse.1 ht)) (fun h t ht => h2 ?_ t (List.mem_reverse.1 ht)) <;>
      · simp only [Props.deleteTrs, Props.and_apply, Bool.and_eq_true] at h; exact h.1
  unfold putBack
  simp only
  split
  · exact k.trans (flagsKept_setFinal _ _ _)
  · exact k.trans (flagsKept_setFinal _ _ _)

/-- Every transition that is not ε has its labels and target from such a transition of `f`. -/
def FromNon (f g : Fst W) : Prop := ∀ s, ∀ t ∈ g.trsOf s, isEps t = false → ∃ q, ∃ u ∈ f.trsOf q, isEps u = false ∧ t.elem = u.elem

theorem epsDist (S : Solver f ops) {eqv : W → W → Bool} (hex : ∀ a b, eqv a b = true ↔ b = a) (hp : EpsPositive f) {i : StateId}
    (hi : f.start = some i) (hb : Below f g) {r : RmEps W Q} (hr : Rest S ⟨ops, eqv, isEps, true⟩ r) : ∃ d, g.EpsDist d := by
  have : ∀ s, ∃ d : StateId → W, s < g.numStates → ∀ q, g.IsDistance isEps s q (d q) := by
    intro s
    by_cases hs : s < g.numStates
    · obtain ⟨N, trs, w, r', d, -, -, hE⟩ := expand_spec (sf := ⟨true, true, true, true, true⟩) S hex rfl hp hi hb hs hr
      exact ⟨d, fun _ => hE.dist⟩
    · exact ⟨fun _ => 0, fun h => absurd h hs⟩
  choose d hd using this
  exact ⟨d, fun p hp q => hd p hp q⟩

/-- What holds all the time. -/
structure Stays (f g : Fst W) : Prop where
  below : Below f g
  equiv : EpsEquiv f g
  from_ : FromNon f g
  counters : f.AllCounters → g.AllCounters
  truthful : f.Truthful → g.Truthful
  kept : f.Truthful → FlagsKept f.props g.props
  weights : ∀ P : W → Prop, P 1 → (∀ a b, P a → P b → P (a + b) ∧ P (a * b)) → f.WeightsIn P → g.WeightsIn P

theorem putBack_kept (ht : g.Truthful) {s : StateId} {ts : List (Tr W)} {w : W} {d : StateId → W} (he : Expansion g s ts w d) :
    FlagsKept g.props (g.putBack s ts w).props := by
  refine flagsKept_putBack g ts w (fun h u hu => ?_) (fun h u hu => ?_)
  · obtain ⟨q, -, t, htq, -, e⟩ := he.orig u hu
    have e1 : u.ilabel = t.ilabel := congrArg (fun x => x.1) e
    have e2 : u.olabel = t.olabel := congrArg (fun x => x.2.1) e
    rw [e1, e2]
    exact ht .acceptor h q t htq
  · obtain ⟨q, hq, t, htq, -, e⟩ := he.orig u hu
    have htop : g.Holds .topSorted := ht .topSorted h
    have hle : s ≤ q := by
      clear e htq
      induction hq with
      | refl => exact le_refl _
      | tail _ hb ih =>
        obtain ⟨t', ht', -, rfl⟩ := hb
        exact Nat.le_trans (ih) (Nat.le_of_lt (htop _ t' ht'))
    rw [elem_next e]
    exact Nat.lt_of_le_of_lt hle (htop q t htq)

theorem putBack_weights {s : StateId} (hs : s < g.numStates) {ts : List (Tr W)} {w : W} {d : StateId → W} (he : Expansion g s ts w d) {P : W → Prop}
    (h1 : P 1) (h2 : ∀ a b, P a → P b → P (a + b) ∧ P (a * b)) (hg : g.WeightsIn P) : (g.putBack s ts w).WeightsIn P := by
  obtain ⟨k1, k2⟩ := he.weights P h1 h2 hg
  refine ⟨fun p t ht => ?_, fun p v hv => ?_⟩
  · rw [putBack_trs g hs] at ht
    split at ht
    · exact k1 t (List.mem_reverse.1 ht)
    · exact hg.1 p t ht
  · rw [putBack_fin g hs] at hv
    split at hv
    · split at hv
      · cases hv
      · next h => cases hv; exact k2.resolve_left h
    · exact hg.2 p v hv

theorem rmEpsLoop_spec (S : Solver f ops) {eqv : W → W → Bool} (hex : ∀ a b, eqv a b = true ↔ b = a) {sf : SemiringFlags} (hsf : sf.right = true)
    (hp : EpsPositive f) {i : StateId} (hi : f.start = some i) (hc : f.EpsCase) (keep : StateId → Bool) :
    ∀ (l : List StateId) (g : Fst W) (r : RmEps W Q), (∀ s ∈ l, s < f.numStates) → Stays f g → Rest S ⟨ops, eqv, isEps, true⟩ r →
      ∃ N g', (∀ n, N ≤ n → rmEpsLoop ⟨ops, eqv, isEps, true⟩ sf keep n l g r = some (.ok g')) ∧ Stays f g' ∧ Below g g' ∧
        ∀ s ∈ l, keep s = true → ∀ t ∈ g'.trsOf s, isEps t = false
  | [], g, r, _, hg, _ => ⟨0, g, fun _ _ => rfl, hg, Below.refl hg.below.wf, by simp⟩
  | s :: l, g, r, hl, hg, hr => by
    by_cases hk : keep s = true
    · have hs : s < g.numStates := by rw [hg.below.num]; exact hl s (by simp)
      obtain ⟨N, trs, w, r', d', h1, h2, h3⟩ := expand_spec S hex hsf hp hi hg.below hs hr
      obtain ⟨d, hd⟩ := epsDist S hex hp hi hg.below hr
      have hrepl := putBack_repl hg.below.wf hd hs h3
      have hbel := putBack_below hg.below.wf hs h3
      obtain ⟨d1, hd1⟩ := epsDist S hex hp hi (hg.below.trans hbel) h2
      have hst : Stays f (g.putBack s trs w) := by
        refine ⟨hg.below.trans hbel, ⟨hbel.num.trans hg.equiv.num, hbel.start.trans hg.equiv.start, fun h b => ?_⟩, fun p t ht hk => ?_,
          fun h => putBack_counters g trs w (hg.counters h), fun h => putBack_truthful g hs trs w (hg.truthful h),
          fun h => (hg.kept h).trans (putBack_kept (hg.truthful h) h3), fun P p1 p2 pf => putBack_weights hs h3 p1 p2 (hg.weights P p1 p2 pf)⟩
        · obtain ⟨B, hB, hB'⟩ := hg.equiv.clos h b
          exact ⟨B, hB, hrepl.closure hg.below.wf hbel.wf (epsCase_below hg.below hc) hB' (closure_of_dist hbel.wf hd1 _) hs⟩
        · rw [putBack_trs g hs] at ht
          split at ht
          · obtain ⟨q, -, t', ht', h4, h5⟩ := h3.orig t (List.mem_reverse.1 ht)
            obtain ⟨q', u, hu, h6, h7⟩ := hg.from_ q t' ht' h4
            exact ⟨q', u, hu, h6, h5.trans h7⟩
          · exact hg.from_ p t ht hk
      obtain ⟨M, g', k1, k2, k3, k4⟩ := rmEpsLoop_spec S hex hsf hp hi hc keep l (g.putBack s trs w) r' (fun p hp => hl p (by simp [hp])) hst h2
      refine ⟨max N M, g', fun n hn => ?_, k2, hbel.trans k3, fun p hp hkp t ht => ?_⟩
      · unfold rmEpsLoop
        simp only [hk, Bool.true_eq_false, if_false, h1 n (by omega)]
        exact k1 n (by omega)
      · rcases List.mem_cons.1 hp with rfl | hp
        · by_contra hne
          have ht' := k3.eps p t ht (by simpa using hne)
          exact hne (hrepl.non t ht')
        · exact k4 p hp hkp t ht
    · have hk : keep s = false := by simpa using hk
      obtain ⟨M, g', k1, k2, k3, k4⟩ := rmEpsLoop_spec S hex hsf hp hi hc keep l g r (fun p hp => hl p (by simp [hp])) hg hr
      refine ⟨M, g', fun n hn => ?_, k2, k3, fun p hp hkp => ?_⟩
      · unfold rmEpsLoop
        simp only [hk, if_true]
        exact k1 n hn
      · rcases List.mem_cons.1 hp with rfl | hp
        · rw [hk] at hkp; cases hkp
        · exact k4 p hp hkp

/-! ## What is left after the loop -/

theorem dropTrs_spec (keep : StateId → Bool) (g : Fst W) :
    (dropTrs keep g).numStates = g.numStates ∧ (dropTrs keep g).start = g.start ∧ (∀ p, (dropTrs keep g).finOf p = g.finOf p) ∧
    (∀ p, (dropTrs keep g).trsOf p = if keep p = true then g.trsOf p else []) ∧
    (g.AllCounters → (dropTrs keep g).AllCounters) ∧ (g.Truthful → (dropTrs keep g).Truthful) ∧ FlagsKept g.props (dropTrs keep g).props := by
  have key : ∀ l : List StateId, let h := l.foldl (fun g s => if keep s then g else g.delTrs s) g
      h.numStates = g.numStates ∧ h.start = g.start ∧ (∀ p, h.finOf p = g.finOf p) ∧
      (∀ p, h.trsOf p = if keep p = true ∨ p ∉ l then g.trsOf p else []) ∧
      (g.AllCounters → h.AllCounters) ∧ (g.Truthful → h.Truthful) ∧ FlagsKept g.props h.props := by
    intro l
    induction l using List.reverseRecOn with
    | nil => simp [FlagsKept.refl]
    | append_singleton l s ih =>
      simp only [List.foldl_append, List.foldl_cons, List.foldl_nil] at ih ⊢
      obtain ⟨h1, h2, h3, h4, h5, h6, h7⟩ := ih
      by_cases hk : keep s = true
      · simp only [hk, if_true]
        refine ⟨h1, h2, h3, fun p => ?_, h5, h6, h7⟩
        rw [h4]
        by_cases hp : p = s
        · simp [hp, hk]
        · simp [hp]
      · simp only [hk, Bool.false_eq_true, if_false]
        refine ⟨by simpa using h1, by simpa using h2, fun p => by simpa using h3 p, fun p => ?_, fun h => allCounters_delTrs (h5 h) s,
          fun h => truthful_delTrs (h6 h) s, h7.trans (flagsKept_and _ Props.deleteArcsMask (by decide) (by decide) (by decide))⟩
        rw [delTrs_trsOf, h4]
        by_cases hp : p = s
        · simp [hp, hk]
        · simp [hp]
  obtain ⟨h1, h2, h3, h4, h5⟩ := key (List.range g.numStates)
  refine ⟨h1, h2, h3, fun p => ?_, h5⟩
  refine (h4 p).trans ?_
  by_cases hk : keep p = true
  · simp [hk]
  · by_cases hp : p < g.numStates
    · simp [hk, hp]
    · simp [hk, hp, trsOf_of_ge (show g.numStates ≤ p by omega)]

/-- The states that are kept lead only to states that are kept. -/
theorem readSum_drop {h : Fst W} {keep : StateId → Bool} (htrs : ∀ p, h.trsOf p = if keep p = true then g.trsOf p else [])
    (hfin : ∀ p, h.finOf p = g.finOf p) (hcl : ∀ p, keep p = true → ∀ t ∈ g.trsOf p, keep t.nextstate = true) :
    ∀ n k p, keep p = true → h.readSum n k p = g.readSum n k p := by
  intro n
  induction n with
  | zero => intro k p _; simp only [readSum, hfin]
  | succ n ih =>
    intro k p hp
    simp only [readSum]
    rw [htrs, if_pos hp]
    congr 1
    refine List.map_congr_left fun t ht => ?_
    unfold pick
    cases dropP t.ilabel t.olabel k with
    | none => rfl
    | some k' => simp only; rw [ih k' _ (hcl p hp t ht)]

theorem weightOf_eq {i : StateId} (hi : f.start = some i) (n : Nat) (x y : List Label) : f.weightOf n x y = f.readSum n (x, y) i := by
  unfold weightOf accPaths
  rw [hi]
  exact sum_reads n i x y

theorem rmepsilon_flags {h : Fst W} (ht : h.Truthful) (hn : h.NoEpsTr) : (h.setProps (h.props.rmepsilon false)).Truthful := by
  intro b hb
  have key : h.Holds b := by
    have hne : ∀ s, ∀ t ∈ h.trsOf s, ¬ (t.ilabel = EPS ∧ t.olabel = EPS) := by
      intro s t hts ⟨h1, h2⟩
      have := hn s t hts
      simp [isEps, h1, h2] at this
    have hacc : h.props .acceptor = true → ∀ s, ∀ t ∈ h.trsOf s, t.ilabel ≠ EPS ∧ t.olabel ≠ EPS := by
      intro ha s t hts
      have he : t.ilabel = t.olabel := ht .acceptor ha s t hts
      have := hne s t hts
      constructor
      · intro h1; exact this ⟨h1, he ▸ h1⟩
      · intro h1; exact this ⟨he.trans h1, h1⟩
    have hb' : (h.props.rmepsilon false) b = true := hb
    by_cases hbt : h.props b = true
    · exact ht b hbt
    · have hcases : b = .noEpsilons ∨ (h.props .acceptor = true ∧ (b = .noIEpsilons ∨ b = .noOEpsilons)) := by
        cases ha : h.props .acceptor <;> cases b <;>
          simp_all [Props.rmepsilon, Props.of, Props.or, Props.keep, Props.and, Props.orIf, Props.has]
      rcases hcases with rfl | ⟨ha, rfl | rfl⟩
      · exact fun ⟨s, t, hts, h⟩ => hne s t hts h
      · exact fun ⟨s, t, hts, h⟩ => (hacc ha s t hts).1 h
      · exact fun ⟨s, t, hts, h⟩ => (hacc ha s t hts).2 h
  exact (holds_congr (f := h) (g := h.setProps (h.props.rmepsilon false)) rfl rfl (fun _ => rfl) (fun _ => rfl) b).2 key

theorem flagsKept_rmepsilon (p : Props) : FlagsKept p (p.rmepsilon false) := by
  constructor
  · intro h; simp [Props.rmepsilon, Props.of, Props.or, Props.keep, Props.and, Props.orIf, Props.has, h]
  · intro h h'
    cases ha : p .acceptor <;> simp [Props.rmepsilon, Props.of, Props.or, Props.keep, Props.and, Props.orIf, Props.has, h, h', ha]

theorem flagsKept_connect {h g : Fst W} (hg : h.connect = .ok g) : FlagsKept h.props g.props := by
  obtain ⟨ds, k, hk, rfl⟩ := connect_delStates hg
  have e : k.props = h.props.and Props.deleteStatesMask := delStates_props hk
  refine FlagsKept.trans (b := k.props) (by rw [e]; exact flagsKept_and _ _ (by decide) (by decide) (by decide)) ?_
  have key : ∀ b, b ≠ .accessible → b ≠ .coaccessible → k.props b = true →
      (k.setPropsMask (Props.of [.accessible, .coaccessible]) (Props.of [.accessible, .coaccessible])).props b = true := by
    intro b h1 h2 hb
    simp [setPropsMask, Props.of, h1, h2, hb]
  exact ⟨key _ (by decide) (by decide), fun a b => ⟨key _ (by decide) (by decide) a, key _ (by decide) (by decide) b⟩⟩

/-- What else holds of the result. -/
structure Kept (f g : Fst W) : Prop where
  flags : FlagsKept f.props g.props
  noEpsilons : g.props .noEpsilons = true
  useful : ∀ s, s < g.numStates → g.Accessible s ∧ g.Coaccessible s
  weights : ∀ P : W → Prop, P 1 → (∀ a b, P a → P b → P (a + b) ∧ P (a * b)) → f.WeightsIn P → g.WeightsIn P

/-! ## The order of the states -/

theorem set_fold (ps : List (Nat × Nat)) (l : List Nat) (hp : ∀ x ∈ ps, x.1 < l.length) (hn : (ps.map (·.1)).Nodup) :
    (ps.foldl (fun l p => l.set p.1 p.2) l).length = l.length ∧
    (∀ x ∈ ps, (ps.foldl (fun l p => l.set p.1 p.2) l)[x.1]? = some x.2) ∧
    ∀ k ∈ ps.foldl (fun l p => l.set p.1 p.2) l, k ∈ l ∨ k ∈ ps.map (·.2) := by
  induction ps using List.reverseRecOn with
  | nil => simp
  | append_singleton ps y ih =>
    simp only [List.map_append, List.map_cons, List.map_nil, List.nodup_append, List.mem_singleton] at hn
    obtain ⟨h1, h2, h3⟩ := ih (fun x hx => hp x (by simp [hx])) hn.1
    simp only [List.foldl_append, List.foldl_cons, List.foldl_nil]
    refine ⟨by simp [h1], fun x hx => ?_, fun k hk => ?_⟩
    · rcases List.mem_append.1 hx with hx | hx
      · rw [List.getElem?_set, if_neg]
        · exact h2 x hx
        · intro he
          exact hn.2.2 x.1 (List.mem_map.2 ⟨x, hx, rfl⟩) _ rfl he.symm
      · obtain rfl : x = y := by simpa using hx
        rw [List.getElem?_set, if_pos rfl, if_pos]
        rw [h1]
        exact hp x (by simp)
    · rcases List.mem_or_eq_of_mem_set hk with hk | rfl
      · rcases h3 k hk with h | h
        · exact .inl h
        · exact .inr (by simp only [List.map_append, List.mem_append]; exact .inl h)
      · exact .inr (by simp)

theorem mem_inverseOrder {order : List Nat} {n : Nat} (h : order.Perm (List.range n)) (s : StateId) : s ∈ inverseOrder order ↔ s < n := by
  have hlen : order.length = n := by simpa using h.length_eq
  have hlt : ∀ p ∈ order, p < n := fun p hp => by simpa using h.mem_iff.1 hp
  have hfst : order.zipIdx.map (·.1) = order := by simp
  obtain ⟨h1, h2, h3⟩ := set_fold order.zipIdx (List.replicate order.length 0)
    (fun x hx => by
      rw [List.length_replicate, hlen]
      refine hlt _ ?_
      have : x.1 ∈ order.zipIdx.map (·.1) := List.mem_map.2 ⟨x, hx, rfl⟩
      rwa [hfst] at this)
    (by rw [hfst]; exact h.nodup_iff.2 List.nodup_range)
  unfold inverseOrder
  constructor
  · intro hs
    rcases h3 s hs with h | h
    · have := List.eq_of_mem_replicate h
      have hpos : 0 < order.length := by
        by_contra h0
        have : order.length = 0 := by omega
        rw [this] at h
        simp at h
      omega
    · obtain ⟨⟨p, k⟩, hx, rfl⟩ := List.mem_map.1 h
      have := (List.mk_mem_zipIdx_iff_getElem?.1 hx)
      have := (List.getElem?_eq_some_iff.1 this).1
      simp only
      omega
  · intro hs
    have hget : order[s]? = some order[s] := List.getElem?_eq_getElem (by omega)
    have hx : (order[s], s) ∈ order.zipIdx := List.mk_mem_zipIdx_iff_getElem?.2 hget
    exact List.mem_iff_getElem?.2 ⟨_, h2 _ hx⟩

theorem transGen_edge {keep : Tr W → Bool} {a b : StateId} (h : Relation.TransGen (KEdge f keep) a b) : Relation.TransGen f.Edge a b := by
  induction h with
  | single h => exact .single (AutoQ.kedge_edge h)
  | tail _ h ih => exact ih.tail (AutoQ.kedge_edge h)

theorem epsOrder_spec (hw : f.WF) (ht : f.Truthful) {i : StateId} (hi : f.start = some i) :
    ∃ order, f.epsOrder = .ok order ∧ ∀ s, s ∈ order ↔ s < f.numStates := by
  unfold epsOrder
  by_cases h1 : f.props .topSorted = true
  · rw [if_pos h1]
    exact ⟨_, rfl, fun s => by simp⟩
  · rw [if_neg h1, if_neg (by simp [targetsOk_of_wf hw])]
    by_cases h2 : f.props .acyclic = true
    · rw [if_pos h2]
      refine ⟨_, rfl, fun s => mem_inverseOrder ?_ s⟩
      rcases Top.topVisit_spec hw hi isEps with h | ⟨-, q, hq⟩
      · exact h.2.2.1
      · refine absurd ⟨q, ?_⟩ (ht .acyclic h2)
        exact transGen_edge hq
    · rw [if_neg h2]
      refine ⟨_, rfl, fun s => ?_⟩
      have hr := Scc.sccVisit_spec hw hi isEps
      have hle := AutoQ.nscc_le (keep := isEps) hw hi
      unfold byComponent
      simp only [List.mem_flatMap, List.mem_range, List.mem_reverse, List.mem_filter, beq_iff_eq]
      constructor
      · rintro ⟨c, -, hs, -⟩; exact hs
      · intro hs
        obtain ⟨a, b⟩ := hr.range s hs
        exact ⟨((f.sccVisit isEps).scc s).toNat, by omega, hs, by omega⟩

theorem nonepsIn_start (f : Fst W) (i : StateId) : f.nonepsIn i i = true := by simp [nonepsIn]

theorem nonepsIn_target {i q : StateId} {t : Tr W} (ht : t ∈ f.trsOf q) (hk : isEps t = false) : f.nonepsIn i t.nextstate = true := by
  simp only [nonepsIn, Bool.or_eq_true, List.any_eq_true, List.mem_range, Bool.and_eq_true, beq_iff_eq]
  exact .inr ⟨q, lt_of_mem_trsOf ht, t, ht, by simp [hk], rfl⟩

/-- Epsilon removal with any queue that solves the shortest-distance problems. -/
theorem rmEpsilonWith_spec (S : Solver f ops) {q0 : Q} (hq : S.L.Rep none q0 ∅) {eqv : W → W → Bool} (hex : ∀ a b, eqv a b = true ↔ b = a)
    {sf : SemiringFlags} (hsf : sf.right = true) (hw : f.WF) (ht : f.Truthful) (hp : EpsPositive f) {i : StateId} (hi : f.start = some i)
    (hc : f.EpsCase) :
    ∃ g, EndsWith (f.rmEpsilonWith ⟨ops, eqv, isEps, true⟩ sf q0) (.ok g) ∧ g.WF ∧ g.Truthful ∧ (f.AllCounters → g.AllCounters) ∧
      g.NoEpsTr ∧ (∀ x y, ∃ v, f.IsWeight x y v ∧ g.IsWeight x y v) ∧ Kept f g := by
  obtain ⟨order, ho, hmem⟩ := epsOrder_spec hw ht hi
  have hrest : Rest S ⟨ops, eqv, isEps, true⟩ (RmEps.new q0) := Rest.new hq
  obtain ⟨d, hd⟩ := epsDist S hex hp hi (Below.refl hw) hrest
  have hst : Stays f f := ⟨Below.refl hw, ⟨rfl, rfl, fun h b => ⟨_, closure_of_dist hw hd _, closure_of_dist hw hd _⟩⟩,
    fun s t ht hk => ⟨s, t, ht, hk, rfl⟩, id, id, fun _ => .refl _, fun _ _ _ h => h⟩
  obtain ⟨N, g, h1, h2, h3, h4⟩ := rmEpsLoop_spec S hex hsf hp hi hc (f.nonepsIn i) order.reverse f (RmEps.new q0)
    (fun s hs => (hmem s).1 (List.mem_reverse.1 hs)) hst hrest
  obtain ⟨k1, k2, k3, k4, k5, k6, k7⟩ := dropTrs_spec (f.nonepsIn i) g
  obtain ⟨h, hh⟩ : ∃ h, h = dropTrs (f.nonepsIn i) g := ⟨_, rfl⟩
  rw [← hh] at k1 k2 k3 k4 k5 k6 k7
  have hnon : ∀ p, f.nonepsIn i p = true → ∀ t ∈ g.trsOf p, isEps t = false := by
    intro p hk t htp
    refine h4 p (List.mem_reverse.2 ((hmem p).2 ?_)) hk t htp
    have := lt_of_mem_trsOf htp
    rwa [h2.below.num] at this
  have hcl : ∀ p, f.nonepsIn i p = true → ∀ t ∈ g.trsOf p, f.nonepsIn i t.nextstate = true := by
    intro p hk t htp
    obtain ⟨q, u, hu, hku, he⟩ := h2.from_ p t htp (hnon p hk t htp)
    rw [elem_next he]
    exact nonepsIn_target hu hku
  have hwf : h.WF := by
    refine ⟨fun j hj => ?_, fun p t htp => ?_⟩
    · rw [k1]; rw [k2] at hj; exact h2.below.wf.start_lt j hj
    · rw [k1]
      rw [k4] at htp
      split at htp
      · exact h2.below.wf.next_lt p t htp
      · cases htp
  have hno : h.NoEpsTr := by
    intro p t htp
    rw [k4] at htp
    split at htp
    · next hk => exact hnon p hk t htp
    · cases htp
  have hflags := rmepsilon_flags (k6 (h2.truthful ht)) hno
  have hwf' : (h.setProps (h.props.rmepsilon false)).WF := ⟨hwf.start_lt, hwf.next_lt⟩
  obtain ⟨g', ds, c1, c2, c3, c4, c5⟩ := C18_connect (h.setProps (h.props.rmepsilon false)) hwf'
  refine ⟨g', ⟨N, fun n hn => ?_⟩, (C18_wf _ _ c1).1, C18_flags _ _ hwf' hflags c1, fun hcnt => (C18_wf _ _ c1).2 (k5 (h2.counters hcnt)), ?_, ?_, ?_⟩
  · unfold rmEpsilonWith
    simp only [hi, ho, h1 n hn]
    rw [if_neg (by
      rw [not_or]
      exact ⟨by have := hw.start_lt i hi; omega, by simp [targetsOk_of_wf hw]⟩), ← hh, c1]
  · intro p t htp
    have hp' : p < g'.numStates := lt_of_mem_trsOf htp
    rw [c3] at hp'
    obtain ⟨s, hs⟩ : ∃ s, (survivors (h.setProps (h.props.rmepsilon false)).numStates ds)[p]? = some s := ⟨_, List.getElem?_eq_getElem hp'⟩
    rw [(c4 p s hs).2] at htp
    obtain ⟨u, hu, hut⟩ : ∃ u ∈ h.trsOf s, isEps t = isEps u := by
      unfold survivingTrs at htp
      simp only [List.mem_map, List.mem_filter] at htp
      obtain ⟨u, hu, rfl⟩ := htp
      exact ⟨u, hu.1, rfl⟩
    exact hut.trans (hno s u hu)
  · intro x y
    obtain ⟨V, hV⟩ := h2.equiv.reads hw h2.below.wf hc (epsCase_below h2.below hc)
    obtain ⟨⟨N1, hN1⟩, ⟨N2, hN2⟩⟩ := hV (x, y) i (hw.start_lt i hi)
    refine ⟨V (x, y) i, ⟨N1, fun n hn => ?_⟩, ⟨N2, fun n hn => ?_⟩⟩
    · rw [← hN1 n hn]
      exact Finset.sum_congr rfl fun k _ => weightOf_eq hi k x y
    · rw [← hN2 n hn]
      refine Finset.sum_congr rfl fun k _ => ?_
      have e1 : g'.weightOf k x y = h.weightOf k x y := by
        unfold weightOf
        rw [C18_paths _ _ hwf' c1 k, accPaths_congr (f := h) (g := h.setProps (h.props.rmepsilon false)) rfl (fun _ => rfl) (fun _ => rfl)]
      rw [e1, weightOf_eq (k2.trans (h2.below.start.trans hi))]
      exact readSum_drop k4 k3 hcl k (x, y) i (nonepsIn_start f i)
  · refine ⟨((h2.kept ht).trans k7).trans ((flagsKept_rmepsilon _).trans (flagsKept_connect c1)), ?_, fun s hs => C18_trim _ _ hwf' c1 s hs,
      fun P p1 p2 pf => ?_⟩
    · obtain ⟨ds', k, hk, rfl⟩ := connect_delStates c1
      have e : k.props = (h.setProps (h.props.rmepsilon false)).props.and Props.deleteStatesMask := delStates_props hk
      simp only [setPropsMask, e]
      cases ha : h.props .acceptor <;> cases ha' : h.props .accessible <;> simp [ha, ha', setProps, Props.rmepsilon, Props.of, Props.or, Props.keep, Props.and, Props.orIf, Props.has, Props.deleteStatesMask]
    · have pg := h2.weights P p1 p2 pf
      refine ⟨fun p t htp => ?_, fun p v hv => ?_⟩
      · have hp' : p < g'.numStates := lt_of_mem_trsOf htp
        rw [c3] at hp'
        obtain ⟨s, hs⟩ : ∃ s, (survivors (h.setProps (h.props.rmepsilon false)).numStates ds)[p]? = some s := ⟨_, List.getElem?_eq_getElem hp'⟩
        rw [(c4 p s hs).2] at htp
        unfold survivingTrs at htp
        simp only [List.mem_map, List.mem_filter] at htp
        obtain ⟨u, hu, rfl⟩ := htp
        have hu' : u ∈ h.trsOf s := hu.1
        rw [k4] at hu'
        split at hu'
        · exact pg.1 s u hu'
        · cases hu'
      · have hp' : p < g'.numStates := by
          by_contra hge
          rw [finOf_of_ge (Nat.le_of_not_lt hge)] at hv
          cases hv
        rw [c3] at hp'
        obtain ⟨s, hs⟩ : ∃ s, (survivors (h.setProps (h.props.rmepsilon false)).numStates ds)[p]? = some s := ⟨_, List.getElem?_eq_getElem hp'⟩
        rw [(c4 p s hs).1] at hv
        have hv' : h.finOf s = some v := hv
        rw [k3] at hv'
        exact pg.2 s v hv'

end RmEps
end Verif
