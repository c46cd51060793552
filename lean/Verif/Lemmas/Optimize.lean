import Verif.Model.Optimize
import Verif.Spec.Optimize
import Verif.Lemmas.DetFull
import Verif.Props.C35
import Verif.Props.C12
import Verif.Props.C59

/-! # The steps of `optimize` -/

namespace Verif
universe u v
open Fst
variable {W : Type u} [Semiring W] [DecidableEq W]

theorem endsWith_andThen {α β : Type u} {a : Nat → Option (R α)} {b : α → Nat → Option (R β)} {x : α} {y : R β} (ha : EndsWith a (.ok x)) (hb : EndsWith (b x) y) :
    EndsWith (fun n => andThen (a n) fun x => b x n) y := by
  obtain ⟨N, hN⟩ := ha
  obtain ⟨M, hM⟩ := hb
  refine ⟨max N M, fun n hn => ?_⟩
  simp only [andThen, hN n (by omega)]
  exact hM n (by omega)

/-! ## Weights of pairs of strings -/

omit [DecidableEq W] in
theorem IsWeight.unique {f : Fst W} {x y : List Label} {v w : W} (h : f.IsWeight x y v) (h' : f.IsWeight x y w) : v = w := by
  obtain ⟨N, hN⟩ := h
  obtain ⟨M, hM⟩ := h'
  rw [← hN (max N M) (by omega), hM (max N M) (by omega)]

omit [DecidableEq W] in
theorem SameTotals.trans {f g h : Fst W} (a : f.SameTotals g) (b : g.SameTotals h) : f.SameTotals h := by
  intro x y
  obtain ⟨v, h1, h2⟩ := a x y
  obtain ⟨w, h3, h4⟩ := b x y
  obtain rfl := IsWeight.unique h2 h3
  exact ⟨v, h1, h4⟩

omit [DecidableEq W] in
theorem isWeight_of_weightOf {f g : Fst W} (h : ∀ n x y, g.weightOf n x y = f.weightOf n x y) {x y : List Label} {v : W} (hv : f.IsWeight x y v) : g.IsWeight x y v := by
  obtain ⟨N, hN⟩ := hv
  exact ⟨N, fun n hn => by rw [← hN n hn]; exact Finset.sum_congr rfl fun k _ => h k x y⟩

omit [DecidableEq W] in
theorem SameTotals.of_weightOf {f g h : Fst W} (a : f.SameTotals g) (b : ∀ n x y, h.weightOf n x y = g.weightOf n x y) : f.SameTotals h := by
  intro x y
  obtain ⟨v, h1, h2⟩ := a x y
  exact ⟨v, h1, isWeight_of_weightOf b h2⟩

theorem SameTotals.of_delay {f g h : Fst W} (a : f.SameTotals g) {k : Nat} (b : ∀ n, live (h.accPaths n) = delay k (fun n => live (g.accPaths n)) n) : f.SameTotals h := by
  intro x y
  obtain ⟨v, h1, N, hN⟩ := a x y
  refine ⟨v, h1, N + k, fun n hn => ?_⟩
  obtain ⟨m, rfl⟩ : ∃ m, n = k + m := ⟨n - k, by omega⟩
  rw [Finset.sum_range_add]
  have e1 : ∑ i ∈ Finset.range k, h.weightOf i x y = 0 := by
    refine Finset.sum_eq_zero fun i hi => ?_
    rw [C31_weightOf b, if_pos (Finset.mem_range.1 hi)]
  rw [e1, zero_add, ← hN m (by omega)]
  refine Finset.sum_congr rfl fun i _ => ?_
  rw [C31_weightOf b, if_neg (by omega)]
  congr 1
  omega

omit [DecidableEq W] in
/-- Without ε-transitions the paths for a pair of strings are no longer than these. -/
theorem pathsFrom_length {f : Fst W} (h : f.NoEpsTr) : ∀ n s, ∀ p ∈ f.pathsFrom n s, n ≤ p.1.length + p.2.1.length
  | 0, _, _, _ => Nat.zero_le _
  | n + 1, s, p, hp => by
    rw [pathsFrom_succ, Multiset.mem_bind] at hp
    obtain ⟨t, ht, hp⟩ := hp
    obtain ⟨q, hq, rfl⟩ := Multiset.mem_map.1 hp
    have ih := pathsFrom_length h n _ q hq
    have he := h s t (by simpa using ht)
    have : 1 ≤ (strip t.ilabel).length + (strip t.olabel).length := by
      unfold strip
      by_cases h1 : t.ilabel = EPS
      · by_cases h2 : t.olabel = EPS
        · simp [isEps, h1, h2] at he
        · simp [h2]
      · simp [h1]
    simp only [PathT.cat, Tr.asPath, List.length_append]
    omega

omit [DecidableEq W] in
theorem exists_isWeight {f : Fst W} (h : f.NoEpsTr) (x y : List Label) : ∃ v, f.IsWeight x y v := by
  refine ⟨∑ k ∈ Finset.range (x.length + y.length + 1), f.weightOf k x y, x.length + y.length + 1, fun n hn => ?_⟩
  · refine (Finset.sum_subset (Finset.range_mono hn) fun k _ hk => ?_).symm
    have : ¬ k < x.length + y.length + 1 := fun h => hk (Finset.mem_range.2 h)
    unfold weightOf accPaths
    split
    · rfl
    · next i _ =>
      rw [Multiset.filter_eq_nil.2]
      · rfl
      · rintro p hp ⟨rfl, rfl⟩
        have := pathsFrom_length h k i p hp
        omega

/-! ## `tr_sum` -/

theorem trSum_prop (f : Fst W) {b : PropBit} (h1 : Props.arcsortMask b = true) (h2 : Props.deleteArcsMask b = true) (h3 : Props.weightInvariantMask b = true)
    (h : f.props b = true) : f.trSum.props b = true := by
  have hall : Props.allMask b = true := by cases b <;> rfl
  unfold Fst.trSum
  simp only [setPropsMask_all]
  split <;> simp [setProps, h, h1, h2, h3]

theorem trSum_trWeights (f : Fst W) {P : W → Prop} (hP : ∀ a b, P a → P b → P (a + b)) (h : ∀ s, ∀ t ∈ f.trsOf s, P t.weight) :
    ∀ s, ∀ t ∈ f.trSum.trsOf s, P t.weight := by
  obtain ⟨h1, h2, h3, h4, h5, h6, -⟩ := C13_tr_sum f
  intro s t ht
  rw [h6 s t ht]
  have key : ∀ l : List W, l ≠ [] → (∀ w ∈ l, P w) → P l.sum := by
    intro l
    induction l with
    | nil => intro h; exact absurd rfl h
    | cons a l ih =>
      intro _ hl
      cases l with
      | nil => simpa using hl
      | cons b l =>
        rw [List.sum_cons]
        exact hP _ _ (hl a (by simp)) (ih (by simp) fun w hw => hl w (by simp [hw]))
  refine key _ ?_ fun w hw => ?_
  · obtain ⟨u, hu, e⟩ := List.mem_map.1 ((h5 s _).1 (List.mem_map_of_mem ht))
    simp only [Prod.mk.injEq] at e
    intro hnil
    have := List.map_eq_nil_iff.1 hnil
    rw [List.filter_eq_nil_iff] at this
    exact this u hu (by simpa using e)
  · obtain ⟨u, hu, rfl⟩ := List.mem_map.1 hw
    exact h s u (List.mem_filter.1 hu).1

theorem trSum_weights (f : Fst W) {P : W → Prop} (hP : ∀ a b, P a → P b → P (a + b)) (h : f.WeightsIn P) : f.trSum.WeightsIn P := by
  obtain ⟨h1, h2, h3, h4, h5, h6, -⟩ := C13_tr_sum f
  exact ⟨trSum_trWeights f hP h.1, fun s w hw => h.2 s w (by rw [← h3]; exact hw)⟩

theorem trSum_noEps {f : Fst W} (h : f.NoEpsTr) : f.trSum.NoEpsTr := by
  obtain ⟨-, -, -, -, h5, -⟩ := C13_tr_sum f
  intro s t ht
  obtain ⟨u, hu, e⟩ := List.mem_map.1 ((h5 s _).1 (List.mem_map_of_mem ht))
  simp only [Prod.mk.injEq] at e
  have := h s u hu
  unfold isEps at this ⊢
  rwa [e.1, e.2.1] at this

/-! ## The first steps -/

/-- ε-transitions are known not to be there, or can be removed. -/
def CanRmEps (f : Fst W) : Prop := f.props .noEpsilons = true ∨
  (f.EpsPositive ∧ (f.NoCycles isEps ∨ ((∀ a : W, a + a = a) ∧ f.CyclesAbsorbed isEps)))

/-- What holds after the first steps. -/
structure OptPrepared (f g : Fst W) : Prop where
  wf : g.WF
  truthful : g.Truthful
  counters : f.AllCounters → g.AllCounters
  noEps : g.NoEpsTr
  same : f.SameTotals g
  start : g.start ≠ none ∨ g.numStates = 0
  weights : ∀ P : W → Prop, P 1 → (∀ a b, P a → P b → P (a + b) ∧ P (a * b)) → f.WeightsIn P → g.WeightsIn P
  acceptor : f.props .acceptor = true → g.props .acceptor = true
  acyclic : f.props .acyclic = true → f.props .noEpsilons = true ∨ f.props .topSorted = true → g.props .acyclic = true
  det : f.props .noEpsilons = true → f.props .iDeterministic = true → g.props .iDeterministic = true

theorem prepare_spec {e : OptEnv W} {sf : SemiringFlags} {eqv : W → W → Bool} {f : Fst W} (hR : e.rmEps = fun f n => f.rmEpsilon sf eqv n)
    (hexact : ∀ a b, eqv a b = true ↔ b = a) (hsf : sf.right = true)
    (hidf : sf.idempotent = true → ∀ a : W, a + a = a) (hw : f.WF) (ht : f.Truthful) (hs : f.start ≠ none) (hc : CanRmEps f) :
    ∃ g, EndsWith (e.prepare f) (.ok g) ∧ OptPrepared f g := by
  obtain ⟨i, hi⟩ := Option.ne_none_iff_exists'.1 hs
  have fin : ∀ g : Fst W, g.WF → g.Truthful → (f.AllCounters → g.AllCounters) → g.NoEpsTr → f.SameTotals g → (g.start ≠ none ∨ g.numStates = 0) →
      (∀ P : W → Prop, P 1 → (∀ a b, P a → P b → P (a + b) ∧ P (a * b)) → f.WeightsIn P → g.WeightsIn P) →
      (f.props .acceptor = true → g.props .acceptor = true) →
      (f.props .acyclic = true → f.props .noEpsilons = true ∨ f.props .topSorted = true → g.props .acyclic = true) →
      (f.props .noEpsilons = true → f.props .iDeterministic = true → g.props .iDeterministic = true) → OptPrepared f g.trSum := by
    intro g g1 g2 g3 g4 g5 g6 g7 g8 g9 g10
    obtain ⟨h1, h2, -, -, -, -, h7, h8⟩ := C13_tr_sum g
    exact ⟨h7 g1, C13_tr_sum_flags g g2, fun h => h8 (g3 h), trSum_noEps g4, SameTotals.of_weightOf g5 (C13_tr_sum_language g), by rw [h1, h2]; exact g6,
      fun P p1 p2 pf => trSum_weights g (fun a b ha hb => (p2 a b ha hb).1) (g7 P p1 p2 pf),
      fun h => trSum_prop g (by decide) (by decide) (by decide) (g8 h), fun h h' => trSum_prop g (by decide) (by decide) (by decide) (g9 h h'),
      fun h h' => trSum_prop g (by decide) (by decide) (by decide) (g10 h h')⟩
  by_cases hn : f.props .noEpsilons = true
  · have hne : f.NoEpsTr := by
      intro s t hts
      have := ht .noEpsilons hn
      by_contra hc
      refine this ⟨s, t, hts, ?_⟩
      simpa [isEps] using hc
    refine ⟨f.trSum, ⟨0, fun n _ => ?_⟩, fin f hw ht id hne ?_ (.inl hs) (fun _ _ _ h => h) id (fun h _ => h) fun _ h => h⟩
    · unfold OptEnv.prepare
      simp [hn, andThen]
    · intro x y
      obtain ⟨v, hv⟩ := exists_isWeight hne x y
      exact ⟨v, hv, hv⟩
  · obtain ⟨hp, hcase⟩ := hc.resolve_left hn
    obtain ⟨g, ⟨N, hN⟩, h2, h3, h4, h5, h6, h7⟩ := RmEps.rmEpsilon_all hexact hsf hidf hw ht hi hp hcase
    refine ⟨g.trSum, ⟨N, fun n hn' => ?_⟩, fin g h2 h3 h4 h5 h6 ?_ h7.weights h7.flags.acceptor (fun ha h => ?_) fun h => absurd h hn⟩
    · unfold OptEnv.prepare
      simp only [hn, hR, hN n hn', andThen, Bool.false_eq_true, if_false]
    · by_cases h0 : g.numStates = 0
      · exact .inr h0
      · left
        obtain ⟨⟨j, hj, -⟩, -⟩ := h7.useful 0 (by omega)
        rw [hj]; simp
    · exact (h7.flags.top (h.resolve_left hn) ha).2

end Verif
