import Verif.Lemmas.DetDistance
import Verif.Spec.NBestStrings
import Verif.Props.C69

/-!
# C71: `shortest_path` with `n > 1` and `unique`

The weights are those of C63, and `good` ones can be divided (C42). `rev`, `into` and `back` change nothing on such weights. `ord` is any
order of the hash maps of the determinization.
-/

namespace Verif
universe u
set_option linter.unusedSectionVars false
open Fst NSp

section
variable {W : Type u} [CommSemiring W] [DecidableEq W] {o : DetOps W} {good : W → Prop} {ord : DTup W → Label → List (DElt W) → List (DElt W)}

/-- What the reversed FST of an acceptor without ε looks like: state 0 has the ε-transitions. -/
structure RevShape (g : Fst W) : Prop where
  start : g.start = some 0
  next : ∀ s, ∀ t ∈ g.trsOf s, t.nextstate ≠ 0
  first : ∀ t ∈ g.trsOf 0, t.ilabel = EPS
  later : ∀ s, s ≠ 0 → ∀ t ∈ g.trsOf s, t.ilabel ≠ EPS

theorem reverse_shape {f : Fst W} (hw : f.WF) (ht : f.Truthful) (hflag : f.props .acceptor = true) (hne : ∀ s, ∀ t ∈ f.trsOf s, t.ilabel ≠ EPS)
    (hgood : f.WeightsIn good) {g : Fst W} (hg : f.reverse id = .ok g) : RevShape g ∧ DetInput g good := by
  obtain ⟨g', hg', gn, gs, g0, gt, gf0, gf, -⟩ := reverse_spec (id : W → W) f hw.next_lt
  rw [hg] at hg'; cases hg'
  obtain ⟨g', hg', gw, -, -⟩ := C17_structure (id : W → W) f hw
  rw [hg] at hg'; cases hg'
  obtain ⟨g', p, hg', gp, -⟩ := Fst.reverse_props (id : W → W) f hw.next_lt
  rw [hg] at hg'; cases hg'
  have hac := ht _ hflag
  -- the transitions
  have h0 : ∀ t ∈ g.trsOf 0, t.ilabel = EPS ∧ t.olabel = EPS ∧ t.nextstate ≠ 0 ∧ good t.weight := by
    intro t htr
    rw [g0] at htr
    obtain ⟨q, -, hq⟩ := List.mem_flatMap.1 htr
    cases hfq : f.finOf q with
    | none => rw [hfq] at hq; cases hq
    | some w =>
      rw [hfq] at hq
      obtain rfl := List.mem_singleton.1 hq
      exact ⟨rfl, rfl, Nat.succ_ne_zero q, hgood.2 q w hfq⟩
  have h1 : ∀ s, s ≠ 0 → ∀ t ∈ g.trsOf s, t.ilabel ≠ EPS ∧ t.ilabel = t.olabel ∧ t.nextstate ≠ 0 ∧ good t.weight := by
    intro s hs t htr
    have hsl := lt_of_mem_trsOf htr
    rw [gn] at hsl
    obtain ⟨q, rfl⟩ := Nat.exists_eq_succ_of_ne_zero hs
    rw [gt q (by omega)] at htr
    obtain ⟨p, -, hp⟩ := List.mem_flatMap.1 htr
    obtain ⟨t', ht', rfl⟩ := List.mem_map.1 hp
    obtain ⟨ht', -⟩ := List.mem_filter.1 ht'
    exact ⟨hne p t' ht', hac p t' ht', Nat.succ_ne_zero p, hgood.1 p t' ht'⟩
  refine ⟨⟨gs, fun s t htr => ?_, fun t htr => (h0 t htr).1, fun s hs t htr => (h1 s hs t htr).1⟩, ⟨gw, ?_, fun s t htr => ?_, fun s t htr => ?_⟩⟩
  · by_cases hs : s = 0
    · subst hs; exact (h0 t htr).2.2.1
    · exact (h1 s hs t htr).2.2.1
  · rw [gp, Props.or_apply, Bool.or_eq_true]
    exact .inl (by simp [Props.reverse, Props.orIf, Props.keep, hflag]; exact .inl (by decide))
  · by_cases hs : s = 0
    · subst hs; rw [(h0 t htr).1, (h0 t htr).2.1]
    · exact (h1 s hs t htr).2.1
  · by_cases hs : s = 0
    · subst hs; exact (h0 t htr).2.2.2
    · exact (h1 s hs t htr).2.2.2

/-- After the first transition the determinized FST has no ε, and each path has its own string. -/
theorem det_unique_strings {g : Fst W} (L : DetLaw o (id : W → W) good) (T : DetTotal o good) (ho : Orders ord) (hi : DetInput g good)
    (hsh : RevShape g) {D : Fst W} {nm : StateId → Option (DTup W)} (hP : (detMachine g o ord).Presents nm D) (m : Nat) :
    (∀ p ∈ D.accPaths (m + 1), p.1.length = m ∧ p.2.1 = p.1) ∧ ((D.accPaths (m + 1)).map (·.1)).Nodup := by
  have hstart : (detMachine g o ord).start = some ⟨[⟨0, 1⟩], 0⟩ := by simp [TupleOp.machine, detOp, hsh.start]
  obtain ⟨s0, hs0, hn0⟩ := hP.start_of hstart
  rw [accPaths_some hs0, pathsFrom_succ]
  let Q : StateId → Prop := fun s => ∃ t, nm s = some t ∧ ∀ e ∈ t.subset, e.state ≠ 0
  -- transitions of the result
  have hspec : ∀ s, ∀ tr ∈ D.trsOf s, ∃ (t : DTup W) (a : MTr (DTup W) W), nm s = some t ∧ nm tr.nextstate = some a.next ∧ tr.ilabel = a.ilabel ∧ tr.olabel = a.ilabel ∧
      ∀ q, q ∈ a.next.subset.map (·.state) ↔ ∃ e ∈ t.subset, ∃ tr ∈ g.trsOf e.state, tr.ilabel = a.ilabel ∧ tr.nextstate = q := by
    intro s tr htr
    obtain ⟨t, a, hs, hr, ha, hn⟩ := hP.trs_of s tr htr
    obtain ⟨hok, -⟩ := det_trs_spec L T ho hi hr
    exact ⟨t, a, hs, hn.2.2.2, hn.1, by rw [hn.2.1, hok.acceptor a ha], hok.next a ha⟩
  have hnext : ∀ s, ∀ tr ∈ D.trsOf s, Q tr.nextstate := by
    intro s tr htr
    obtain ⟨t, a, -, h2, -, -, h5⟩ := hspec s tr htr
    refine ⟨_, h2, fun e he => ?_⟩
    obtain ⟨e', -, tr', htr', -, hq⟩ := (h5 e.state).1 (List.mem_map.2 ⟨e, he, rfl⟩)
    rw [← hq]; exact hsh.next _ _ htr'
  have hlabel : ∀ s, ∀ tr ∈ D.trsOf s, ∃ t, nm s = some t ∧ ∃ e ∈ t.subset, ∃ tr' ∈ g.trsOf e.state, tr'.ilabel = tr.ilabel := by
    intro s tr htr
    obtain ⟨t, a, hs, hr, ha, hn⟩ := hP.trs_of s tr htr
    obtain ⟨hok, -⟩ := det_trs_spec L T ho hi hr
    obtain ⟨e, he⟩ := List.exists_mem_of_ne_nil _ (hok.nonempty a ha)
    obtain ⟨e', he', tr', htr', hl, -⟩ := (hok.next a ha e.state).1 (List.mem_map.2 ⟨e, he, rfl⟩)
    exact ⟨t, hs, e', he', tr', htr', by rw [hl, hn.1]⟩
  have hnd : ∀ s, ((D.trsOf s).map (·.ilabel)).Nodup := by
    intro s
    by_cases hs : s < D.numStates
    · obtain ⟨t, ht⟩ := (hP.states s).1 hs
      have hf2 := hP.trs s t ht
      have : (D.trsOf s).map (·.ilabel) = ((detMachine g o ord).trs t).map (·.ilabel) := by
        revert hf2
        generalize D.trsOf s = l1
        generalize (detMachine g o ord).trs t = l2
        intro hf2
        induction hf2 with
        | nil => rfl
        | cons hd _ ih => rw [List.map_cons, List.map_cons, ih, hd.1]
      rw [this]
      exact (det_trs_spec L T ho hi ((hP.tuples t).2 ⟨s, ht⟩)).1.sorted.imp fun h => Nat.ne_of_lt h
    · rw [trsOf_of_ge (by omega)]; exact List.nodup_nil
  have hacc : ∀ s, ∀ tr ∈ D.trsOf s, tr.ilabel = tr.olabel := by
    intro s tr htr
    obtain ⟨t, a, -, -, h3, h4, -⟩ := hspec s tr htr
    rw [h3, h4]
  have huniq := unique_strings (D := D) (Q := Q) (fun s _ => hnext s) (fun s _ => hnd s) (fun s _ => hacc s) (by
    rintro s ⟨t, hs, ht⟩ tr htr
    obtain ⟨t', hs', e, he, tr', htr', hl⟩ := hlabel s tr htr
    rw [hs] at hs'; cases hs'
    rw [← hl]
    exact hsh.later _ (ht e he) tr' htr')
  -- the first transition
  have h0 : ∀ tr ∈ D.trsOf s0, tr.ilabel = EPS := by
    intro tr htr
    obtain ⟨t', hs', e, he, tr', htr', hl⟩ := hlabel s0 tr htr
    rw [hn0] at hs'; cases hs'
    obtain rfl := List.mem_singleton.1 he
    rw [← hl]; exact hsh.first tr' htr'
  cases hl : D.trsOf s0 with
  | nil => simp
  | cons t l =>
    have hl' : l = [] := by
      cases l with
      | nil => rfl
      | cons t' l =>
        have := hnd s0
        rw [hl] at this h0
        rw [List.map_cons, List.map_cons, List.nodup_cons] at this
        exact absurd (by rw [h0 t (by simp), h0 t' (by simp)]; exact List.mem_cons_self) this.1
    subst hl'
    have ht : t ∈ D.trsOf s0 := by rw [hl]; simp
    have hcat : ∀ p : PathT W, (t.asPath.cat p).1 = p.1 ∧ (t.asPath.cat p).2.1 = p.2.1 := by
      intro p
      have h1 := h0 t ht
      have h2 := hacc s0 t ht
      rw [h1] at h2
      simp [PathT.cat, Tr.asPath, strip, h1, ← h2]
    obtain ⟨u1, u2⟩ := huniq m t.nextstate (hnext s0 t ht)
    have e : ((([t] : List (Tr W)) : Multiset (Tr W)).bind fun t => (D.pathsFrom m t.nextstate).map fun p => t.asPath.cat p) =
        (D.pathsFrom m t.nextstate).map fun p => t.asPath.cat p := by simp
    rw [e]
    refine ⟨fun p hp => ?_, ?_⟩
    · obtain ⟨q, hq, rfl⟩ := Multiset.mem_map.1 hp
      rw [(hcat q).1, (hcat q).2]
      exact u1 q hq
    · rw [Multiset.map_map]
      have : (D.pathsFrom m t.nextstate).map ((fun p : PathT W => p.1) ∘ fun p => t.asPath.cat p) = (D.pathsFrom m t.nextstate).map (·.1) :=
        Multiset.map_congr rfl fun q _ => (hcat q).1
      rw [this]
      exact u2

/-- The only path with its string gives the string its weight. -/
theorem sumVal_single {M : Multiset (PathT W)} (hM : (M.map (·.1)).Nodup) {p : PathT W} (hp : p ∈ M) :
    sumVal (id : W → W) M p.1 p.2.1 = p.2.2 := by
  have : M.filter (fun q => q.1 = p.1 ∧ q.2.1 = p.2.1) = {p} := by
    refine (Multiset.Nodup.ext ((Multiset.Nodup.of_map _ hM).filter _) (Multiset.nodup_singleton p)).2 fun q => ?_
    rw [Multiset.mem_filter, Multiset.mem_singleton]
    constructor
    · rintro ⟨hq, e, -⟩
      exact Multiset.inj_on_of_nodup_map hM q hq p hp e
    · rintro rfl
      exact ⟨hp, rfl, rfl⟩
  unfold sumVal
  rw [this]
  simp

theorem isWeight_unique {f : Fst W} {x y : List Label} {v w : W} (h1 : f.IsWeight x y v) (h2 : f.IsWeight x y w) : v = w := by
  obtain ⟨N, hN⟩ := h1
  obtain ⟨M, hM⟩ := h2
  rw [← hN (max N M) (le_max_left _ _), hM _ (le_max_right _ _)]

/-- C71: for `n > 1` and an acceptor without ε, the result has one path for each of the `n` best strings, with the weight of the string. It
is required that the determinization ends. -/
theorem C71_unique {sf : SemiringFlags} (hsf : sf.path = true ∧ sf.left = true ∧ sf.right = true) (h : PathWeights W)
    {eqv : W → W → Bool} (he : ∀ a b, eqv a b = true ↔ b = a) (L : DetLaw o (id : W → W) good) (T : DetTotal o good)
    (hl : o.leftSemiring = true) (ho : Orders ord) {f : Fst W} (hw : f.WF) (ht : f.Truthful) (hflag : f.props .acceptor = true)
    (hne : ∀ s, ∀ t ∈ f.trsOf s, t.ilabel ≠ EPS) (hgood : f.WeightsIn good) (hcan : ∀ w, good w → Cancels w)
    (hcyc : f.NoCycles (fun _ => true) ∨ f.CyclesAbsorbed (fun _ => true))
    (hfin : ∀ g, f.reverse id = .ok g → {t | (detMachine g o ord).Reach t}.Finite) {n : Nat} (hn : 2 ≤ n) :
    ∃ F, EndsWith (f.shortestUnique sf eqv id id id o ord n) (.ok F) ∧ F.WF ∧ F.Truthful ∧ IsNBestStrings n 3 f F := by
  have hid : ∀ a : W, a + a = a := fun a => Best.refl h a
  have hnew : (Fst.new : Fst W).WF := ⟨fun i hi => (nomatch hi), fun s t ht => absurd ht (by simp)⟩
  obtain ⟨g, hg, gacc⟩ := C17_paths (id : W → W) (fun a b => mul_comm a b) rfl f hw
  obtain ⟨hsh, hi⟩ := reverse_shape hw ht hflag hne hgood hg
  have htotal : ∀ m, (g.accPaths (m + 1)).map (PathT.rev id) = f.accPaths m := by
    intro m
    rw [gacc, delay_one_succ, Multiset.map_map]
    conv_rhs => rw [← Multiset.map_id (f.accPaths m)]
    refine Multiset.map_congr rfl fun p _ => ?_
    simp [PathT.rev]
  -- the distances
  have hdist : ∃ dist, EndsWith (f.shortestDistance sf eqv) (.ok dist) ∧
      ((f.start = none ∧ superDist id g dist = 0) ∨ (Potential (superDist id g dist :: dist) (id : W → W) g ∧
        ∀ s, Cancels (pweight (superDist id g dist :: dist) (some s)))) := by
    cases hs : f.start with
    | none =>
      refine ⟨[], ⟨0, fun k _ => (C32_refused hw ht k).1 hs⟩, .inl ⟨rfl, ?_⟩⟩
      have : ∀ (l : List (Tr W)) (a : W), l.foldl (fun d t => match ([] : List W)[t.nextstate - 1]? with
          | none => d
          | some x => d + id t.weight * x) a = a := by
        intro l
        induction l with
        | nil => intro a; rfl
        | cons t l ih => intro a; simp [ih]
      exact this _ _
    | some i =>
      obtain ⟨dist, hd, hvec⟩ := C32_shortest_distance (sf := sf) (eqv := eqv) (fun a => zero_mul a) he hsf.2.2 (fun _ => hid) hw ht hs
        (hcyc.imp id fun hc => ⟨hid, hc⟩)
      exact ⟨dist, hd, .inr (reverse_potential h (fun _ => rfl) rfl hw hs
        ⟨fun s t ht => hcan _ (hgood.1 s t ht), fun s w hw => hcan _ (hgood.2 s w hw)⟩ hvec hg)⟩
  obtain ⟨dist, ⟨N1, h1⟩, hcase⟩ := hdist
  obtain ⟨D, ds, nm, ⟨N2, h2⟩, Dw, hP, hds⟩ := det_distance L T hl ho hi (hfin g hg) (superDist id g dist :: dist)
  have run : ∀ F, EndsWith (D.nShortest sf eqv id ds n) (.ok F) → EndsWith (f.shortestUnique sf eqv id id id o ord n) (.ok F) := by
    rintro F ⟨N3, h3⟩
    refine ⟨max N1 (max N2 N3), fun k hk => ?_⟩
    unfold shortestUnique
    rw [if_neg (by omega), if_neg (by omega), if_neg (by simp [hsf]), h1 k (by omega)]
    simp only [hg, List.map_id, h2 k (by omega)]
    exact h3 k (by omega)
  -- the start of the determinized FST
  have hstart : (detMachine g o ord).start = some ⟨[⟨0, 1⟩], 0⟩ := by simp [TupleOp.machine, detOp, hsh.start]
  obtain ⟨s0, hs0, hn0⟩ := hP.start_of hstart
  have hd0 : ds[s0]? = some (superDist id g dist) := by
    rw [hds, hn0]
    simp [outOf, pweight]
  by_cases hz : superDist id g dist = 0
  · -- nothing to search
    refine ⟨Fst.new, run _ ⟨0, fun k _ => ?_⟩, hnew, truthful_new, [], List.nodup_nil, Nat.zero_le _, fun m => rfl, fun m _ => rfl, by simp,
      fun x v _ hv => ⟨by simp, fun _ => ?_⟩⟩
    · unfold nShortest
      rw [if_neg (by omega), if_neg (by simp [hsf]), hs0]
      simp only [hd0]
      rw [if_pos hz]
    · have hall : ∀ m, ∀ p ∈ f.accPaths m, p.2.2 = 0 := by
        intro m p hp
        rcases hcase with ⟨hs, -⟩ | ⟨hpot, -⟩
        · rw [accPaths_none hs] at hp; simp at hp
        · rw [← htotal, accPaths_some hsh.start] at hp
          obtain ⟨q, hq, rfl⟩ := Multiset.mem_map.1 hp
          have := hpot.path (fun a b => mul_comm a b) _ 0 q hq
          rw [show pweight (superDist id g dist :: dist) (some 0) = superDist id g dist from rfl, hz] at this
          exact this.of_zero
      refine isWeight_unique hv ⟨0, fun k _ => Finset.sum_eq_zero fun m _ => ?_⟩
      refine Multiset.sum_eq_zero fun x hx => ?_
      obtain ⟨p, hp, rfl⟩ := Multiset.mem_map.1 hx
      exact hall m p (Multiset.mem_filter.1 hp).1
  obtain ⟨hpot, hpc⟩ := hcase.resolve_left fun hc => hz hc.2
  obtain ⟨F, hF, Fw, Ft, paths, others, p1, p2, p3, p4, p5, p6, p7⟩ := nShortest_spec hsf h he (fun a b => mul_comm a b)
    (det_potential L T ho hi hpot hP hds) (det_cancels h L ho hi hcan hpc hP hds) Dw (det_fin_ne L T ho hi hP) (n := n) (by omega) hs0 hd0 hz
  have hok := fun t => det_no_error (t := t) L T ho hi
  have hsum : ∀ k x y, sumVal id (D.accPaths k) x y = sumVal id (g.accPaths k) x y := by
    intro k x y
    rw [hP.accPaths, det_weights L ho hi.wf hi.weights hi.acceptor hok]
  have hDu := det_unique_strings L T ho hi hsh hP
  -- no path of the determinized FST is empty
  have hD0 : D.accPaths 0 = 0 := by
    rw [accPaths_some hs0, pathsFrom_zero]
    cases hv : D.finOf s0 with
    | none => rfl
    | some v =>
      have h3 := hsum 0 [] []
      rw [accPaths_some hs0, pathsFrom_zero, hv, gacc, delay_one_zero] at h3
      exact absurd (by simpa [sumVal, Multiset.filter_singleton] using h3) (det_fin_ne L T ho hi hP s0 v hv)
  -- the weights of `f`
  have hwt : ∀ m x, f.weightOf m x x = sumVal id (D.accPaths (m + 1)) x.reverse x.reverse := by
    intro m x
    rw [hsum, ← sumVal_id, ← htotal]
    unfold sumVal
    rw [Multiset.filter_map, Multiset.map_map]
    congr 1
    have : (g.accPaths (m + 1)).filter ((fun p : PathT W => p.1 = x ∧ p.2.1 = x) ∘ PathT.rev id) =
        (g.accPaths (m + 1)).filter (fun p => p.1 = x.reverse ∧ p.2.1 = x.reverse) := by
      refine Multiset.filter_congr fun p _ => ?_
      simp [PathT.rev, List.reverse_eq_iff]
    rw [this]
    rfl
  have hwt0 : ∀ m x, m ≠ x.length → f.weightOf m x x = 0 := by
    intro m x hm
    rw [hwt]
    unfold sumVal
    rw [Multiset.filter_eq_nil.2]
    · rfl
    · rintro p hp ⟨e, -⟩
      have := ((hDu m).1 p hp).1
      rw [e, List.length_reverse] at this
      exact hm this.symm
  have hIs : ∀ x, f.IsWeight x x (f.weightOf x.length x x) := by
    intro x
    refine ⟨x.length + 1, fun k hk => ?_⟩
    rw [Finset.sum_eq_single x.length]
    · intro b _ hb; exact hwt0 b x hb
    · intro hb; exact absurd (Finset.mem_range.2 hk) hb
  -- the paths found
  have hpath : ∀ p ∈ paths, p.1 = p.2.1.length + 1 ∧ p.2.2.1 = p.2.1 ∧ PathT.rev id p.2 ∈ D.accPaths p.1 := by
    intro p hp
    have hmem : p.2 ∈ F.accPaths (p.1 + 2) := by
      rw [p1, Multiset.mem_coe]
      exact List.mem_map.2 ⟨p, List.mem_filter.2 ⟨hp, by simp⟩, rfl⟩
    have : p.2 ∈ (D.accPaths p.1).map (PathT.rev id) := by rw [p4]; exact Multiset.mem_add.2 (.inl hmem)
    obtain ⟨q, hq, e⟩ := Multiset.mem_map.1 this
    have hqr : PathT.rev id p.2 = q := by rw [← e]; simp [PathT.rev]
    cases hk : p.1 with
    | zero => rw [hk, hD0] at hq; simp at hq
    | succ m =>
      rw [hk] at hq
      obtain ⟨u1, u2⟩ := (hDu m).1 q hq
      refine ⟨?_, ?_, by rw [hqr]; exact hq⟩
      · rw [← e]; simp [PathT.rev, u1]
      · rw [← e]; simp [PathT.rev, u2]
  have hrevinj : Function.Injective (fun x : List Label => x.reverse) := List.reverse_injective
  have hnodup : (paths.map (fun p => p.2.1)).Nodup := by
    rw [List.nodup_iff_count_le_one]
    intro x
    have hle : F.accPaths (x.length + 1 + 2) ≤ (D.accPaths (x.length + 1)).map (PathT.rev id) := by
      rw [p4]; exact Multiset.le_add_right _ _
    have hnd : ((F.accPaths (x.length + 1 + 2)).map (fun p => p.1)).Nodup := by
      refine Multiset.nodup_of_le (Multiset.map_le_map hle) ?_
      rw [Multiset.map_map]
      have : (D.accPaths (x.length + 1)).map ((fun p : PathT W => p.1) ∘ PathT.rev id) =
          ((D.accPaths (x.length + 1)).map (fun p => p.1)).map (fun x => x.reverse) := by
        rw [Multiset.map_map]; rfl
      rw [this]
      exact Multiset.Nodup.map hrevinj (hDu x.length).2
    rw [p1, Multiset.map_coe, Multiset.coe_nodup, List.nodup_iff_count_le_one] at hnd
    refine le_trans (le_of_eq ?_) (hnd x)
    rw [List.map_map, List.count_eq_countP, List.count_eq_countP, List.countP_map, List.countP_map, List.countP_filter]
    refine List.countP_congr fun p hp => ?_
    obtain ⟨e, -, -⟩ := hpath p hp
    simp only [Function.comp, beq_iff_eq, Bool.and_eq_true, decide_eq_true_eq]
    constructor
    · intro hx; exact ⟨hx, by rw [e, hx]⟩
    · exact fun hx => hx.1
  -- a string that was not found
  have hother : ∀ x, x ∉ paths.map (fun p => p.2.1) → f.weightOf x.length x x = 0 ∨
      ∃ q ∈ others (x.length + 1), q.2.2 = f.weightOf x.length x x := by
    intro x hx
    rw [hwt]
    by_cases hex : ∃ r ∈ D.accPaths (x.length + 1), r.1 = x.reverse
    · obtain ⟨r, hr, e⟩ := hex
      have hrr := ((hDu x.length).1 r hr).2
      have hr' : PathT.rev id r ∈ F.accPaths (x.length + 1 + 2) + others (x.length + 1) := by
        rw [← p4]; exact Multiset.mem_map_of_mem _ hr
      have hval : sumVal id (D.accPaths (x.length + 1)) x.reverse x.reverse = r.2.2 := by
        have := sumVal_single (hDu x.length).2 hr
        rwa [hrr, e] at this
      rcases Multiset.mem_add.1 hr' with hr' | hr'
      · rw [p1, Multiset.mem_coe] at hr'
        obtain ⟨p, hp, e'⟩ := List.mem_map.1 hr'
        refine absurd (List.mem_map.2 ⟨p, (List.mem_filter.1 hp).1, ?_⟩) hx
        show p.2.1 = x
        rw [e']
        simp [PathT.rev, e]
      · exact .inr ⟨_, hr', by rw [hval]; rfl⟩
    · left
      unfold sumVal
      rw [Multiset.filter_eq_nil.2]
      · rfl
      · rintro p hp ⟨e, -⟩
        exact hex ⟨p, hp, e⟩
  have hmap : (paths.map fun p => (p.2.1, p.2.2.2)).map (·.1) = paths.map (fun p => p.2.1) := by rw [List.map_map]; rfl
  refine ⟨F, run F hF, Fw, Ft, paths.map (fun p => (p.2.1, p.2.2.2)), by rw [hmap]; exact hnodup, by simpa using p6, fun m => ?_, fun m hm => ?_,
    fun p hp => ?_, fun x v hx hv => ?_⟩
  · rw [show m + 3 = (m + 1) + 2 by omega, p1 (m + 1), List.filter_map, List.map_map]
    congr 1
    have : paths.filter (fun p => decide (p.1 = m + 1)) =
        paths.filter ((fun p : List Label × W => decide (p.1.length = m)) ∘ fun p => (p.2.1, p.2.2.2)) := by
      refine List.filter_congr fun p hp => ?_
      have := (hpath p hp).1
      simp only [Function.comp]
      congr 1
      simp only [eq_iff_iff]
      omega
    rw [this]
    refine List.map_congr_left fun p hp => ?_
    have := (hpath p (List.mem_filter.1 hp).1).2.1
    show p.2 = (p.2.1, p.2.1, p.2.2.2)
    exact Prod.ext rfl (Prod.ext this rfl)
  · match m, hm with
    | 0, _ => exact p2
    | 1, _ => exact p3
    | 2, _ =>
      have := p4 0
      rw [hD0, Multiset.map_zero] at this
      exact (add_eq_zero.1 this.symm).1
  · obtain ⟨p', hp', rfl⟩ := List.mem_map.1 hp
    obtain ⟨e1, e2, e3⟩ := hpath p' hp'
    show f.IsWeight p'.2.1 p'.2.1 p'.2.2.2
    have : f.weightOf p'.2.1.length p'.2.1 p'.2.1 = p'.2.2.2 := by
      rw [hwt, ← e1]
      rw [e1] at e3
      have := sumVal_single (hDu _).2 e3
      rw [← e1] at this
      simpa [PathT.rev, e2] using this
    rw [← this]
    exact hIs _
  · rw [hmap] at hx
    have e := isWeight_unique hv (hIs x)
    rw [e]
    refine ⟨fun p hp => ?_, fun hlt => ?_⟩
    · obtain ⟨p', hp', rfl⟩ := List.mem_map.1 hp
      rcases hother x hx with h0 | ⟨q, hq, hq'⟩
      · rw [h0]; exact add_zero _
      · rw [← hq']; exact p5 p' hp' _ q hq
    · rcases hother x hx with h0 | ⟨q, hq, hq'⟩
      · exact h0
      · rw [p7 (by simpa using hlt)] at hq
        simp at hq

theorem reverse_acyclic {f : Fst W} (hw : f.WF) (hac : f.Holds .acyclic) {g : Fst W} (hg : f.reverse id = .ok g) : g.Holds .acyclic := by
  obtain ⟨g', hg', gn, gs, g0, gt, -, -, -⟩ := reverse_spec (id : W → W) f hw.next_lt
  rw [hg] at hg'; cases hg'
  have hedge : ∀ a b, g.Edge a b → b ≠ 0 ∧ (a ≠ 0 → f.Edge (b - 1) (a - 1)) := by
    rintro a b ⟨t, htr, rfl⟩
    have hsl := lt_of_mem_trsOf htr
    rw [gn] at hsl
    cases a with
    | zero =>
      rw [g0] at htr
      obtain ⟨q, -, hq⟩ := List.mem_flatMap.1 htr
      cases hfq : f.finOf q with
      | none => rw [hfq] at hq; cases hq
      | some w =>
        rw [hfq] at hq
        obtain rfl := List.mem_singleton.1 hq
        exact ⟨Nat.succ_ne_zero q, fun h => absurd rfl h⟩
    | succ q =>
      rw [gt q (by omega)] at htr
      obtain ⟨p, -, hp⟩ := List.mem_flatMap.1 htr
      obtain ⟨t', ht', rfl⟩ := List.mem_map.1 hp
      obtain ⟨ht', hq⟩ := List.mem_filter.1 ht'
      exact ⟨Nat.succ_ne_zero p, fun _ => ⟨t', ht', by simpa using hq⟩⟩
  have key : ∀ a b, Relation.TransGen g.Edge a b → b ≠ 0 ∧ (a ≠ 0 → Relation.TransGen f.Edge (b - 1) (a - 1)) := by
    intro a b hab
    induction hab with
    | single h => exact ⟨(hedge _ _ h).1, fun ha => .single ((hedge _ _ h).2 ha)⟩
    | tail _ h ih => exact ⟨(hedge _ _ h).1, fun ha => .head ((hedge _ _ h).2 ih.1) (ih.2 ha)⟩
  rintro ⟨s, hs⟩
  obtain ⟨h1, h2⟩ := key s s hs
  exact hac ⟨_, h2 h1⟩

/-- C71 for acceptors without cycles: the program ends. -/
theorem C71_acyclic {sf : SemiringFlags} (hsf : sf.path = true ∧ sf.left = true ∧ sf.right = true) (h : PathWeights W)
    {eqv : W → W → Bool} (he : ∀ a b, eqv a b = true ↔ b = a) (L : DetLaw o (id : W → W) good) (T : DetTotal o good)
    (hl : o.leftSemiring = true) (ho : Orders ord) {f : Fst W} (hw : f.WF) (ht : f.Truthful) (hflag : f.props .acceptor = true)
    (hne : ∀ s, ∀ t ∈ f.trsOf s, t.ilabel ≠ EPS) (hgood : f.WeightsIn good) (hcan : ∀ w, good w → Cancels w)
    (hac : f.Holds .acyclic) {n : Nat} (hn : 2 ≤ n) :
    ∃ F, EndsWith (f.shortestUnique sf eqv id id id o ord n) (.ok F) ∧ F.WF ∧ F.Truthful ∧ IsNBestStrings n 3 f F :=
  C71_unique hsf h he L T hl ho hw ht hflag hne hgood hcan (.inl (noCycles_of_acyclic hac _)) (fun g hg => by
    obtain ⟨-, hi⟩ := reverse_shape hw ht hflag hne hgood hg
    exact det_finite_acyclic L ho hi.wf hi.weights (reverse_acyclic hw hac hg)) hn

/-- `n = 0` gives the empty FST; `n = 1` does not look at `unique`; weights without the path property are refused. -/
theorem C71_other (sf : SemiringFlags) (eqv : W → W → Bool) (f : Fst W) (n fuel : Nat) :
    f.shortestUnique sf eqv id id id o ord 0 fuel = some (.ok Fst.new) ∧
    f.shortestUnique sf eqv id id id o ord 1 fuel = f.shortestPath sf fuel ∧
    (2 ≤ n → sf.path = false → f.shortestUnique sf eqv id id id o ord n fuel = some (.error .err)) := by
  refine ⟨rfl, rfl, fun hn hp => ?_⟩
  unfold shortestUnique
  rw [if_neg (by omega), if_neg (by omega), if_pos (.inl hp)]

/-- C71: an FST with different labels on some transition is refused. -/
theorem C71_refused {sf : SemiringFlags} (hsf : sf.path = true ∧ sf.left = true ∧ sf.right = true) (hid : ∀ a : W, a + a = a)
    {eqv : W → W → Bool} (he : ∀ a b, eqv a b = true ↔ b = a) {f : Fst W} (hw : f.WF) (ht : f.Truthful)
    (hna : ∃ s, ∃ t ∈ f.trsOf s, t.ilabel ≠ t.olabel) (hcyc : f.NoCycles (fun _ => true) ∨ f.CyclesAbsorbed (fun _ => true)) {n : Nat} (hn : 2 ≤ n) :
    EndsWith (f.shortestUnique sf eqv id id id o ord n) (.error .err) := by
  obtain ⟨g, hg, gn, gs, g0, gt, -, -, -⟩ := reverse_spec (id : W → W) f hw.next_lt
  obtain ⟨g', hg', gtr⟩ := C17_flags (id : W → W) (fun _ => Iff.rfl) (fun _ => Iff.rfl) f hw ht
  rw [hg] at hg'; cases hg'
  have hdist : ∃ dist, EndsWith (f.shortestDistance sf eqv) (.ok dist) := by
    cases hs : f.start with
    | none => exact ⟨[], 0, fun k _ => (C32_refused hw ht k).1 hs⟩
    | some i =>
      obtain ⟨dist, hd, -⟩ := C32_shortest_distance (sf := sf) (eqv := eqv) (fun a => zero_mul a) he hsf.2.2 (fun _ => hid) hw ht hs
        (hcyc.imp id fun hc => ⟨hid, hc⟩)
      exact ⟨dist, hd⟩
  obtain ⟨dist, N, h1⟩ := hdist
  have hflag : g.props .acceptor = false := by
    rw [← Bool.not_eq_true]
    intro hc
    obtain ⟨s, t, htr, hne⟩ := hna
    have hs := lt_of_mem_trsOf htr
    have hq := hw.next_lt s t htr
    refine hne (gtr _ hc (t.nextstate + 1) (revTr id s t) ?_)
    rw [gt _ hq]
    exact List.mem_flatMap.2 ⟨s, List.mem_range.2 hs, List.mem_map.2 ⟨t, List.mem_filter.2 ⟨htr, by simp⟩, rfl⟩⟩
  refine ⟨N, fun k hk => ?_⟩
  unfold shortestUnique
  rw [if_neg (by omega), if_neg (by omega), if_neg (by simp [hsf]), h1 k hk]
  simp only [hg]
  unfold determinizeWithDistance
  by_cases hl : o.leftSemiring = false
  · rw [if_pos hl]
  · rw [if_neg hl, if_pos (by simp [Props.has, hflag])]

end

section
variable {K : Type} [Field K] [LinearOrder K] [IsStrictOrderedRing K] [FloorRing K] {delta : K}
  {ord : DTup (TW K) → Label → List (DElt (TW K)) → List (DElt (TW K))} {eqv : TW K → TW K → Bool}

theorem finIn_cancels {G : AddSubgroup K} (w : TW K) (h : FinIn G w) : Cancels w := by
  obtain ⟨x, -, rfl⟩ := h
  exact TW.cancels (by simp)

/-- C71 for the tropical weights, quantization included: an acceptor without cycles whose weights are finite multiples of `delta`. -/
theorem C71_tropical (hd : delta ≠ 0) (he : ∀ a b, eqv a b = true ↔ b = a) (ho : Orders ord) {f : Fst (TW K)} (hw : f.WF) (ht : f.Truthful)
    (hflag : f.props .acceptor = true) (hne : ∀ s, ∀ t ∈ f.trsOf s, t.ilabel ≠ EPS)
    (hgood : f.WeightsIn (FinIn (AddSubgroup.zmultiples delta))) (hac : f.Holds .acyclic) {n : Nat} (hn : 2 ≤ n) :
    ∃ F, EndsWith (f.shortestUnique (TW.ops (K := K)).flags eqv id id id (tropDet (quantize delta)) ord n) (.ok F) ∧ F.WF ∧ F.Truthful ∧
      IsNBestStrings n 3 f F :=
  C71_acyclic ⟨rfl, rfl, rfl⟩ TW.pathWeights he (tropDet_grid hd).1 (tropDet_grid hd).2 rfl ho hw ht hflag hne hgood finIn_cancels hac hn

/-- C71 for tropical acceptors without weights, cycles or not. -/
theorem C71_tropical_unweighted (he : ∀ a b, eqv a b = true ↔ b = a) (ho : Orders ord) {f : Fst (TW K)} (hw : f.WF) (ht : f.Truthful)
    (hflag : f.props .acceptor = true) (hne : ∀ s, ∀ t ∈ f.trsOf s, t.ilabel ≠ EPS) (hgood : f.WeightsIn (fun w => w = 1)) {n : Nat} (hn : 2 ≤ n) :
    ∃ F, EndsWith (f.shortestUnique (TW.ops (K := K)).flags eqv id id id (tropDet (quantize delta)) ord n) (.ok F) ∧ F.WF ∧ F.Truthful ∧
      IsNBestStrings n 3 f F := by
  have hq : ∀ x ∈ (⊥ : AddSubgroup K), quantize delta x = x := by
    intro x hx
    rw [AddSubgroup.mem_bot] at hx
    subst hx
    have : ⌊(0 : K) + 1 / 2⌋ = 0 := by
      rw [Int.floor_eq_iff]
      constructor
      · simp
      · norm_num
    simp only [quantize, zero_div, this]
    simp
  obtain ⟨L, T⟩ := tropDet_law (quantize delta) (⊥ : AddSubgroup K) hq
  have hg : f.WeightsIn (FinIn (⊥ : AddSubgroup K)) :=
    ⟨fun s t h => ⟨0, AddSubgroup.zero_mem _, hgood.1 s t h⟩, fun s w h => ⟨0, AddSubgroup.zero_mem _, hgood.2 s w h⟩⟩
  refine C71_unique ⟨rfl, rfl, rfl⟩ TW.pathWeights he L T rfl ho hw ht hflag hne hg finIn_cancels (.inr (TW.cyclesAbsorbed fun s t h => ?_))
    (fun g hgr => ?_) hn
  · rw [hgood.1 s t h]; exact le_refl (0 : K)
  · obtain ⟨-, hi⟩ := reverse_shape hw ht hflag hne hg hgr
    refine det_finite_good L ho hi.wf hi.weights ?_
    refine Set.Finite.subset (Set.finite_singleton (1 : TW K)) ?_
    rintro w ⟨x, hx, rfl⟩
    rw [AddSubgroup.mem_bot] at hx
    subst hx
    rfl

end

/-! ### Examples and defects -/

/-- The string `1 3` twice, with weights 0 and 1, and `2 3` with weight 5. -/
def exUq : Fst (TW ℚ) where
  states := [⟨none, [⟨1, 1, .fin 0, 1⟩, ⟨1, 1, .fin 1, 2⟩, ⟨2, 2, .fin 5, 1⟩], 0, 0⟩, ⟨none, [⟨3, 3, .fin 0, 3⟩], 0, 0⟩,
    ⟨none, [⟨3, 3, .fin 0, 3⟩], 0, 0⟩, ⟨some (.fin 0), [], 0, 0⟩]
  start := some 0
  props := Props.of [.acceptor]

theorem exUq_trs : ∀ s, ∀ tr ∈ exUq.trsOf s, (∃ n : ℤ, tr.weight = .fin (n : ℚ)) ∧ tr.ilabel = tr.olabel ∧ s < tr.nextstate ∧ tr.nextstate < 4 ∧
    tr.ilabel ≠ EPS := by
  intro s tr h
  match s, h with
  | 0, h =>
    simp [exUq, Fst.trsOf] at h
    rcases h with rfl | rfl | rfl
    · exact ⟨⟨0, by simp⟩, rfl, by decide, by decide, by decide⟩
    · exact ⟨⟨1, by simp⟩, rfl, by decide, by decide, by decide⟩
    · exact ⟨⟨5, by simp⟩, rfl, by decide, by decide, by decide⟩
  | 1, h => simp [exUq, Fst.trsOf] at h; subst h; exact ⟨⟨0, by simp⟩, rfl, by decide, by decide, by decide⟩
  | 2, h => simp [exUq, Fst.trsOf] at h; subst h; exact ⟨⟨0, by simp⟩, rfl, by decide, by decide, by decide⟩
  | 3, h => simp [exUq, Fst.trsOf] at h
  | n + 4, h => simp [exUq, Fst.trsOf] at h

/-- The hypotheses hold for it. -/
example : ∃ F, EndsWith (exUq.shortestUnique (TW.ops (K := ℚ)).flags (fun a b => decide (b = a)) id id id (tropDet (quantize 1)) (fun _ _ es => es) 2) (.ok F) ∧
    F.WF ∧ F.Truthful ∧ IsNBestStrings 2 3 exUq F := by
  have hgrid : ∀ n : ℤ, FinIn (AddSubgroup.zmultiples (1 : ℚ)) (.fin (n : ℚ)) := fun n =>
    ⟨n, AddSubgroup.mem_zmultiples_iff.2 ⟨n, by simp⟩, rfl⟩
  refine C71_tropical (by norm_num) (fun a b => by simp) (fun _ _ _ => List.Perm.refl _) ⟨by simp [exUq, Fst.numStates], fun s tr h => (exUq_trs s tr h).2.2.2.1⟩ ?_
    (by decide) (fun s tr h => (exUq_trs s tr h).2.2.2.2) ⟨fun s tr h => ?_, fun s w h => ?_⟩
    (Fst.acyclic_of_topSorted fun s tr h => (exUq_trs s tr h).2.2.1) (by decide)
  · intro b hb
    cases b <;> first
      | exact absurd hb (by decide)
      | exact fun s tr h => (exUq_trs s tr h).2.1
  · obtain ⟨n, hn⟩ := (exUq_trs s tr h).1
    rw [hn]; exact hgrid n
  · match s, h with
    | 0, h => simp [exUq, Fst.finOf] at h
    | 1, h => simp [exUq, Fst.finOf] at h
    | 2, h => simp [exUq, Fst.finOf] at h
    | 3, h =>
      simp [exUq, Fst.finOf] at h
      rw [← h]; simpa using hgrid 0
    | n + 4, h => simp [exUq, Fst.finOf] at h

/-- With `unique` the two strings, without it the same string twice. -/
example : (∃ F, exUq.shortestUnique (TW.ops (K := ℚ)).flags (fun a b => decide (b = a)) id id id (tropDet (quantize 1)) (fun _ _ es => es) 2 100 =
      some (.ok F) ∧ F.accPaths 5 = ↑[(([1, 3], [1, 3], .fin 0) : PathT (TW ℚ)), ([2, 3], [2, 3], .fin 5)]) ∧
    ∃ F, exUq.shortestPaths (TW.ops (K := ℚ)).flags (fun a b => decide (b = a)) id id 2 100 = some (.ok F) ∧
      F.accPaths 5 = ↑[(([1, 3], [1, 3], .fin 0) : PathT (TW ℚ)), ([1, 3], [1, 3], .fin 1)] := by
  constructor
  · obtain ⟨F, h1, h2⟩ := out_of_ok (fun F : Fst (TW ℚ) => decide (F.accPaths 5 =
      ↑[(([1, 3], [1, 3], .fin 0) : PathT (TW ℚ)), ([2, 3], [2, 3], .fin 5)])) (b := true)
      (x := exUq.shortestUnique (TW.ops (K := ℚ)).flags (fun a b => decide (b = a)) id id id (tropDet (quantize 1)) (fun _ _ es => es) 2 100) (by decide +kernel)
    exact ⟨F, h1, of_decide_eq_true h2⟩
  · obtain ⟨F, h1, h2⟩ := out_of_ok (fun F : Fst (TW ℚ) => decide (F.accPaths 5 =
      ↑[(([1, 3], [1, 3], .fin 0) : PathT (TW ℚ)), ([1, 3], [1, 3], .fin 1)])) (b := true)
      (x := exUq.shortestPaths (TW.ops (K := ℚ)).flags (fun a b => decide (b = a)) id id 2 100) (by decide +kernel)
    exact ⟨F, h1, of_decide_eq_true h2⟩

/-- The string `1` directly, and behind an ε. -/
def exUqEps : Fst (TW ℚ) where
  states := [⟨none, [⟨0, 0, .fin 0, 1⟩, ⟨1, 1, .fin 3, 2⟩], 1, 1⟩, ⟨none, [⟨1, 1, .fin 0, 2⟩], 0, 0⟩, ⟨some (.fin 0), [], 0, 0⟩]
  start := some 0
  props := Props.of [.acceptor]

/-- Defect: the determinization takes ε for a label like any other, so with ε-transitions the result has the same string more than once. -/
theorem C71_eps_defect : ∃ F, exUqEps.shortestUnique (TW.ops (K := ℚ)).flags (fun a b => decide (b = a)) id id id (tropDet (quantize 1))
      (fun _ _ es => es) 2 100 = some (.ok F) ∧ F.accPaths 4 = {([1], [1], .fin 3)} ∧ F.accPaths 5 = {([1], [1], .fin 0)} := by
  obtain ⟨F, h1, h2⟩ := out_of_ok (fun F : Fst (TW ℚ) => decide (F.accPaths 4 = {([1], [1], .fin 3)}) && decide (F.accPaths 5 = {([1], [1], .fin 0)}))
    (b := true) (x := exUqEps.shortestUnique (TW.ops (K := ℚ)).flags (fun a b => decide (b = a)) id id id (tropDet (quantize 1)) (fun _ _ es => es) 2 100)
    (by decide +kernel)
  rw [Bool.and_eq_true] at h2
  exact ⟨F, h1, of_decide_eq_true h2.1, of_decide_eq_true h2.2⟩

end Verif
