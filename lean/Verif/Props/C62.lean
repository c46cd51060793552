import Verif.Lemmas.MinTr
import Verif.Props.C59
import Verif.Props.C61

/-!
# C62: minimization of transducers

`minimize_with_config` (algorithms/minimize.rs 90-155) on deterministic transducers.
-/

namespace Verif
open Fst
universe u v
set_option linter.unusedSectionVars false

theorem live_of_ne {V : Type u} [Zero V] [DecidableEq V] {M : Multiset (PathT V)} (h : ∀ p ∈ M, p.2.2 ≠ 0) : live M = M := by
  unfold live
  rw [Multiset.filter_eq_self]
  exact h

/-- A leading ε counts as an additional transition. -/
theorem SamePathsDelayed.shift {W : Type u} [One W] [Mul W] {f F : Fst W} {k0 : Nat} (hk : k0 ≤ 1)
    (h : ∃ part : Nat → Nat → Multiset (PathT W), (∀ m, F.accPaths m = ∑ n ∈ Finset.range (m + 1), part n (m - n)) ∧
      ∀ n, ∃ D, (∀ k, D ≤ k → part n k = 0) ∧ ∑ k ∈ Finset.range D, part n k = delay k0 f.accPaths n) : SamePathsDelayed f F := by
  obtain ⟨part, h1, h2⟩ := h
  rcases Nat.le_one_iff_eq_zero_or_eq_one.1 hk with rfl | rfl
  · refine ⟨part, h1, fun n => ?_⟩
    obtain ⟨D, a, b⟩ := h2 n
    exact ⟨D, a, by rw [b, delay_zero]⟩
  · have hz : ∀ k, part 0 k = 0 := by
      obtain ⟨D, a, b⟩ := h2 0
      intro k
      by_cases hk : k < D
      · have : ∑ k ∈ Finset.range D, part 0 k = 0 := by rw [b]; rfl
        have := (Finset.sum_eq_zero_iff.1 this) k (Finset.mem_range.2 hk)
        exact this
      · exact a k (by omega)
    refine ⟨fun n k => if k = 0 then 0 else part (n + 1) (k - 1), fun m => ?_, fun n => ?_⟩
    · rw [h1, Finset.sum_range_succ', hz, add_zero, Finset.sum_range_succ, Nat.sub_self]
      show _ = _ + 0
      rw [add_zero]
      refine Finset.sum_congr rfl fun n hn => ?_
      have := Finset.mem_range.1 hn
      show _ = if m - n = 0 then 0 else part (n + 1) (m - n - 1)
      rw [if_neg (by omega), Nat.sub_sub]
    · obtain ⟨D, a, b⟩ := h2 (n + 1)
      refine ⟨D + 1, fun k hk => ?_, ?_⟩
      · show (if k = 0 then 0 else part (n + 1) (k - 1)) = 0
        rw [if_neg (by omega)]; exact a _ (by omega)
      · rw [Finset.sum_range_succ']
        simp only [Nat.add_sub_cancel, if_true, add_zero]
        rw [show (∑ k ∈ Finset.range D, if k + 1 = 0 then 0 else part (n + 1) k) = ∑ k ∈ Finset.range D, part (n + 1) k from
          Finset.sum_congr rfl fun k _ => if_neg (by omega), b]
        rfl

section
variable {W : Type u} {V : Type v} [Semiring W] [DecidableEq W] [Semiring V] [DecidableEq V]
variable {divL divR : W → W → R W} {P : W → Prop} {rev : W → V} {back : V → W} {sf : SemiringFlags} {eqv : V → V → Bool}
  {q qd : W → R W} {qf : W → W} {lt : W → W → Bool} {merge : List (List (Tr V)) → List (Tr V)}
  {merge' : List (List (Tr (StrR × V))) → List (Tr (StrR × V))} {f : Fst W}

/-- C62, the branch for transducers. -/
theorem C62_transducer (L : MinLaw divL P rev back sf eqv q qf lt merge) (hm : HeapMerge merge') (allowAcyclic : Bool)
    (hw : f.WF) (tf : f.Truthful) (hs : f.start ≠ none) (hac : f.Holds .acyclic) (hf : f.WeightsIn P) (hnz : f.WeightsIn (· ≠ 0)) (hd : f.Deterministic)
    (he : ∀ s, f.IsFinal s → ∀ t ∈ f.trsOf s, t.ilabel ≠ EPS)
    (hdP : ∀ a b v, P a → P b → b ≠ 0 → divL a b = .ok v → P v) (hd0 : ∀ a b v, P a → P b → b ≠ 0 → divL a b = .ok v → (v = 0 ↔ a = 0))
    (hq : ∀ w, P w → qf w = w) (hqd : qd 1 = .ok 1) :
    ∃ F : Fst W, EndsWith (f.minimizeTransducer divL rev back sf eqv q qd lt merge' allowAcyclic) (.ok F) ∧
      SamePathsDelayed f F ∧ F.WF ∧ F.AllCounters ∧ F.Truthful ∧ F.InputDeterministicUpToEps := by
  obtain ⟨g, hg⟩ := toGallic_ok (V := StrW × W) id (fun s h => hnz.2 s _ h rfl)
  obtain ⟨g1, g2, g3, g4, g5, g6⟩ := (C60_to_gallic f id hs).2 g hg
  have gtr : ∀ s, ∀ t ∈ g.trsOf s, ∃ t' ∈ f.trsOf s, t = gallicTr id t' := by
    intro s t ht
    rw [g3] at ht
    obtain ⟨t', h1, h2⟩ := List.mem_map.1 ht
    exact ⟨t', h1, h2.symm⟩
  have gw : g.WF := by
    refine ⟨fun i hi => by rw [g2]; exact hw.start_lt i (g1 ▸ hi), fun s t ht => ?_⟩
    obtain ⟨t', h1, rfl⟩ := gtr s t ht
    rw [g2]; exact hw.next_lt s t' h1
  have gE : ∀ s q, g.Edge s q → f.Edge s q := by
    rintro s q ⟨t, ht, rfl⟩
    obtain ⟨t', h1, rfl⟩ := gtr s t ht
    exact ⟨t', h1, rfl⟩
  have gac : g.Holds .acyclic := by
    rintro ⟨s, h⟩
    exact hac ⟨s, Relation.TransGen.mono gE _ _ h⟩
  have gP : g.WeightsIn (GProp P) := by
    refine ⟨fun s t ht => ?_, fun s v hv => ?_⟩
    · obtain ⟨t', h1, rfl⟩ := gtr s t ht
      exact .inr ⟨_, _, rfl, hnz.1 s t' h1, hf.1 s t' h1, by unfold strip; split <;> simp_all [eq_comm]⟩
    · rw [g4] at hv
      obtain ⟨w, h1, rfl⟩ := Option.map_eq_some_iff.1 hv
      exact .inr ⟨_, _, rfl, hnz.2 s w h1, hf.2 s w h1, by simp⟩
  have gnz : g.WeightsIn (· ≠ 0) := by
    refine ⟨fun s t ht => ?_, fun s v hv => ?_⟩
    · obtain ⟨t', h1, rfl⟩ := gtr s t ht
      exact gpair_ne_zero _ _
    · rw [g4] at hv
      obtain ⟨w, h1, rfl⟩ := Option.map_eq_some_iff.1 hv
      exact gpair_ne_zero _ _
  have gd : g.Deterministic := by
    intro s
    have := hd s
    rw [g3, List.map_map]
    exact this
  have ga : g.Holds .acceptor := by
    intro s t ht
    obtain ⟨t', h1, rfl⟩ := gtr s t ht
    rfl
  have ge : ∀ s, g.IsFinal s → ∀ t ∈ g.trsOf s, t.ilabel ≠ EPS := by
    intro s h t ht
    obtain ⟨t', h1, rfl⟩ := gtr s t ht
    refine he s ?_ t' h1
    unfold IsFinal at h ⊢
    rw [g4, Option.isSome_map] at h
    exact h
  have gp : g.CanPush := by
    refine .inl fun n s c hc => gac ⟨s, ?_⟩
    have key : ∀ n s x c, (x, c) ∈ g.walks (fun _ => true) (n + 1) s → Relation.TransGen g.Edge s x := by
      intro n
      induction n with
      | zero =>
        intro s x c h
        obtain ⟨t, ht, -, v, hv, -⟩ := (g.mem_walks_succ _).1 h
        obtain ⟨rfl, -⟩ := (g.mem_walks_zero _).1 hv
        exact .single ⟨t, ht, rfl⟩
      | succ n ih =>
        intro s x c h
        obtain ⟨t, ht, -, v, hv, -⟩ := (g.mem_walks_succ _).1 h
        exact .head ⟨t, ht, rfl⟩ (ih _ _ _ hv)
    exact key n s s c hc
  have LG := L.gallic hm
  obtain ⟨p, r, h, k, -, hk, hpath, hr1, hr2, hr3, ⟨N1, hN1⟩, hh, hwf, htr, huse, hdet, hacc, hW, hQ⟩ := C59_weighted (divR := gallicDivR) (f := g) LG allowAcyclic gw
    (g6 tf) (by rw [g1]; exact hs) gp gP gd ga ge
  obtain ⟨pP, pN⟩ := hW (gallic_div_in hdP hd0 L.div.closed.zero)
  have pnz := pN gnz
  have hround : ∀ a : StrW × W, GProp P a → (fun a : StrW × W => (a.1, qf a.2)) a = a := by
    rintro a (rfl | ⟨l, w, rfl, -, pw, -⟩)
    · exact Prod.ext rfl (hq 0 L.div.closed.zero)
    · exact Prod.ext rfl (hq w pw)
  have hrT : ∀ s, r.trsOf s = p.trsOf s := by
    intro s
    rw [hr1]
    conv_rhs => rw [← List.map_id (p.trsOf s)]
    refine List.map_congr_left fun t ht => ?_
    exact congrArg (fun w => (⟨t.ilabel, t.olabel, w, t.nextstate⟩ : Tr (StrW × W))) (hround _ (pP.1 s t ht))
  have hrF : ∀ s, r.finOf s = p.finOf s := by
    intro s
    rw [hr2]
    cases hpf : p.finOf s with
    | none => rfl
    | some w => exact congrArg some (hround _ (pP.2 s w hpf))
  have hrA : ∀ n, r.accPaths n = p.accPaths n := by
    intro n
    unfold accPaths
    rw [hr3]
    cases p.start with
    | none => rfl
    | some i => exact pathsFrom_congr hrT hrF n i
  have hpair : ∀ a : StrW × W, GProp P a → a ≠ 0 → GPair a := by
    intro a ha h0
    obtain ⟨l, w, rfl, -, -, hl⟩ := gprop_ne ha h0
    exact ⟨l, w, rfl, hl⟩
  have rK : r.WeightsIn GPair := by
    refine ⟨fun s t ht => ?_, fun s v hv => ?_⟩
    · rw [hrT] at ht; exact hpair _ (pP.1 s t ht) (pnz.1 s t ht)
    · rw [hrF] at hv; exact hpair _ (pP.2 s v hv) (pnz.2 s v hv)
  have hK := hQ GPair rK
  have hne0 : ∀ a : StrW × W, GPair a → a ≠ 0 := by
    rintro _ ⟨l, w, rfl, -⟩
    exact gpair_ne_zero _ _
  have hpnz : ∀ (x : Fst (StrW × W)), x.WeightsIn GPair → ∀ n, ∀ p ∈ x.accPaths n, p.2.2 ≠ 0 := by
    intro x hx n p hp
    unfold accPaths at hp
    cases hxs : x.start with
    | none => rw [hxs] at hp; simp at hp
    | some i =>
      rw [hxs] at hp
      exact hne0 _ (paths_weights hx gpair_mul n i p hp)
  have gK : g.WeightsIn GPair := ⟨fun s t ht => hpair _ (gP.1 s t ht) (gnz.1 s t ht), fun s v hv => hpair _ (gP.2 s v hv) (gnz.2 s v hv)⟩
  -- the paths of the minimized acceptor
  let φ : PathT W → PathT (StrW × W) := fun p => (p.1, p.1, (.labels p.2.1, p.2.2))
  have hpaths : ∀ n, h.accPaths n = (delay k f.accPaths n).map φ := by
    intro n
    rw [← live_of_ne (hpnz h hK n), hh, hrA, hpath]
    have : ∀ n, live (g.accPaths n) = (f.accPaths n).map φ := by
      intro n
      rw [live_of_ne (hpnz g gK n)]
      exact C60_to_gallic_paths hg (fun _ _ _ _ => rfl) n
    simp only [this]
    unfold delay
    split <;> simp
  obtain ⟨i, hi⟩ : ∃ i, f.start = some i := Option.ne_none_iff_exists'.1 hs
  have hacyc : h.Holds .acyclic := by
    refine acyclic_of_bounded hwf huse (f.below i + 1) fun n hn => ?_
    rw [hpaths]
    have : ∀ m, f.below i < m → f.accPaths m = 0 := by
      intro m hm
      rw [accPaths_some hi]; exact paths_zero_of_acyclic hw hac m i hm
    unfold delay
    split
    · rfl
    · rw [this _ (by omega)]; rfl
  obtain ⟨e1, e2, e3⟩ := gallic_laws (W := W) (q := qd) hqd
  obtain ⟨H, ⟨N2, hN2⟩, Hw, part1, c1, c2⟩ := C41_paths (f := h) (o := minFwOpts) e1 e2 e3 ⟨rfl, rfl, rfl, rfl⟩ hwf (.inl rfl)
    (C41_finite e1 e2 hwf (.inl hacyc))
  obtain ⟨F, f1, f2, f3, f4, part2, d1, d2, d3⟩ := min_tail (W := W) (J := GShort) (extract := extractPair) (mk := fun l w => (.labels l, w)) e1 hwf ⟨hK.1, fun s v hv _ => hK.2 s v hv⟩ gpair_factor gpair_one gpair_mul
    gpair_short gfactor_one (fun _ _ _ _ => rfl) hacc gshort_extract (hN2 N2 (Nat.le_refl _)) Hw
  have Ht : H.Truthful := by
    obtain ⟨t1, t2, t3⟩ := C41_flags (f := h) (o := minFwOpts) e1 e2 hwf htr (hN2 N2 (Nat.le_refl _))
    intro b hb
    by_cases hb1 : b = .acceptor
    · subst hb1; exact t2 (.inr ⟨rfl, rfl⟩) hb
    · by_cases hb2 : b = .coaccessible
      · subst hb2
        refine t3 (fun a => ∃ l w, a = (.labels l, w)) (fun s hf0 => hne0 0 (hK.2 s 0 hf0) rfl) ?_ ⟨[], 1, rfl⟩ ?_ ?_ hb
        · rintro _ ⟨l, w, rfl⟩; exact gpair_ne_zero _ _
        · intro w p hp
          obtain ⟨s, w⟩ := w
          rcases s with _ | ⟨_ | ⟨a, _ | ⟨b, l⟩⟩⟩
          · cases hp
          · cases hp
          · cases hp
          · simp [gallicFactor, stringFactor] at hp
            exact ⟨_, _, by rw [hp]⟩
        · rintro _ ⟨l, w, rfl⟩ s v hv
          obtain ⟨m, x, rfl, -⟩ := hK.2 s v hv
          exact gpair_ne_zero _ _
      · exact t1 b hb1 hb2 hb
  refine ⟨F, ⟨N1 + N2, fun n hn => ?_⟩, ?_, f2, f3, C60_from_gallic_flags Hw Ht f1, f4 hdet⟩
  · unfold minimizeTransducer
    rw [hg]
    simp only
    rw [hN1 n (by omega)]
    simp only
    rw [hN2 n (by omega)]
    simp only
    rw [f1]
  · refine SamePathsDelayed.shift hk ?_
    obtain ⟨part, x1, x2⟩ := regroup φ c1 (fun n => by obtain ⟨D, hD, -⟩ := c2 n; exact ⟨D, hD⟩) d1 d2 d3
    refine ⟨part, x1, fun n => ?_⟩
    obtain ⟨D, y1, y2⟩ := x2 n
    obtain ⟨D', z1, z2⟩ := c2 n
    refine ⟨D, y1, ?_⟩
    have hinj : Function.Injective φ := by
      rintro ⟨a, b, c⟩ ⟨a', b', c'⟩ h
      simp only [φ, Prod.mk.injEq, StrW.labels.injEq] at h
      obtain ⟨rfl, -, rfl, rfl⟩ := h
      rfl
    refine Multiset.map_injective hinj ?_
    rw [← hpaths]
    have := y2 D' z1
    rw [this]
    rw [show nonzero (h.accPaths n) = h.accPaths n from live_of_ne (hpnz h hK n)] at z2
    rw [← z2]
    symm
    refine live_of_ne fun p hp => ?_
    rw [← this] at hp
    obtain ⟨p', -, rfl⟩ := Multiset.mem_map.1 hp
    exact gpair_ne_zero _ _

/-- C62: `minimize` on an acyclic deterministic transducer whose weights are not zero and no final state of which has a transition that reads ε, if rounding does
not change the weights in `P`. It terminates, succeeds, and the result has the same accepting paths, with the same input strings, output strings and weights, which
may take more transitions. For each state and each input label other than ε there is at most one transition. The flags are right. -/
theorem C62_minimize (L : MinLaw divL P rev back sf eqv q qf lt merge) (hm : HeapMerge merge') (allowNondet : Bool)
    (hw : f.WF) (tf : f.Truthful) (hs : f.start ≠ none) (hac : f.Holds .acyclic) (hf : f.WeightsIn P) (hnz : f.WeightsIn (· ≠ 0)) (hd : f.Deterministic)
    (hna : ¬ f.Holds .acceptor) (he : ∀ s, f.IsFinal s → ∀ t ∈ f.trsOf s, t.ilabel ≠ EPS)
    (hdP : ∀ a b v, P a → P b → b ≠ 0 → divL a b = .ok v → P v) (hd0 : ∀ a b v, P a → P b → b ≠ 0 → divL a b = .ok v → (v = 0 ↔ a = 0))
    (hq : ∀ w, P w → qf w = w) (hqd : qd 1 = .ok 1) :
    ∃ F : Fst W, EndsWith (f.minimizeWith divL divR rev back sf eqv q lt merge (minimizeTransducer divL rev back sf eqv q qd lt merge') allowNondet) (.ok F) ∧
      SamePathsDelayed f F ∧ F.WF ∧ F.AllCounters ∧ F.Truthful ∧ F.InputDeterministicUpToEps := by
  obtain ⟨f', p, h1, h2, h3, h4, h5, h6, h7⟩ := minimizeWith_props f hw tf (.inl hs) (fun s hfs => hnz.2 s _ hfs rfl)
  have eT : ∀ s, f'.trsOf s = f.trsOf s := by intro s; unfold trsOf; rw [h2]
  have eF : ∀ s, f'.finOf s = f.finOf s := by intro s; unfold finOf; rw [h2]
  have eN : f'.numStates = f.numStates := by unfold numStates; rw [h2]
  have w' : f'.WF := ⟨fun i hi => by rw [eN]; exact hw.start_lt i (h3 ▸ hi), fun s t ht => by rw [eN]; exact hw.next_lt s t (eT s ▸ ht)⟩
  have hpath : ∀ n, f'.accPaths n = f.accPaths n := by
    intro n
    unfold accPaths
    rw [h3]
    cases f.start with
    | none => rfl
    | some i => exact pathsFrom_congr eT eF n i
  have hE : ∀ s q, f'.Edge s q → f.Edge s q := by
    rintro s q ⟨t, ht, rfl⟩
    exact ⟨t, eT s ▸ ht, rfl⟩
  obtain ⟨F, ⟨N, hN⟩, a1, a2⟩ := C62_transducer (f := f') (qd := qd) L hm (p .iDeterministic) w' h4 (by rw [h3]; exact hs)
    (by rintro ⟨s, h⟩; exact hac ⟨s, Relation.TransGen.mono hE _ _ h⟩)
    ⟨fun s t ht => hf.1 s t (eT s ▸ ht), fun s w hsw => hf.2 s w (eF s ▸ hsw)⟩ ⟨fun s t ht => hnz.1 s t (eT s ▸ ht), fun s w hsw => hnz.2 s w (eF s ▸ hsw)⟩
    (fun s => by rw [eT]; exact hd s) (fun s hfs t ht => he s (by unfold IsFinal at *; rwa [eF] at hfs) t (eT s ▸ ht)) hdP hd0 hq hqd
  refine ⟨F, ⟨N, fun n hn => ?_⟩, ?_, a2⟩
  · have pD : p .iDeterministic = true := h6.2 hd
    have pA : p .acceptor = false := by
      rw [Bool.eq_false_iff]; exact fun hc => hna (h5.1 hc)
    unfold minimizeWith
    rw [h1]
    simp only [pD, pA, Bool.not_true, Bool.false_and, Bool.false_eq_true, if_false, Bool.not_false, if_true]
    rw [← pD]
    exact hN n hn
  · obtain ⟨part, x, y⟩ := a1
    exact ⟨part, x, fun n => by obtain ⟨D, u, v⟩ := y n; exact ⟨D, u, by rw [v, hpath]⟩⟩

end

/-! ## Tropical weights -/

section trop
variable {K : Type} [Field K] [LinearOrder K] [IsStrictOrderedRing K] [FloorRing K] {delta : K}

/-- C62 for tropical weights that are multiples of `delta`. -/
theorem C62_tropical (hd0 : delta ≠ 0) {eqv : TW K → TW K → Bool} (hexact : ∀ a b, eqv a b = true ↔ b = a)
    {merge : List (List (Tr (TW K))) → List (Tr (TW K))} (hmg : HeapMerge merge)
    {merge' : List (List (Tr (StrR × TW K))) → List (Tr (StrR × TW K))} (hmg' : HeapMerge merge') (kdelta : K) (allowNondet : Bool) {f : Fst (TW K)} (hw : f.WF) (tf : f.Truthful)
    (hs : f.start ≠ none) (hac : f.Holds .acyclic) (hgrid : f.WeightsIn fun w => ∃ x ∈ AddSubgroup.zmultiples delta, w = .fin x) (hd : f.Deterministic)
    (hna : ¬ f.Holds .acceptor) (he : ∀ s, f.IsFinal s → ∀ t ∈ f.trsOf s, t.ilabel ≠ EPS) :
    ∃ F : Fst (TW K), EndsWith (f.minimizeWith TW.divE TW.divE id id (TW.ops (K := K)).flags eqv (fun w => .ok (TW.quantize delta w)) TW.lt merge
        (minimizeTransducer TW.divE id id (TW.ops (K := K)).flags eqv (fun w => .ok (TW.quantize delta w)) (fun w => .ok (TW.quantize kdelta w)) TW.lt merge') allowNondet) (.ok F) ∧
      SamePathsDelayed f F ∧ F.WF ∧ F.AllCounters ∧ F.Truthful ∧ F.InputDeterministicUpToEps := by
  have L := tropMinLaw delta hexact hmg
  refine C62_minimize L hmg' allowNondet hw tf hs hac ⟨fun s t ht => .inr (hgrid.1 s t ht), fun s w h => .inr (hgrid.2 s w h)⟩
    ⟨fun s t ht h => ?_, fun s w hsw h => ?_⟩ hd hna he ?_ ?_ ?_ ?_
  · obtain ⟨x, -, hx⟩ := hgrid.1 s t ht
    rw [hx] at h; cases h
  · obtain ⟨x, -, hx⟩ := hgrid.2 s w hsw
    rw [hx] at h; cases h
  · rintro _ _ v (rfl | ⟨x, hx, rfl⟩) (rfl | ⟨y, hy, rfl⟩) hb h
    · exact absurd rfl hb
    · cases h; exact .inl rfl
    · exact absurd rfl hb
    · cases h; exact .inr ⟨x - y, sub_mem hx hy, rfl⟩
  · rintro _ _ v (rfl | ⟨x, hx, rfl⟩) (rfl | ⟨y, hy, rfl⟩) hb h
    · exact absurd rfl hb
    · cases h; exact ⟨fun _ => rfl, fun _ => rfl⟩
    · exact absurd rfl hb
    · cases h; exact ⟨fun h => (by cases h), fun h => (by cases h)⟩
  · rintro _ (rfl | ⟨x, hx, rfl⟩)
    · rfl
    · show TW.fin (Verif.quantize delta x) = _
      rw [quantize_multiple hd0 x hx]
  · show (Except.ok (TW.fin (Verif.quantize kdelta 0)) : R (TW K)) = .ok (.fin 0)
    have : ⌊(1 / 2 : K)⌋ = 0 := Int.floor_eq_zero_iff.2 ⟨by positivity, by norm_num⟩
    simp only [Verif.quantize, zero_div, zero_add, this, Int.cast_zero, zero_mul]

end trop

/-! ## Instances -/

/-- An acyclic deterministic transducer. The states 1 and 2 do the same once output labels and weights are moved towards the start. -/
def exMinT : Fst (TW ℚ) :=
  ((((((((Fst.new.addStates 4).setStart 0).setFinal 3 (.fin 1)).addTr 0 ⟨1, 0, .fin 4, 1⟩).addTr 0 ⟨2, 0, .fin 2, 2⟩).addTr 1
    ⟨3, 6, .fin 0, 3⟩).addTr 1 ⟨4, 6, .fin 3, 3⟩).addTr 2 ⟨3, 7, .fin 2, 3⟩).addTr 2 ⟨4, 7, .fin 5, 3⟩

theorem exMinT_truthful : exMinT.Truthful := by
  unfold exMinT
  repeat' first
    | apply truthful_new
    | (refine truthful_addTr ?_ (by decide) _)
    | (refine truthful_setFinal ?_ (by decide) _)
    | apply truthful_setStart
    | apply truthful_addStates

/-- The instance meets the hypotheses of `C62_tropical`. -/
example : exMinT.WF ∧ exMinT.Truthful ∧ exMinT.start ≠ none ∧ exMinT.Holds .acyclic ∧
    (exMinT.WeightsIn fun w => ∃ x ∈ AddSubgroup.zmultiples (1 : ℚ), w = .fin x) ∧ exMinT.Deterministic ∧ ¬ exMinT.Holds .acceptor ∧
    ∀ s, exMinT.IsFinal s → ∀ t ∈ exMinT.trsOf s, t.ilabel ≠ EPS := by
  have key : ∀ s < 4, (∀ t ∈ exMinT.trsOf s, (∃ x ∈ List.range 10, t.weight = TW.fin (x : ℚ)) ∧ s < t.nextstate ∧ t.ilabel ≠ EPS) ∧
      ∀ w ∈ exMinT.finOf s, ∃ x ∈ List.range 10, w = TW.fin (x : ℚ) := by decide +kernel
  have key1 : ∀ s, ∀ t ∈ exMinT.trsOf s, (∃ x ∈ List.range 10, t.weight = TW.fin (x : ℚ)) ∧ s < t.nextstate ∧ t.ilabel ≠ EPS :=
    fun s t ht => (key s (lt_of_mem_trsOf ht)).1 t ht
  have hnat : ∀ x : Nat, (x : ℚ) ∈ AddSubgroup.zmultiples (1 : ℚ) := fun x => AddSubgroup.mem_zmultiples_iff.2 ⟨x, by simp⟩
  refine ⟨Fst.wf_of_wfB (by decide), exMinT_truthful, by decide, Fst.acyclic_of_topSorted fun s t h => (key1 s t h).2.1, ⟨fun s t ht => ?_, fun s w hw => ?_⟩,
    deterministic_of_b (by decide), fun h => absurd (h 0 ⟨1, 0, .fin 4, 1⟩ (by decide +kernel)) (by decide), fun s _ t ht => (key1 s t ht).2.2⟩
  · obtain ⟨⟨x, -, hx⟩, -⟩ := key1 s t ht
    exact ⟨x, hnat x, hx⟩
  · obtain ⟨x, -, hx⟩ := (key s (IsFinal.lt (by unfold IsFinal; rw [hw]; rfl))).2 w hw
    exact ⟨x, hnat x, hx⟩

/-- `minimize` for tropical weights, rounding to multiples of 1. -/
def exRunMin (f : Fst (TW ℚ)) (n : Nat) : Option (R (Fst (TW ℚ))) :=
  f.minimizeWith TW.divE TW.divE id id (TW.ops (K := ℚ)).flags (fun a b => decide (b = a)) (fun w => .ok (TW.quantize 1 w)) TW.lt sortMerge
    (minimizeTransducer TW.divE id id (TW.ops (K := ℚ)).flags (fun a b => decide (b = a)) (fun w => .ok (TW.quantize 1 w)) (fun w => .ok (TW.quantize 1 w))
      TW.lt sortMerge) false n

/-- States 1 and 2 are merged. -/
example : (match exRunMin exMinT 20 with
    | some (.ok g) => decide (g.numStates = 3 ∧ g.start = some 0 ∧ g.trsOf 0 = [⟨1, 6, .fin 5, 1⟩, ⟨2, 7, .fin 5, 1⟩] ∧
        g.trsOf 1 = [⟨3, 0, .fin 0, 2⟩, ⟨4, 0, .fin 3, 2⟩] ∧ g.finOf 2 = some (.fin 0))
    | _ => false) = true := by
  unfold exRunMin minimizeWith minimizeTransducer minimizeWeighted minimizeEncoded acceptorMinimize cyclicPartition
  simp only [trSort_eval, trUnique_eval]
  decide +kernel

/-- A deterministic transducer with a cycle. -/
def exCycT : Fst (TW ℚ) :=
  ((((((((((Fst.new.addStates 5).setStart 2).setFinal 4 (.fin 0)).addTr 0 ⟨1, 8, .fin 0, 0⟩).addTr 0 ⟨2, 0, .fin 0, 3⟩).addTr 0 ⟨3, 0, .fin 0, 2⟩).addTr 1
    ⟨1, 9, .fin 0, 4⟩).addTr 1 ⟨2, 0, .fin 0, 0⟩).addTr 2 ⟨1, 0, .fin 0, 1⟩).addTr 3 ⟨1, 7, .fin 0, 4⟩)

/-- A path reads one label for each transition that does not read ε. -/
theorem input_length {W : Type u} [One W] [Mul W] {f : Fst W} (h : ∀ s, ∀ t ∈ f.trsOf s, t.ilabel ≠ EPS) : ∀ n s, ∀ p ∈ f.pathsFrom n s, p.1.length = n := by
  intro n
  induction n with
  | zero =>
    intro s p hp
    simp only [pathsFrom] at hp
    cases hv : f.finOf s with
    | none => rw [hv] at hp; simp at hp
    | some v => rw [hv] at hp; rw [Multiset.mem_singleton] at hp; subst hp; rfl
  | succ n ih =>
    intro s p hp
    simp only [pathsFrom, Multiset.mem_bind, Multiset.mem_coe] at hp
    obtain ⟨t, ht, hp⟩ := hp
    obtain ⟨r, hr, rfl⟩ := Multiset.mem_map.1 hp
    simp [PathT.cat, Tr.asPath, strip, h s t ht, ih _ r hr]

/-- Defect: `minimize` changes the outputs of a deterministic transducer with a cycle. The input writes the label 9 for the input `1 1` and only this; the result writes `9 9`.
The reason is in `shortest_distance`, which finds the strings to move towards the start: after a loop at a state has put this state back into the queue, the targets of its
further transitions are not (shortest_distance.rs 221: `enqueued[state]` instead of `enqueued[nextstate]`). -/
theorem C62_cycle_defect : exCycT.WF ∧ exCycT.Truthful ∧ exCycT.Deterministic ∧ (∀ s, ∀ t ∈ exCycT.trsOf s, t.ilabel ≠ EPS ∧ t.weight = .fin 0) ∧
    (∀ y w, exCycT.Accepts [1, 1] y w → y = [9]) ∧ exCycT.weightOf 2 [1, 1] [9] = .fin 0 ∧
    ∃ g, exRunMin exCycT 50 = some (.ok g) ∧ g.weightOf 3 [1, 1] [9, 9] = .fin 0 := by
  have key : ∀ s, ∀ t ∈ exCycT.trsOf s, t.ilabel ≠ EPS ∧ t.weight = .fin 0 := by
    have : ∀ s < 5, ∀ t ∈ exCycT.trsOf s, t.ilabel ≠ EPS ∧ t.weight = .fin 0 := by decide +kernel
    exact fun s t ht => this s (lt_of_mem_trsOf ht) t ht
  refine ⟨Fst.wf_of_wfB (by decide), ?_, deterministic_of_b (by decide), key, ?_, by decide +kernel, ?_⟩
  · unfold exCycT
    repeat' first
      | apply truthful_new
      | (refine truthful_addTr ?_ (by decide) _)
      | (refine truthful_setFinal ?_ (by decide) _)
      | apply truthful_setStart
      | apply truthful_addStates
  · rintro y w ⟨n, hn⟩
    have h0 : exCycT.start = some 2 := by decide
    rw [accPaths_some h0] at hn
    have := input_length (fun s t ht => (key s t ht).1) n 2 _ hn
    obtain rfl : n = 2 := this.symm
    have h2 : ∀ p ∈ exCycT.pathsFrom 2 2, p.1 = [1, 1] → p.2.1 = [9] := by decide +kernel
    exact h2 _ hn rfl
  have h : (match exRunMin exCycT 50 with
      | some (.ok g) => decide (g.weightOf 3 [1, 1] [9, 9] = .fin 0)
      | _ => false) = true := by
    unfold exRunMin minimizeWith minimizeTransducer minimizeWeighted minimizeEncoded acceptorMinimize cyclicPartition
    simp only [trSort_eval, trUnique_eval]
    decide +kernel
  split at h
  · next g hg => exact ⟨g, hg, of_decide_eq_true h⟩
  · cases h

end Verif
