import Verif.Lemmas.Lazy

/-! # Lazy FSTs: iterating over the states -/

set_option linter.unusedSectionVars false

namespace Verif
universe u v w x
variable {W : Type u} {C : Type v} {σ : Type w} {T : Type x}

namespace Lz
variable {K : CacheOps W C} {cinv : C → Prop} {O : LazyOp σ W} {M : Machine T W} {name : σ → StateId → Option T} {oinv : σ → Prop}

/-- The known states are named, and all cached states are known. -/
structure KnownOk (K : CacheOps W C) (name : σ → StateId → Option T) (z : Lz C σ) : Prop where
  named : ∀ s, s < K.numKnown z.cache → (name z.op s).isSome
  start : ∀ s, K.getStart z.cache = some (some s) → s < K.numKnown z.cache
  trs : ∀ s l, K.getTrs z.cache s = some l → ∀ tr ∈ l, tr.nextstate < K.numKnown z.cache

/-- Names without gaps. -/
def Dense (name : σ → StateId → Option T) (oinv : σ → Prop) : Prop :=
  ∀ o, oinv o → ∀ s s', s' ≤ s → (name o s).isSome → (name o s').isSome

theorem lt_foldl (l : List (Tr W)) (k s : Nat) :
    s < l.foldl (fun k t => max k (t.nextstate + 1)) k ↔ (s < k ∨ ∃ t ∈ l, s ≤ t.nextstate) := by
  induction l generalizing k with
  | nil => simp
  | cons t ts ih =>
    rw [List.foldl_cons, ih]
    simp only [List.mem_cons, exists_eq_or_imp]
    constructor
    · rintro (h | h)
      · by_cases hk : s < k
        · exact .inl hk
        · exact .inr (.inl (by omega))
      · exact .inr (.inr h)
    · rintro (h | h | h)
      · exact .inl (by omega)
      · exact .inl (by omega)
      · exact .inr h

theorem isSome_le {z z' : Lz C σ} (h : Le name z z') {s} (hs : (name z.op s).isSome) : (name z'.op s).isSome := by
  obtain ⟨t, ht⟩ := Option.isSome_iff_exists.1 hs
  rw [h _ _ ht]; rfl

theorem knownOk_fresh (L : CacheLaw K cinv) (o : σ) : KnownOk K name (⟨K.empty, o⟩ : Lz C σ) where
  named s h := by rw [L.known_empty] at h; omega
  start s h := by rw [L.start_empty] at h; exact absurd h (by simp)
  trs s l h := by rw [L.trs_empty] at h; exact absurd h (by simp)

theorem known_start_ok (L : CacheLaw K cinv) (OL : OpLaw O M name oinv) (hd : Dense name oinv) {z : Lz C σ}
    (hz : Coh K cinv M name oinv z) (hk : KnownOk K name z) :
    KnownOk K name (z.start K O).2 ∧ K.numKnown z.cache ≤ K.numKnown (z.start K O).2.cache ∧
    ∀ s, (z.start K O).1 = .ok (some s) → s < K.numKnown (z.start K O).2.cache := by
  obtain ⟨c1, c2, r, c3, c4⟩ := start_coh L OL hz
  unfold Lz.start at c1 c2 c3 c4 ⊢
  cases hc : K.getStart z.cache with
  | some r =>
    refine ⟨hk, Nat.le_refl _, fun s hs => ?_⟩
    simp only [Except.ok.injEq] at hs
    exact hk.start s (by rw [hc, hs])
  | none =>
    rw [hc] at c1 c2 c3 c4
    rcases hcs : O.computeStart z.op with ⟨a, o⟩
    rw [hcs] at c1 c2 c3 c4
    cases a with
    | error e => exact absurd c3 (by simp)
    | ok r' =>
      simp only at c1 c2 c3 c4 ⊢
      injection c3 with c3; subst c3
      have hr : ∀ s, r' = some s → (name o s).isSome := by
        intro s hs; subst hs
        generalize M.start = ms at c4
        cases c4 with
        | some e => rw [e]; rfl
      have hkn := L.known_start z.cache r' hz.cache
      refine ⟨⟨?_, ?_, ?_⟩, by rw [hkn]; omega, ?_⟩
      · intro s hs
        simp only at hs
        rw [hkn] at hs
        by_cases hl : s < K.numKnown z.cache
        · exact isSome_le c2 (hk.named s hl)
        · cases r' with
          | none => simp only [Option.elim_none] at hs; omega
          | some q =>
            simp only [Option.elim_some] at hs
            exact hd _ c1.op q s (by omega) (hr q rfl)
      · intro s hs
        simp only at hs
        rw [L.start_start _ _ hz.cache] at hs
        injection hs with hs; subst hs
        simp only [hkn, Option.elim_some]; omega
      · intro s l hs tr htr
        simp only at hs
        rw [L.trs_start _ _ _ hz.cache] at hs
        have := hk.trs s l hs tr htr
        simp only [hkn]; omega
      · intro s hs
        injection hs with hs; subst hs
        simp only [hkn, Option.elim_some]; omega

theorem known_trs_ok (L : CacheLaw K cinv) (OL : OpLaw O M name oinv) (hd : Dense name oinv) {z : Lz C σ}
    (hz : Coh K cinv M name oinv z) (hk : KnownOk K name z) {s : StateId} (hs : (name z.op s).isSome) :
    KnownOk K name (z.getTrs K O s).2 ∧ K.numKnown z.cache ≤ K.numKnown (z.getTrs K O s).2.cache ∧
    ∀ l, (z.getTrs K O s).1 = .ok l → ∀ tr ∈ l, tr.nextstate < K.numKnown (z.getTrs K O s).2.cache := by
  obtain ⟨t, ht⟩ := Option.isSome_iff_exists.1 hs
  obtain ⟨c1, c2, l, c3, c4⟩ := trs_coh L OL hz ht
  unfold Lz.getTrs at c1 c2 c3 c4 ⊢
  cases hc : K.getTrs z.cache s with
  | some l =>
    refine ⟨hk, Nat.le_refl _, fun l' hl => ?_⟩
    simp only [Except.ok.injEq] at hl
    subst hl
    exact hk.trs s l hc
  | none =>
    rw [hc] at c1 c2 c3 c4
    rcases hcs : O.computeTrs s z.op with ⟨a, o⟩
    rw [hcs] at c1 c2 c3 c4
    cases a with
    | error e => exact absurd c3 (by simp)
    | ok l' =>
      simp only at c1 c2 c3 c4 ⊢
      injection c3 with c3; subst c3
      have hkn := L.known_trs z.cache s l' hz.cache
      have hall : ∀ tr ∈ l', tr.nextstate < K.numKnown (K.insertTrs z.cache s l') := by
        intro tr htr
        rw [hkn]; exact (lt_foldl _ _ _).2 (.inr ⟨tr, htr, Nat.le_refl _⟩)
      have hmono : ∀ q, q < K.numKnown z.cache → q < K.numKnown (K.insertTrs z.cache s l') := by
        intro q hq
        rw [hkn]; exact (lt_foldl _ _ _).2 (.inl hq)
      refine ⟨⟨?_, ?_, ?_⟩, ?_, ?_⟩
      · intro q hq
        simp only at hq
        rw [hkn] at hq
        rcases (lt_foldl _ _ _).1 hq with hq | ⟨tr, htr, hq⟩
        · exact isSome_le c2 (hk.named q hq)
        · obtain ⟨a, _, ha⟩ := names_next c4 tr htr
          exact hd _ c1.op tr.nextstate q hq (by rw [ha.2.2.2]; rfl)
      · intro q hq
        simp only at hq
        rw [L.start_trs _ _ _ hz.cache] at hq
        exact hmono q (hk.start q hq)
      · intro q l hq tr htr
        simp only at hq
        rw [L.trs_trs _ _ _ _ hz.cache] at hq
        split at hq
        · injection hq with hq; subst hq; exact hall tr htr
        · exact hmono _ (hk.trs q l hq tr htr)
      · exact Nat.le_of_not_lt fun h => absurd (hmono _ h) (Nat.lt_irrefl _)
      · intro l hl
        injection hl with hl; subst hl; exact hall

theorem known_fin_ok (L : CacheLaw K cinv) (OL : OpLaw O M name oinv) (hd : Dense name oinv) {z : Lz C σ}
    (hz : Coh K cinv M name oinv z) (hk : KnownOk K name z) {s : StateId} (hs : (name z.op s).isSome) :
    KnownOk K name (z.finalWeight K O s).2 := by
  obtain ⟨t, ht⟩ := Option.isSome_iff_exists.1 hs
  obtain ⟨c1, c2, c3⟩ := fin_coh L OL hz ht
  unfold Lz.finalWeight at c1 c2 c3 ⊢
  cases hc : K.getFinal z.cache s with
  | some w => exact hk
  | none =>
    rw [hc] at c1 c2 c3
    rcases hcs : O.computeFinal s z.op with ⟨a, o⟩
    rw [hcs] at c1 c2 c3
    cases a with
    | error e => exact absurd c3 (by simp)
    | ok w =>
      simp only at c1 c2 c3 ⊢
      have hkn := L.known_fin z.cache s w hz.cache
      refine ⟨?_, ?_, ?_⟩
      · intro q hq
        simp only at hq
        rw [hkn] at hq
        by_cases hl : q < K.numKnown z.cache
        · exact isSome_le c2 (hk.named q hl)
        · exact hd _ c1.op s q (by omega) (isSome_le c2 hs)
      · intro q hq
        simp only at hq
        rw [L.start_fin _ _ _ hz.cache] at hq
        have := hk.start q hq
        simp only [hkn]; omega
      · intro q l hq tr htr
        simp only at hq
        rw [L.trs_fin _ _ _ _ hz.cache] at hq
        have := hk.trs q l hq tr htr
        simp only [hkn]; omega

theorem known_run (L : CacheLaw K cinv) (OL : OpLaw O M name oinv) (hd : Dense name oinv) (h : List Query) :
    ∀ (z : Lz C σ) (known : StateId → Prop), Coh K cinv M name oinv z → KnownOk K name z → (∀ s, known s → (name z.op s).isSome) →
    Fair K O known z h → KnownOk K name (z.run K O h).2 := by
  induction h with
  | nil => intro z known _ hk _ _; exact hk
  | cons q qs ih =>
    intro z known hz hkn hk hf
    obtain ⟨hf1, hf2⟩ := hf
    obtain ⟨h1, h2, _, h4⟩ := ask_coh L OL hz (about_mono hk hf1)
    have hk' : ∀ s, (known s ∨ (z.ask K O q).1.told s) → (name (z.ask K O q).2.op s).isSome := by
      rintro s (hs | hs)
      · exact isSome_le h2 (hk s hs)
      · exact h4 s hs
    refine ih _ _ h1 ?_ hk' hf2
    cases q with
    | start => exact (known_start_ok L OL hd hz hkn).1
    | fin s => exact known_fin_ok L OL hd hz hkn (hk s hf1)
    | trs s => exact (known_trs_ok L OL hd hz hkn (hk s hf1)).1
    | numTrs s => exact hkn
    | numIEps s => exact hkn
    | numOEps s => exact hkn
    | clear => exact knownOk_fresh L _

/-- All successors of the states below `s` are known. -/
def Expanded (K : CacheOps W C) (M : Machine T W) (name : σ → StateId → Option T) (z : Lz C σ) (s : StateId) : Prop :=
  ∀ q, q < s → ∀ t, name z.op q = some t → ∀ a ∈ M.trs t, ∃ p, p < K.numKnown z.cache ∧ name z.op p = some a.next

theorem names_prev {n : StateId → Option T} {l : List (Tr W)} {m : List (MTr T W)} (hl : List.Forall₂ (Names n) l m) :
    ∀ a ∈ m, ∃ tr ∈ l, Names n tr a := by
  induction hl with
  | nil => simp
  | cons hd _ ih =>
    intro a ha
    rcases List.mem_cons.1 ha with rfl | ha
    · exact ⟨_, by simp, hd⟩
    · obtain ⟨tr, htr, h⟩ := ih a ha
      exact ⟨tr, by simp [htr], h⟩

/-- Names are at most as many as reachable tuples. -/
theorem names_bound (OL : OpLaw O M name oinv) {o : σ} (ho : oinv o) {R : List T} (hR : ∀ t, M.Reach t → t ∈ R) {k : Nat}
    (hk : ∀ s, s < k → (name o s).isSome) : k ≤ R.length := by
  have hnd : ((List.range k).map (fun s => name o s)).Nodup := by
    rw [List.nodup_map_iff_inj_on List.nodup_range]
    intro a ha b hb hab
    obtain ⟨t, ht⟩ := Option.isSome_iff_exists.1 (hk a (List.mem_range.1 ha))
    exact OL.one _ ho a b t ht (hab ▸ ht)
  have hl := List.Subperm.length_le (hnd.subperm (l₂ := R.map some) (by
    intro x hx
    obtain ⟨s, hs, rfl⟩ := List.mem_map.1 hx
    obtain ⟨t, ht⟩ := Option.isSome_iff_exists.1 (hk s (List.mem_range.1 hs))
    exact List.mem_map.2 ⟨t, hR t (OL.reach _ ho s t ht), ht.symm⟩))
  simpa using hl

theorem statesFrom_spec (L : CacheLaw K cinv) (OL : OpLaw O M name oinv) (hd : Dense name oinv) (R : List T)
    (hR : ∀ t, M.Reach t → t ∈ R) : ∀ (n s : Nat) (z : Lz C σ), Coh K cinv M name oinv z → KnownOk K name z → Expanded K M name z s →
      s ≤ K.numKnown z.cache → R.length < n + s →
      ∃ z' N, statesFrom K O n s z = some (.ok (List.range' s (N - s)), z') ∧ Coh K cinv M name oinv z' ∧ Le name z z' ∧
        N = K.numKnown z'.cache ∧ s ≤ N ∧ K.numKnown z.cache ≤ N ∧ KnownOk K name z' ∧ Expanded K M name z' N := by
  intro n
  induction n with
  | zero =>
    intro s z hz hk _ hle hn
    have := names_bound OL hz.op hR hk.named
    omega
  | succ n ih =>
    intro s z hz hk he hle hn
    by_cases hs : s < K.numKnown z.cache
    · obtain ⟨t, ht⟩ := Option.isSome_iff_exists.1 (hk.named s hs)
      obtain ⟨c1, c2, l, c3, c4⟩ := trs_coh L OL hz ht
      obtain ⟨k1, k2, k3⟩ := known_trs_ok L OL hd hz hk (hk.named s hs)
      have k4 := k3 l c3
      rcases hg : z.getTrs K O s with ⟨a, z1⟩
      rw [hg] at c1 c2 c3 c4 k1 k2 k4
      simp only at c1 c2 c3 c4 k1 k2 k4
      subst c3
      have he1 : Expanded K M name z1 (s + 1) := by
        intro q hq u hu b hb
        by_cases hqs : q = s
        · subst hqs
          rw [c2 _ _ ht] at hu; injection hu with hu; subst hu
          obtain ⟨tr, htr, hnm⟩ := names_prev c4 b hb
          exact ⟨tr.nextstate, k4 tr htr, hnm.2.2.2⟩
        · obtain ⟨u', hu'⟩ := Option.isSome_iff_exists.1 (hk.named q (by omega))
          rw [c2 _ _ hu'] at hu; injection hu with hu; subst hu
          obtain ⟨p, hp, hpn⟩ := he q (by omega) u' hu' b hb
          exact ⟨p, by omega, c2 _ _ hpn⟩
      obtain ⟨z', N, e, d1, d2, d3, d4, d5, d6, d7⟩ := ih (s + 1) z1 c1 k1 he1 (by omega) (by omega)
      refine ⟨z', N, ?_, d1, c2.trans d2, d3, by omega, by omega, d6, d7⟩
      simp only [statesFrom, if_pos hs, hg, e]
      rw [show N - s = (N - (s + 1)) + 1 by omega, List.range'_succ]
    · have hsN : s = K.numKnown z.cache := by omega
      refine ⟨z, K.numKnown z.cache, ?_, hz, Le.refl z, rfl, hle, Nat.le_refl _, hk, hsN ▸ he⟩
      simp only [statesFrom, if_neg hs]
      rw [show K.numKnown z.cache - s = 0 by omega]
      rfl

theorem statesFrom_more : ∀ (n s : Nat) (z : Lz C σ) x, statesFrom K O n s z = some x → statesFrom K O (n + 1) s z = some x := by
  intro n
  induction n with
  | zero => intro s z x h; simp [statesFrom] at h
  | succ n ih =>
    intro s z x h
    rw [statesFrom] at h ⊢
    by_cases hs : s < K.numKnown z.cache
    · rw [if_pos hs] at h ⊢
      rcases hg : z.getTrs K O s with ⟨a, z1⟩
      rw [hg] at h
      cases a with
      | error e => exact h
      | ok l =>
        simp only at h ⊢
        cases hr : statesFrom K O n (s + 1) z1 with
        | none => rw [hr] at h; simp at h
        | some y => rw [hr] at h; rw [ih _ _ _ hr]; exact h
    · rw [if_neg hs] at h ⊢; exact h

end Lz
end Verif
