import Verif.Lemmas.PresentsFlags
import Verif.Props.C42
import Mathlib.Order.WellFounded
import Mathlib.Data.Fintype.Card
import Mathlib.Order.Preorder.Finite

/-! # C51 for `determinize` -/

namespace Verif
universe u v
variable {W : Type u} {S : Type v}
open Lz

/-- In a finite set where every element has a successor some element comes after itself. -/
theorem exists_self_of_succ {α : Type*} {A : Set α} (hA : A.Finite) {r : α → α → Prop} (h0 : ∃ a, a ∈ A)
    (h : ∀ a ∈ A, ∃ b ∈ A, Relation.TransGen r a b) : ∃ a ∈ A, Relation.TransGen r a a := by
  by_contra hc
  haveI : Finite A := hA.to_subtype
  let R : A → A → Prop := fun a b => Relation.TransGen r b.1 a.1
  haveI : IsTrans A R := ⟨fun a b c h1 h2 => h2.trans h1⟩
  haveI : Std.Irrefl R := ⟨fun a ha => hc ⟨a.1, a.2, ha⟩⟩
  have hw : WellFounded R := Finite.wellFounded_of_trans_of_irrefl R
  obtain ⟨a0, ha0⟩ := h0
  obtain ⟨a, _, ha⟩ := hw.has_min Set.univ ⟨⟨a0, ha0⟩, trivial⟩
  obtain ⟨b, hb, hr⟩ := h a.1 a.2
  exact ha ⟨b, hb⟩ trivial hr

theorem determinize_bits {p : Props} {d : Bool} (ha : p .acceptor = true) (b : PropBit) (h : Props.determinize p false d b = true) :
    b = .accessible ∨ b = .iDeterministic ∨
    (b ∈ [PropBit.acceptor, .acyclic, .initialAcyclic, .coaccessible, .isString, .noEpsilons, .noIEpsilons, .noOEpsilons] ∧ p b = true) ∨
    (b ∈ [PropBit.iEpsilons, .oEpsilons, .cyclic] ∧ p b = true ∧ p .accessible = true) := by
  unfold Props.determinize at h
  simp only [Props.setIf_apply, Props.orIf_apply, Props.or_apply, Props.of_apply, Props.keep, Props.and_apply, Props.has, ha] at h
  cases b <;> simp_all

section
variable [Zero W] [One W] [Mul W] [DecidableEq W] [Semiring S] {f : Fst W} {o : DetOps W} {val : W → S} {good : W → Prop}
  {ord : DTup W → Label → List (DElt W) → List (DElt W)}

/-- What `determinize` returns presents the machine of subsets. -/
theorem det_out (L : DetLaw o val good) (T : DetTotal o good) (hl : o.leftSemiring = true) (ho : Orders ord) (hi : DetInput f good)
    {distinct : Bool} {n : Nat} {F : Fst W} (h : determinize f o ord distinct n = some (.ok F)) :
    {t | (detMachine f o ord).Reach t}.Finite ∧ F.props = Props.determinize f.props false distinct ∧
      ∃ nm, (detMachine f o ord).Presents nm F ∧ (detMachine f o ord).InSearchOrder nm := by
  have hok := fun t => det_no_error (t := t) L T ho hi
  have hfin := det_ends_finite hl hi.flag hok distinct (by rw [h]; simp)
  obtain ⟨F', ⟨N, hN⟩, _, _, h4, h5⟩ := det_static hl hi.flag hok hfin distinct
  have hmono : ∀ m, determinize f o ord distinct m = some (.ok F) → determinize f o ord distinct (m + 1) = some (.ok F) := by
    intro m hm
    unfold determinize determinizeFsa at hm ⊢
    rw [if_neg (by simp [hl]), if_neg (by simp [Props.has, hi.flag])] at hm ⊢
    cases hc : Lz.compute mapCache ((detOp f o ord).withTable BiMap.findId BiMap.findTuple) m ⟨mapCache.empty, BiMap.new⟩ with
    | none => rw [hc] at hm; cases hm
    | some x =>
      rw [compute_more _ _ hc]
      rw [hc] at hm
      exact hm
  have : ∀ k, determinize f o ord distinct (n + k) = some (.ok F) := by
    intro k
    induction k with
    | zero => exact h
    | succ k ih => exact hmono _ ih
  have h1 := hN (n + N) (by omega)
  rw [this N] at h1
  injection h1 with h1
  injection h1 with h1
  subst h1
  exact ⟨hfin, h4, h5⟩

theorem det_reach_trs (L : DetLaw o val good) (T : DetTotal o good) (ho : Orders ord) (hi : DetInput f good) {t : DTup W} (h : (detMachine f o ord).Reach t) :
    DetTrsOk f good t ((detMachine f o ord).trs t) := by
  obtain ⟨as, ha⟩ := (det_no_error L T ho hi h).1
  have : (detMachine f o ord).trs t = as := by simp only [TupleOp.machine, detOp, ha]
  rw [this]
  exact (detTrs_spec L ho hi.wf hi.weights ha (det_reach_good L ho hi.wf hi.weights h)).1

theorem det_start {t : DTup W} (h : (detMachine f o ord).start = some t) : ∃ s, f.start = some s ∧ t = ⟨[⟨s, 1⟩], s⟩ := by
  simp only [TupleOp.machine, detOp, Option.map_eq_some_iff] at h
  obtain ⟨s, hs, rfl⟩ := h
  exact ⟨s, hs, rfl⟩

/-- Each element of a later subset comes from one of an earlier subset. -/
theorem det_back (L : DetLaw o val good) (T : DetTotal o good) (ho : Orders ord) (hi : DetInput f good) {t u : DTup W} (ht : (detMachine f o ord).Reach t)
    (h : Relation.TransGen (detMachine f o ord).Next t u) :
    u.subset ≠ [] ∧ ∀ s ∈ u.subset.map (·.state), ∃ q ∈ t.subset.map (·.state), Relation.TransGen f.Edge q s := by
  have step : ∀ {t u}, (detMachine f o ord).Reach t → (detMachine f o ord).Next t u → u.subset ≠ [] ∧
      ∀ s ∈ u.subset.map (·.state), ∃ q ∈ t.subset.map (·.state), f.Edge q s := by
    rintro t u ht ⟨a, ha, rfl⟩
    have D := det_reach_trs L T ho hi ht
    refine ⟨D.nonempty a ha, fun s hs => ?_⟩
    obtain ⟨e, he, tr, htr, _, rfl⟩ := (D.next a ha s).1 hs
    exact ⟨e.state, List.mem_map_of_mem he, tr, htr, rfl⟩
  induction h with
  | single h =>
    obtain ⟨h1, h2⟩ := step ht h
    exact ⟨h1, fun s hs => by obtain ⟨q, hq, he⟩ := h2 s hs; exact ⟨q, hq, .single he⟩⟩
  | tail h' h ih =>
    obtain ⟨h1, h2⟩ := step (ht.next h'.to_reflTransGen) h
    refine ⟨h1, fun s hs => ?_⟩
    obtain ⟨q, hq, he⟩ := h2 s hs
    obtain ⟨q', hq', he'⟩ := ih.2 q hq
    exact ⟨q', hq', he'.tail he⟩

/-- An element of a subset can be followed along the transitions of the input. -/
theorem det_follow (L : DetLaw o val good) (T : DetTotal o good) (ho : Orders ord) (hi : DetInput f good) {t : DTup W} (ht : (detMachine f o ord).Reach t)
    {s q : StateId} (hs : s ∈ t.subset.map (·.state)) (h : Relation.TransGen f.Edge s q) :
    ∃ u, Relation.TransGen (detMachine f o ord).Next t u ∧ q ∈ u.subset.map (·.state) := by
  have step : ∀ {t}, (detMachine f o ord).Reach t → ∀ {s q}, s ∈ t.subset.map (·.state) → f.Edge s q →
      ∃ u, (detMachine f o ord).Next t u ∧ q ∈ u.subset.map (·.state) := by
    rintro t ht s q hs ⟨tr, htr, rfl⟩
    have D := det_reach_trs L T ho hi ht
    obtain ⟨e, he, rfl⟩ := List.mem_map.1 hs
    obtain ⟨a, ha, hl⟩ := D.all e he tr htr
    exact ⟨a.next, ⟨a, ha, rfl⟩, (D.next a ha _).2 ⟨e, he, tr, htr, hl.symm, rfl⟩⟩
  induction h with
  | single h =>
    obtain ⟨u, h1, h2⟩ := step ht hs h
    exact ⟨u, .single h1, h2⟩
  | tail _ h ih =>
    obtain ⟨u, h1, h2⟩ := ih
    obtain ⟨u', h3, h4⟩ := step (ht.next h1.to_reflTransGen) h2 h
    exact ⟨u', h1.tail h3, h4⟩

theorem det_follow' (L : DetLaw o val good) (T : DetTotal o good) (ho : Orders ord) (hi : DetInput f good) {t : DTup W} (ht : (detMachine f o ord).Reach t)
    {s q : StateId} (hs : s ∈ t.subset.map (·.state)) (h : f.Reach s q) :
    ∃ u, Relation.ReflTransGen (detMachine f o ord).Next t u ∧ q ∈ u.subset.map (·.state) := by
  rcases Relation.reflTransGen_iff_eq_or_transGen.1 h with rfl | h
  · exact ⟨t, .refl, hs⟩
  · obtain ⟨u, h1, h2⟩ := det_follow L T ho hi ht hs h
    exact ⟨u, h1.to_reflTransGen, h2⟩

/-- An accessible state occurs in some subset. -/
theorem det_accessible (L : DetLaw o val good) (T : DetTotal o good) (ho : Orders ord) (hi : DetInput f good) {s : StateId} (h : f.Accessible s) :
    ∃ t, (detMachine f o ord).Reach t ∧ s ∈ t.subset.map (·.state) := by
  obtain ⟨i, h1, h2⟩ := h
  have h0 : (detMachine f o ord).Reach ⟨[⟨i, 1⟩], i⟩ := .start (by simp [TupleOp.machine, detOp, h1])
  obtain ⟨u, h3, h4⟩ := det_follow' L T ho hi h0 (s := i) (by simp) h2
  exact ⟨u, h0.next h3, h4⟩

theorem detFinSum_ne (hp : ∀ a b c, o.plus a b = .ok c → c = 0 → a = 0 ∧ b = 0) : ∀ {es : List (DElt W)} {acc w : W}, detFinSum f o acc es = .ok w →
    w = 0 → acc = 0 ∧ ∀ e ∈ es, e.weight * (f.finOf e.state).getD 0 = 0
  | [], acc, w, h, h0 => by
    simp only [detFinSum, Except.ok.injEq] at h
    exact ⟨h.trans h0, by simp⟩
  | e :: es, acc, w, h, h0 => by
    simp only [detFinSum, Fst.finalWeightR] at h
    cases hs : f.states[e.state]? with
    | none => rw [hs] at h; cases h
    | some st =>
      rw [hs] at h
      simp only at h
      cases hpl : o.plus acc (e.weight * st.fin.getD 0) with
      | error x => rw [hpl] at h; cases h
      | ok c =>
        rw [hpl] at h
        obtain ⟨h1, h2⟩ := detFinSum_ne hp h h0
        obtain ⟨h3, h4⟩ := hp _ _ _ hpl h1
        refine ⟨h3, ?_⟩
        intro e' he'
        rcases List.mem_cons.1 he' with rfl | he'
        · unfold Fst.finOf; rw [hs]; exact h4
        · exact h2 e' he'

theorem det_fin_some (L : DetLaw o val good) (T : DetTotal o good) (ho : Orders ord) (hi : DetInput f good) (h0 : ∀ s, f.finOf s ≠ some 0)
    (hpl : ∀ a b c, o.plus a b = .ok c → c = 0 → a = 0 ∧ b = 0) (hmul : ∀ a b, good a → a * b = 0 → b = 0) {u : DTup W}
    (hu : (detMachine f o ord).Reach u) {s : StateId} (h5 : s ∈ u.subset.map (·.state)) (h3 : f.IsFinal s) : ((detMachine f o ord).fin u).isSome := by
  obtain ⟨w, hw⟩ := (det_no_error L T ho hi hu).2
  have hfu : (detMachine f o ord).fin u = w := by simp only [TupleOp.machine, detOp, hw]
  rw [hfu]
  unfold detFin at hw
  cases hs : detFinSum f o 0 u.subset with
  | error x => rw [hs] at hw; cases hw
  | ok w' =>
    rw [hs] at hw
    simp only at hw
    by_cases hz : w' = 0
    · obtain ⟨_, h6⟩ := detFinSum_ne hpl hs hz
      obtain ⟨e', he', rfl⟩ := List.mem_map.1 h5
      have h7 := hmul _ _ (det_reach_good L ho hi.wf hi.weights hu e' he').2 (h6 e' he')
      cases hfin' : f.finOf e'.state with
      | none => unfold Fst.IsFinal at h3; rw [hfin'] at h3; cases h3
      | some x =>
        rw [hfin'] at h7
        exact absurd (hfin'.trans (congrArg some h7)) (h0 _)
    · rw [if_neg hz] at hw
      injection hw with hw
      rw [← hw]; rfl

theorem det_fin_none (L : DetLaw o val good) (T : DetTotal o good) (ho : Orders ord) (hi : DetInput f good) (hval : ∀ w, val w = 0 → w = 0) {u : DTup W}
    (hu : (detMachine f o ord).Reach u) (h : ∀ s ∈ u.subset.map (·.state), ¬ f.IsFinal s) : (detMachine f o ord).fin u = none := by
  obtain ⟨w, hw⟩ := (det_no_error L T ho hi hu).2
  have hfu : (detMachine f o ord).fin u = w := by simp only [TupleOp.machine, detOp, hw]
  rw [hfu]
  unfold detFin at hw
  cases hs : detFinSum f o 0 u.subset with
  | error x => rw [hs] at hw; cases hw
  | ok w' =>
    rw [hs] at hw
    simp only at hw
    have h1 := detFinSum_spec L (fun e he => (det_reach_good L ho hi.wf hi.weights hu e he).1) hs
    have h2 : (u.subset.map fun e => val e.weight * val ((f.finOf e.state).getD 0)).sum = 0 := by
      apply List.sum_eq_zero
      intro x hx
      obtain ⟨e, he, rfl⟩ := List.mem_map.1 hx
      have := h e.state (List.mem_map_of_mem he)
      unfold Fst.IsFinal at this
      have : f.finOf e.state = none := by simpa using this
      rw [this]
      simp [L.zero]
    rw [h2, L.zero, add_zero] at h1
    rw [if_pos (hval _ h1)] at hw
    injection hw with hw
    exact hw.symm

/-- The determinization of a linear FST is linear. -/
theorem det_string (L : DetLaw o val good) (T : DetTotal o good) (ho : Orders ord) (hi : DetInput f good) (h0 : ∀ s, f.finOf s ≠ some 0)
    (hpl : ∀ a b c, o.plus a b = .ok c → c = 0 → a = 0 ∧ b = 0) (hmul : ∀ a b, good a → a * b = 0 → b = 0) (hval : ∀ w, val w = 0 → w = 0)
    (hs : f.Holds .isString) {nm : StateId → Option (DTup W)} {F : Fst W} (H : (detMachine f o ord).Presents nm F)
    (HO : (detMachine f o ord).InSearchOrder nm) : F.Holds .isString := by
  intro hF
  have D := fun t (h : (detMachine f o ord).Reach t) => det_reach_trs L T ho hi h
  obtain ⟨t0, ht0⟩ := (H.states 0).1 hF
  obtain ⟨i, hst⟩ : ∃ i, f.start = some i := by
    rcases HO 0 t0 ht0 with ⟨_, h⟩ | ⟨s, _, h, _⟩
    · obtain ⟨i, h1, _⟩ := det_start h
      exact ⟨i, h1⟩
    · omega
  have hN : f.numStates > 0 := Nat.lt_of_le_of_lt (Nat.zero_le _) (hi.wf.start_lt i hst)
  obtain ⟨hst', hlin⟩ := hs hN
  -- transitions of a linear FST
  have htrs : ∀ s tr, tr ∈ f.trsOf s → f.trsOf s = [tr] ∧ tr.nextstate = s + 1 := by
    intro s tr htr
    have hlt : s < f.numStates := by
      by_contra hc
      unfold Fst.trsOf at htr
      rw [List.getElem?_eq_none (by simpa [Fst.numStates] using hc)] at htr
      cases htr
    have := hlin s hlt
    by_cases h : s + 1 = f.numStates
    · rw [if_pos h] at this; rw [this.2] at htr; cases htr
    · rw [if_neg h] at this
      obtain ⟨_, tr', h1, h2⟩ := this
      rw [h1, List.mem_singleton] at htr
      subst htr
      exact ⟨h1, h2⟩
  -- every subset has one element
  have hsub : ∀ t, (detMachine f o ord).Reach t → ∃ k, t.subset.map (·.state) = [k] := by
    intro t ht
    induction ht with
    | start h =>
      obtain ⟨j, h1, rfl⟩ := det_start h
      exact ⟨j, rfl⟩
    | @step t a ht ha ih =>
      obtain ⟨k, hk⟩ := ih
      have hnd := (D t ht).nodup a ha
      have hne := (D t ht).nonempty a ha
      have hmem : ∀ s ∈ a.next.subset.map (·.state), s = k + 1 := by
        intro s hs'
        obtain ⟨e, he, tr, htr, _, rfl⟩ := ((D t ht).next a ha s).1 hs'
        have : e.state ∈ t.subset.map (·.state) := List.mem_map_of_mem he
        rw [hk, List.mem_singleton] at this
        rw [(htrs _ tr htr).2, this]
      refine ⟨k + 1, ?_⟩
      match hl : a.next.subset.map (·.state) with
      | [] => exact absurd (List.map_eq_nil_iff.1 hl) hne
      | [x] => have h1 := hmem x (by rw [hl]; simp); subst h1; exact hl
      | x :: y :: l =>
        have h1 := hmem x (by rw [hl]; simp)
        have h2 := hmem y (by rw [hl]; simp)
        rw [hl, h1, h2] at hnd
        simp at hnd
  have hnext : ∀ t, (detMachine f o ord).Reach t → ∀ {k}, t.subset.map (·.state) = [k] → ∀ a ∈ (detMachine f o ord).trs t,
      (∃ tr, f.trsOf k = [tr] ∧ tr.ilabel = a.ilabel) ∧ a.next.subset.map (·.state) = [k + 1] := by
    intro t ht k hk a ha
    obtain ⟨k', hk'⟩ := hsub _ (.step ht ha)
    obtain ⟨e, he, tr, htr, h1, h2⟩ := ((D t ht).next a ha k').1 (by rw [hk']; simp)
    have : e.state ∈ t.subset.map (·.state) := List.mem_map_of_mem he
    rw [hk, List.mem_singleton] at this
    rw [this] at htr
    obtain ⟨h3, h4⟩ := htrs _ tr htr
    exact ⟨⟨tr, h3, h1⟩, by rw [hk', ← h2, h4]⟩
  have hone : ∀ t, (detMachine f o ord).Reach t → ((detMachine f o ord).trs t).length ≤ 1 := by
    intro t ht
    obtain ⟨k, hk⟩ := hsub t ht
    have hsorted := (D t ht).sorted
    match hl : (detMachine f o ord).trs t with
    | [] => simp
    | [x] => simp
    | x :: y :: l =>
      obtain ⟨⟨tr, h1, h2⟩, _⟩ := hnext t ht hk x (by rw [hl]; simp)
      obtain ⟨⟨tr', h1', h2'⟩, _⟩ := hnext t ht hk y (by rw [hl]; simp)
      rw [h1] at h1'
      injection h1' with h1'
      rw [hl] at hsorted
      simp only [List.map_cons, List.pairwise_cons, List.mem_cons, forall_eq_or_imp] at hsorted
      have := hsorted.1.1
      rw [← h2, ← h2', h1'] at this
      omega
  have hchain := H.chain HO hone
  have hk : ∀ s t, nm s = some t → t.subset.map (·.state) = [s] := by
    intro s
    induction s with
    | zero =>
      intro t ht
      rcases HO 0 t ht with ⟨_, h⟩ | ⟨s, _, h, _⟩
      · obtain ⟨j, h1, rfl⟩ := det_start h
        rw [hst'] at h1
        injection h1 with h1
        subst h1
        rfl
      · omega
    | succ s ih =>
      intro t ht
      obtain ⟨u, hu, a, ha, rfl⟩ := hchain s t ht
      exact (hnext u (H.reach hu) (ih u hu) a ha).2
  have hlast : ∀ s, s < F.numStates → s < f.numStates := by
    intro s hs'
    obtain ⟨t, ht⟩ := (H.states s).1 hs'
    have h1 := hk s t ht
    obtain ⟨e, he, h2⟩ := List.mem_map.1 (show s ∈ t.subset.map (·.state) by rw [h1]; simp)
    rw [← h2]
    exact (det_reach_good L ho hi.wf hi.weights (H.reach ht) e he).1
  refine ⟨?_, fun s hs' => ?_⟩
  · rcases HO 0 t0 ht0 with ⟨_, h⟩ | ⟨s, _, h, _⟩
    · obtain ⟨j, h1, h2⟩ := H.start_of h
      rw [h1, H.one _ _ _ h2 ht0]
    · omega
  · obtain ⟨t, ht⟩ := (H.states s).1 hs'
    have hr := H.reach ht
    have h1 := hk s t ht
    have hF2 := H.trs s t ht
    have hl := hlin s (hlast s hs')
    by_cases he : s + 1 = f.numStates
    · rw [if_pos he] at hl
      have hnil : (detMachine f o ord).trs t = [] := by
        match hl' : (detMachine f o ord).trs t with
        | [] => rfl
        | x :: l =>
          obtain ⟨⟨tr, h2, _⟩, _⟩ := hnext t hr h1 x (by rw [hl']; simp)
          rw [hl.2] at h2; cases h2
      have hnum : s + 1 = F.numStates := by
        by_contra hc
        obtain ⟨t', ht'⟩ := (H.states (s + 1)).1 (by omega)
        have := hlast (s + 1) ((H.states _).2 ⟨t', ht'⟩)
        omega
      rw [if_pos hnum]
      refine ⟨?_, ?_⟩
      · unfold Fst.IsFinal
        rw [H.fin s t ht]
        exact det_fin_some L T ho hi h0 hpl hmul hr (by rw [h1]; simp) hl.1
      · rw [hnil] at hF2
        cases h : F.trsOf s with
        | nil => rfl
        | cons a l => rw [h] at hF2; cases hF2
    · rw [if_neg he] at hl
      obtain ⟨hnf, tr, h2, h3⟩ := hl
      obtain ⟨e, hem, hes⟩ := List.mem_map.1 (show s ∈ t.subset.map (·.state) by rw [h1]; simp)
      obtain ⟨a, ha, _⟩ := (D t hr).all e hem tr (by rw [hes, h2]; simp)
      have hl1 : (detMachine f o ord).trs t = [a] := by
        have := hone t hr
        match (detMachine f o ord).trs t, this, ha with
        | [x], _, ha => rw [List.mem_singleton] at ha; rw [ha]
      rw [hl1] at hF2
      obtain ⟨tr', htr', hnames⟩ : ∃ tr', F.trsOf s = [tr'] ∧ Names nm tr' a := by
        generalize F.trsOf s = l at hF2
        cases hF2 with
        | cons hd tl => cases tl; exact ⟨_, rfl, hd⟩
      have h4 := hk _ _ hnames.2.2.2
      rw [(hnext t hr h1 a ha).2] at h4
      have h5 : tr'.nextstate = s + 1 := by simpa using h4.symm
      have hnum : ¬ s + 1 = F.numStates := by
        have := (H.states (s + 1)).2 ⟨_, h5 ▸ hnames.2.2.2⟩
        omega
      rw [if_neg hnum]
      refine ⟨?_, tr', htr', h5⟩
      unfold Fst.IsFinal
      rw [H.fin s t ht, det_fin_none L T ho hi hval hr (by
        intro x hx
        rw [h1, List.mem_singleton] at hx
        rw [hx]
        exact hnf)]
      simp

/-- C51 for `determinize`: for an acceptor with truthful flags, whenever `determinize` returns, all flags of the result are true, except possibly
`COACCESSIBLE` and `IS_STRING`. These are true as well if no final weight is zero and sums and products of good non-zero weights are not zero. -/
theorem C42_flags (L : DetLaw o val good) (T : DetTotal o good) (hl : o.leftSemiring = true) (ho : Orders ord) (hi : DetInput f good) (ht : f.Truthful)
    {distinct : Bool} {n : Nat} {F : Fst W} (h : determinize f o ord distinct n = some (.ok F)) :
    (∀ b, b ≠ .coaccessible → b ≠ .isString → F.props b = true → F.Holds b) ∧
    ((∀ s, f.finOf s ≠ some 0) → (∀ a b c, o.plus a b = .ok c → c = 0 → a = 0 ∧ b = 0) → (∀ a b, good a → a * b = 0 → b = 0) →
      (∀ w, val w = 0 → w = 0) → F.Truthful) := by
  obtain ⟨hfin, hp, nm, H, HO⟩ := det_out L T hl ho hi h
  have D := fun t (h : (detMachine f o ord).Reach t) => det_reach_trs L T ho hi h
  have hacc : F.Holds .acceptor := by
    exact H.all_trs (fun a b _ => a = b) fun t ht a ha => (D t ht).acceptor a ha
  have hlab : ∀ s, ∀ tr ∈ F.trsOf s, ∃ s', ∃ tr' ∈ f.trsOf s', tr'.ilabel = tr.ilabel := by
    refine H.all_trs (fun a _ _ => ∃ s', ∃ tr' ∈ f.trsOf s', tr'.ilabel = a) fun t ht a ha => ?_
    have hne := (D t ht).nonempty a ha
    obtain ⟨e, he⟩ := List.exists_mem_of_ne_nil _ hne
    obtain ⟨e', _, tr, htr, h1, _⟩ := ((D t ht).next a ha e.state).1 (List.mem_map_of_mem he)
    exact ⟨_, tr, htr, h1⟩
  have hsome : f.props .accessible = true → ∀ s, ∀ tr ∈ f.trsOf s, ∃ s', ∃ tr' ∈ F.trsOf s', tr'.ilabel = tr.ilabel := by
    intro hb s tr htr
    have hs : s < f.numStates := by
      by_contra hc
      unfold Fst.trsOf at htr
      rw [List.getElem?_eq_none (by simpa [Fst.numStates] using hc)] at htr
      cases htr
    obtain ⟨t, h1, h2⟩ := det_accessible L T ho hi (ht _ hb s hs)
    obtain ⟨e, he, rfl⟩ := List.mem_map.1 h2
    obtain ⟨a, ha, hl⟩ := (D t h1).all e he tr htr
    exact H.some_tr (fun l _ _ => l = tr.ilabel) h1 ha hl
  have main : ∀ b, b ≠ .coaccessible → b ≠ .isString → F.props b = true → F.Holds b := by
    intro b hb1 hb2 hb
    rw [hp] at hb
    rcases determinize_bits hi.flag b hb with rfl | rfl | ⟨h1, h2⟩ | ⟨h1, h2, h3⟩
    · exact H.accessible
    · intro s
      exact H.all_ilabels (fun l => l.Nodup) .nil (fun t ht => (D t ht).sorted.imp fun h => Nat.ne_of_lt h) s
    · have hf := ht b h2
      simp only [List.mem_cons, List.not_mem_nil, or_false] at h1
      rcases h1 with rfl | rfl | rfl | rfl | rfl | rfl | rfl | rfl
      · exact hacc
      · refine H.holds_acyclic.2 fun t h1 hc => ?_
        obtain ⟨h2, h3⟩ := det_back L T ho hi h1 hc
        obtain ⟨e, he⟩ := List.exists_mem_of_ne_nil _ h2
        obtain ⟨s, _, hs⟩ := exists_self_of_succ (A := {s | s ∈ t.subset.map (·.state)}) (r := fun a b => f.Edge b a) (List.finite_toSet _)
          ⟨e.state, List.mem_map_of_mem he⟩ (fun s hs => by
            obtain ⟨q, hq, hr⟩ := h3 s hs
            exact ⟨q, hq, Relation.transGen_swap.2 hr⟩)
        exact hf ⟨s, Relation.transGen_swap.1 hs⟩
      · refine H.holds_initialAcyclic.2 fun t h1 hc => ?_
        obtain ⟨i, h2, rfl⟩ := det_start h1
        obtain ⟨_, h3⟩ := det_back L T ho hi (.start h1) hc
        obtain ⟨q, hq, hr⟩ := h3 i (by simp)
        obtain rfl : q = i := by simpa using hq
        exact hf ⟨_, h2, hr⟩
      · exact absurd rfl hb1
      · exact absurd rfl hb2
      · rintro ⟨s, tr, htr, h1, _⟩
        obtain ⟨s', tr', htr', h3⟩ := hlab s tr htr
        exact hf ⟨s', tr', htr', h3.trans h1, (hi.acceptor s' tr' htr').symm.trans (h3.trans h1)⟩
      · rintro ⟨s, tr, htr, h1⟩
        obtain ⟨s', tr', htr', h3⟩ := hlab s tr htr
        exact hf ⟨s', tr', htr', h3.trans h1⟩
      · rintro ⟨s, tr, htr, h1⟩
        obtain ⟨s', tr', htr', h3⟩ := hlab s tr htr
        exact hf ⟨s', tr', htr', (hi.acceptor s' tr' htr').symm.trans (h3.trans ((hacc s tr htr).trans h1))⟩
    · have hf := ht b h2
      simp only [List.mem_cons, List.not_mem_nil, or_false] at h1
      rcases h1 with rfl | rfl | rfl
      · obtain ⟨s, tr, htr, h1⟩ := hf
        obtain ⟨s', tr', htr', h4⟩ := hsome h3 s tr htr
        exact ⟨s', tr', htr', h4.trans h1⟩
      · obtain ⟨s, tr, htr, h1⟩ := hf
        obtain ⟨s', tr', htr', h4⟩ := hsome h3 s tr htr
        exact ⟨s', tr', htr', (hacc s' tr' htr').symm.trans (h4.trans ((hi.acceptor s tr htr).trans h1))⟩
      · obtain ⟨s, hs⟩ := hf
        have hlt : s < f.numStates := by
          obtain ⟨_, _, tr, htr, rfl⟩ := Relation.TransGen.tail'_iff.1 hs
          exact hi.wf.next_lt _ tr htr
        obtain ⟨t, h1, h2⟩ := det_accessible L T ho hi (ht _ h3 s hlt)
        obtain ⟨u, ⟨hu, _⟩, hc⟩ := exists_self_of_succ (A := {t | (detMachine f o ord).Reach t ∧ s ∈ t.subset.map (·.state)})
          (r := (detMachine f o ord).Next) (hfin.subset fun t ht => ht.1) ⟨t, h1, h2⟩ (fun t ht => by
            obtain ⟨u, h4, h5⟩ := det_follow L T ho hi ht.1 ht.2 hs
            exact ⟨u, ⟨ht.1.next h4.to_reflTransGen, h5⟩, h4⟩)
        exact H.holds_cyclic.2 ⟨u, hu, hc⟩
  refine ⟨main, fun h0 hpl hmul hval b hb => ?_⟩
  by_cases hb1 : b = .coaccessible
  · subst hb1
    rw [hp] at hb
    have hf : f.Holds .coaccessible := by
      rcases determinize_bits hi.flag _ hb with h | h | ⟨_, h⟩ | ⟨_, h, _⟩
      · cases h
      · cases h
      · exact ht _ h
      · exact ht _ h
    refine H.holds_coaccessible fun t h1 => ?_
    have hne : t.subset ≠ [] := by
      cases h1 with
      | start h => obtain ⟨i, _, rfl⟩ := det_start h; simp
      | step h2 ha => exact (D _ h2).nonempty _ ha
    obtain ⟨e, he⟩ := List.exists_mem_of_ne_nil _ hne
    have hlt := (det_reach_good L ho hi.wf hi.weights h1 e he).1
    obtain ⟨q, h2, h3⟩ := hf e.state hlt
    obtain ⟨u, h4, h5⟩ := det_follow' L T ho hi h1 (List.mem_map_of_mem he) h2
    exact ⟨u, h4, det_fin_some L T ho hi h0 hpl hmul (h1.next h4) h5 h3⟩
  · by_cases hb2 : b = .isString
    · subst hb2
      rw [hp] at hb
      have hf : f.Holds .isString := by
        rcases determinize_bits hi.flag _ hb with h | h | ⟨_, h⟩ | ⟨_, h, _⟩
        · cases h
        · cases h
        · exact ht _ h
        · exact ht _ h
      exact det_string L T ho hi h0 hpl hmul hval hf H HO
    · exact main b hb1 hb2 hb

end

/-! ### Concrete cases -/

/-- A string of two labels, the flags that are true of it. -/
def exDetString : Fst (TW ℚ) where
  states := [⟨none, [⟨1, 1, .fin 1, 1⟩], 0, 0⟩, ⟨none, [⟨2, 2, .fin 0, 2⟩], 0, 0⟩, ⟨some (.fin 5), [], 0, 0⟩]
  start := some 0
  props := Props.of [.acceptor, .isString, .coaccessible]

theorem exDetString_trs : ∀ s, ∀ tr ∈ exDetString.trsOf s, (∃ n : ℤ, tr.weight = .fin (n : ℚ)) ∧ tr.ilabel = tr.olabel ∧ tr.nextstate < 3 := by
  intro s tr h
  match s, h with
  | 0, h => simp [exDetString, Fst.trsOf] at h; subst h; exact ⟨⟨1, by simp⟩, rfl, by decide⟩
  | 1, h => simp [exDetString, Fst.trsOf] at h; subst h; exact ⟨⟨0, by simp⟩, rfl, by decide⟩
  | 2, h => simp [exDetString, Fst.trsOf] at h
  | n + 3, h => simp [exDetString, Fst.trsOf] at h

theorem exDetString_truthful : exDetString.Truthful := by
  intro b hb
  have : b = .acceptor ∨ b = .isString ∨ b = .coaccessible := by
    cases b <;> first | (exact Or.inl rfl) | (exact Or.inr (Or.inl rfl)) | (exact Or.inr (Or.inr rfl)) | (exact absurd hb (by decide))
  have e1 : exDetString.Edge 0 1 := ⟨_, List.mem_singleton_self _, rfl⟩
  have e2 : exDetString.Edge 1 2 := ⟨_, List.mem_singleton_self _, rfl⟩
  rcases this with rfl | rfl | rfl
  · exact fun s tr h => (exDetString_trs s tr h).2.1
  · intro _
    refine ⟨rfl, fun s hs => ?_⟩
    have h3 : s < 3 := hs
    match s, h3 with
    | 0, _ => exact ⟨by simp [Fst.IsFinal, Fst.finOf, exDetString], _, rfl, rfl⟩
    | 1, _ => exact ⟨by simp [Fst.IsFinal, Fst.finOf, exDetString], _, rfl, rfl⟩
    | 2, _ => exact ⟨rfl, rfl⟩
  · intro s hs
    have h3 : s < 3 := hs
    match s, h3 with
    | 0, _ => exact ⟨2, .head e1 (.single e2), rfl⟩
    | 1, _ => exact ⟨2, .single e2, rfl⟩
    | 2, _ => exact ⟨2, .refl, rfl⟩

/-- All hypotheses of `C42_flags` are met by a string with tropical weights. -/
example : ∃ F, determinize exDetString (tropDet (quantize (1 / 1024))) (fun _ _ es => es) true 10 = some (.ok F) ∧
    F.props .isString = true ∧ F.props .coaccessible = true ∧ F.props .iDeterministic = true ∧ F.Truthful := by
  obtain ⟨F, h1, h2⟩ := out_of_ok (x := determinize exDetString (tropDet (quantize (1 / 1024))) (fun _ _ es => es) true 10)
    (fun F => (F.props .isString, F.props .coaccessible, F.props .iDeterministic)) (b := (true, true, true)) (by decide +kernel)
  simp only [Prod.mk.injEq] at h2
  refine ⟨F, h1, h2.1, h2.2.1, h2.2.2, ?_⟩
  have hd : (1 / 1024 : ℚ) ≠ 0 := by norm_num
  refine (C42_flags (tropDet_grid hd).1 (tropDet_grid hd).2 rfl (fun _ _ _ => List.Perm.refl _) ⟨⟨by simp [exDetString, Fst.numStates],
    fun s tr h => (exDetString_trs s tr h).2.2⟩, by decide, fun s tr h => (exDetString_trs s tr h).2.1, fun s tr h => ?_⟩ exDetString_truthful h1).2 ?_ ?_ ?_ ?_
  · obtain ⟨n, hn⟩ := (exDetString_trs s tr h).1
    refine ⟨n, ?_, hn⟩
    rw [AddSubgroup.mem_zmultiples_iff]
    exact ⟨n * 1024, by rw [zsmul_eq_mul]; push_cast; ring⟩
  · intro s
    match s with
    | 0 => simp [Fst.finOf, exDetString]
    | 1 => simp [Fst.finOf, exDetString]
    | 2 => show some (TW.fin (5 : ℚ)) ≠ some TW.inf; simp
    | n + 3 => simp [Fst.finOf, exDetString]
  · intro a b c h hc
    simp only [tropDet, Except.ok.injEq] at h
    rw [hc] at h
    change TW.plus a b = .inf at h
    unfold TW.plus at h
    cases a <;> cases b <;> simp [TW.lt] at h
    · split at h <;> cases h
    · exact ⟨rfl, rfl⟩
  · rintro a b ⟨x, _, rfl⟩ h
    cases b with
    | inf => rfl
    | negInf => cases h
    | fin b => cases h
  · intro w h; exact h

/-- A final state of weight ∞ is a string. -/
def exStringZero : Fst (TW ℚ) := { exFinZero with props := Props.of [.acceptor, .isString] }

/-- Defect: a final weight zero is dropped, the flag `IS_STRING` is kept. -/
theorem C42_string_defect : exStringZero.Truthful ∧ ∃ F, determinize exStringZero (tropDet (quantize (1 / 1024))) (fun _ _ es => es) true 10 = some (.ok F) ∧
    F.props .isString = true ∧ ¬ F.Holds .isString := by
  constructor
  · intro b hb
    have : b = .acceptor ∨ b = .isString := by
      cases b <;> first | (exact Or.inl rfl) | (exact Or.inr rfl) | (exact absurd hb (by decide))
    rcases this with rfl | rfl
    · intro s tr h
      match s, h with
      | 0, h => simp [exStringZero, exFinZero, Fst.trsOf] at h
      | n + 1, h => simp [exStringZero, exFinZero, Fst.trsOf] at h
    · intro _
      refine ⟨rfl, fun s hs => ?_⟩
      have : s = 0 := by simpa [exStringZero, exFinZero, Fst.numStates] using hs
      subst this
      exact ⟨rfl, rfl⟩
  · obtain ⟨F, h1, h2⟩ := out_of_ok (x := determinize exStringZero (tropDet (quantize (1 / 1024))) (fun _ _ es => es) true 10)
      (fun F => (F.states, F.props .isString)) (b := ([⟨none, [], 0, 0⟩], true)) (by decide +kernel)
    refine ⟨F, h1, by simpa using congrArg (·.2) h2, ?_⟩
    intro hc
    have hst : F.states = [⟨none, [], 0, 0⟩] := congrArg (·.1) h2
    have := (hc (by simp [Fst.numStates, hst])).2 0 (by simp [Fst.numStates, hst])
    rw [if_pos (by simp [Fst.numStates, hst])] at this
    have := this.1
    simp [Fst.IsFinal, Fst.finOf, hst] at this

end Verif
