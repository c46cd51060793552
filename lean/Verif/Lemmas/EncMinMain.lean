import Verif.Lemmas.EncodedMin
import Verif.Model.MinimizeFull

/-! # Encode, minimize, decode -/

namespace Verif
set_option linter.unusedSectionVars false
open Fst
universe u v
variable {W : Type u} {V : Type v}

section enc
variable [Zero W] [One W] [DecidableEq W] {T : EncTable W} {f e : Fst W}

theorem Encoded.coded (he : Encoded .encodeWeightsAndLabels T f e) : e.Coded T := fun s t ht => by
  obtain ⟨x, hx, -⟩ := he.tr ht
  exact ⟨x, hx⟩

theorem Encoded.finOf (he : Encoded .encodeWeightsAndLabels T f e) (s) : e.finOf s = if s = f.numStates then some 1 else none := by
  by_cases h : s = f.numStates
  · rw [if_pos h, h, (he.super rfl).2]
  · rw [if_neg h]
    by_cases hl : s < f.numStates
    · exact (he.weights rfl s hl).1
    · exact finOf_of_ge (by rw [he.num]; simp only [EncodeType.weights, if_true]; omega)

/-- The transitions of the encoded FST. -/
theorem Encoded.mem (he : Encoded .encodeWeightsAndLabels T f e) {s} {t : Tr W} (ht : t ∈ e.trsOf s) : s < f.numStates ∧
    ((∃ u ∈ f.trsOf s, EncTr .encodeWeightsAndLabels T u t) ∨
      ∃ w, f.finOf s = some w ∧ T.Code t.ilabel ⟨EPS, EPS, w⟩ ∧ t.nextstate = f.numStates) := by
  have hs : s < f.numStates := by
    by_contra hc
    by_cases h : s = f.numStates
    · rw [h, (he.super rfl).1] at ht; cases ht
    · rw [trsOf_of_ge (by rw [he.num]; simp only [EncodeType.weights, if_true]; omega)] at ht; cases ht
  refine ⟨hs, ?_⟩
  obtain ⟨-, ts, x, h1, h2, h3⟩ := he.weights rfl s hs
  rw [h1, List.mem_append] at ht
  rcases ht with ht | ht
  · exact .inl (forall₂_mem_right h2 ht)
  · cases hf : f.finOf s with
    | none => rw [hf] at h3; rw [show x = [] from h3] at ht; cases ht
    | some w =>
      rw [hf] at h3
      obtain ⟨l, hl, rfl⟩ := h3
      obtain rfl := List.mem_singleton.1 ht
      exact .inr ⟨w, rfl, hl, rfl⟩

theorem Encoded.wf (he : Encoded .encodeWeightsAndLabels T f e) (hw : f.WF) : e.WF := by
  have hn : e.numStates = f.numStates + 1 := he.num
  refine ⟨fun i hi => ?_, fun s t ht => ?_⟩
  · rw [he.start] at hi; have := hw.start_lt i hi; omega
  · rcases (he.mem ht).2 with ⟨u, hu, h⟩ | ⟨w, -, -, h⟩
    · have := hw.next_lt s u hu
      rw [h.2.2.2]; omega
    · omega

theorem Encoded.plain (he : Encoded .encodeWeightsAndLabels T f e) : e.Plain := by
  refine ⟨fun s t ht => ?_, fun s t ht => ?_, fun s w h => ?_⟩
  · obtain ⟨x, -, h, -⟩ := he.tr ht
    exact h rfl
  · obtain ⟨x, -, -, h⟩ := he.tr ht
    exact h rfl
  · rw [he.finOf] at h
    split at h
    · exact (Option.some.inj h).symm
    · cases h

/-- The encoded FST is deterministic. -/
theorem Encoded.deterministic (he : Encoded .encodeWeightsAndLabels T f e) (hu : f.UniqueTrs) : e.Deterministic := by
  intro s
  by_cases hs : s < f.numStates
  · obtain ⟨-, ts, x, h1, h2, h3⟩ := he.weights rfl s hs
    have hts : (ts.map (·.ilabel)).Nodup := by
      have h4 := (hu s).1
      clear h1 h3
      generalize f.trsOf s = us at h2 h4
      induction h2 with
      | nil => exact List.nodup_nil
      | @cons a b us ts hab hrest ih =>
        rw [List.map_cons, List.nodup_cons] at h4 ⊢
        refine ⟨fun hm => h4.1 ?_, ih h4.2⟩
        obtain ⟨t, ht, e1⟩ := List.mem_map.1 hm
        obtain ⟨u, hum, hut⟩ := forall₂_mem_right hrest ht
        have e2 := (EncTable.Code.inj he.ok hut.1 hab.1).1 e1
        refine List.mem_map.2 ⟨u, hum, ?_⟩
        simp only [toTuple, EncodeType.labels, EncodeType.weights, if_true, FinalTr.mk.injEq] at e2
        rw [e2.1, e2.2.1, e2.2.2]
    rw [h1, List.map_append, List.nodup_append]
    refine ⟨hts, ?_, ?_⟩
    · cases hf : f.finOf s with
      | none => rw [hf] at h3; rw [show x = [] from h3]; exact List.nodup_nil
      | some w =>
        rw [hf] at h3
        obtain ⟨l, -, rfl⟩ := h3
        exact List.nodup_singleton _
    · intro a ha b hb hab
      subst hab
      obtain ⟨t, ht, rfl⟩ := List.mem_map.1 ha
      obtain ⟨u, hum, hut⟩ := forall₂_mem_right h2 ht
      cases hf : f.finOf s with
      | none => rw [hf] at h3; rw [show x = [] from h3] at hb; cases hb
      | some w =>
        rw [hf] at h3
        obtain ⟨l, hl, rfl⟩ := h3
        have e1 : t.ilabel = l := by simpa using hb
        have e2 := (EncTable.Code.inj he.ok hut.1 hl).1 e1
        simp only [toTuple, EncodeType.labels, EncodeType.weights, if_true, FinalTr.mk.injEq] at e2
        exact (hu s).2 w hf u hum (by rw [e2.1, e2.2.1, e2.2.2])
  · have : e.trsOf s = [] := by
      by_cases h : s = f.numStates
      · rw [h]; exact (he.super rfl).1
      · exact trsOf_of_ge (by rw [he.num]; simp only [EncodeType.weights, if_true]; omega)
    rw [this]
    exact List.nodup_nil

end enc

section main
variable [AddCommMonoid W] [Monoid W] [DecidableEq W] [Zero V] [One V] [DecidableEq V]

theorem minimizeEncoded_spec (hz : ∀ a : W, a * 0 = 0) {lt : W → W → Bool} (hlt : LtOk lt) (rev : W → V) {merge : List (List (Tr V)) → List (Tr V)} (hmg : HeapMerge merge)
    (allowAcyclic : Bool) (f : Fst W) (hw : f.WF) (tf : f.Truthful) (hs : f.start ≠ none) (hu : f.UniqueTrs) (n : Nat)
    (hn : f.numStates + 1 < n) :
    ∃ h, f.minimizeEncoded lt rev merge allowAcyclic n = some (.ok h) ∧ h.WF ∧ h.Truthful ∧ h.AllUseful ∧
      (∀ n, live (h.accPaths n) = live (f.accPaths n)) ∧ (f.Deterministic → h.Deterministic) ∧
      (f.Holds .acceptor → h.Holds .acceptor) ∧ ∀ P : W → Prop, f.WeightsIn P → h.WeightsIn P := by
  obtain ⟨T, e, hg, he⟩ := encode_spec f hs .encodeWeightsAndLabels
  have te := C22_encode_flags f hw hs tf _ T e hg
  have we := he.wf hw
  have de := he.deterministic hu
  have ne : e.numStates = f.numStates + 1 := he.num
  obtain ⟨m, hm, hl, wm, um, pm, tm, -, dm, pathm, -⟩ := C57_acceptor_minimize.{u, v, 0} hlt rev hmg allowAcyclic e we te
    (.inl (by rw [he.start]; exact hs)) he.plain (.inl de) n (by omega)
  have dm := dm de
  obtain ⟨i', hi'⟩ : ∃ i, f.start = some i := Option.ne_none_iff_exists'.1 hs
  have hi'' := hw.start_lt i' hi'
  have hms : m.start ≠ none ∨ m.numStates = 0 := by
    by_cases h : m.numStates = 0
    · exact .inr h
    · obtain ⟨i, hi, -⟩ := (um 0 (by omega)).1
      exact .inl (by rw [hi]; simp)
  -- a state of `m` and its counterpart
  have hcp : ∀ s, s < m.numStates → ∃ s', (m.start = some s → s' = i') ∧ (m.IsFinal s ↔ s' = f.numStates) ∧
      ∀ t ∈ m.trsOf s, (∃ u ∈ f.trsOf s', T.Code t.ilabel ⟨u.ilabel, u.olabel, u.weight⟩ ∧ ¬ m.IsFinal t.nextstate) ∨
        ∃ w, f.finOf s' = some w ∧ T.Code t.ilabel ⟨EPS, EPS, w⟩ ∧ m.IsFinal t.nextstate := by
    intro s hsm
    obtain ⟨i, hi, -⟩ := (um s hsm).1
    obtain ⟨s', h1, h2, h3⟩ := counterpart dm de hl um wm hi (he.start.trans hi') hsm
    have hfin : ∀ q, e.IsFinal q ↔ q = f.numStates := by
      intro q; unfold IsFinal; rw [he.finOf]; by_cases h : q = f.numStates <;> simp [h]
    refine ⟨s', fun h => h1 (by rw [hi] at h; exact (Option.some.inj h).symm), h2.trans (hfin s'), fun t ht => ?_⟩
    obtain ⟨t', ht', e1, e2⟩ := h3 t ht
    rw [hfin] at e2
    rcases (he.mem ht').2 with ⟨u, hum, hc⟩ | ⟨w, hwf, hc, hnx⟩
    · refine .inl ⟨u, hum, ?_, ?_⟩
      · rw [← e1]; exact hc.1
      · rw [e2, hc.2.2.2]; have := hw.next_lt s' u hum; omega
    · exact .inr ⟨w, hwf, by rw [← e1]; exact hc, e2.2 hnx⟩
  have cm : m.Coded T := by
    intro s t ht
    obtain ⟨s', -, -, h⟩ := hcp s (lt_of_mem_trsOf ht)
    rcases h t ht with ⟨u, -, h, -⟩ | ⟨w, -, h, -⟩
    · exact ⟨_, h⟩
    · exact ⟨_, h⟩
  obtain ⟨k, hk, k1, k2, k3, k4⟩ := decode_coded cm hms
  have kf : ∀ s, (k.finOf s).isSome = true ↔ m.IsFinal s := by intro s; rw [k3]; exact Iff.rfl
  have wk : k.WF := by
    refine ⟨fun i hi => by rw [k2]; exact wm.start_lt i (k1 ▸ hi), fun s t ht => ?_⟩
    rw [k4] at ht
    obtain ⟨u, hum, rfl⟩ := List.mem_map.1 ht
    rw [k2]; exact wm.next_lt s u hum
  -- the transitions into final states
  have htoF : ∀ s, ∀ t ∈ m.trsOf s, m.IsFinal t.nextstate → ∀ s', (∀ t ∈ m.trsOf s,
      (∃ u ∈ f.trsOf s', T.Code t.ilabel ⟨u.ilabel, u.olabel, u.weight⟩ ∧ ¬ m.IsFinal t.nextstate) ∨
        ∃ w, f.finOf s' = some w ∧ T.Code t.ilabel ⟨EPS, EPS, w⟩ ∧ m.IsFinal t.nextstate) →
      ∃ w, f.finOf s' = some w ∧ T.Code t.ilabel ⟨EPS, EPS, w⟩ := by
    intro s t ht hf s' h
    rcases h t ht with ⟨u, -, -, h⟩ | ⟨w, h1, h2, -⟩
    · exact absurd hf h
    · exact ⟨w, h1, h2⟩
  obtain ⟨g, h, hr, wh, hgc, wg, g3, g2, g4, hp, hus, gfin⟩ := rmFinalEpsilon_super hz k wk
    (by
      intro s w hsw
      have hf : m.IsFinal s := (kf s).1 (by rw [hsw]; rfl)
      have hsm : s < m.numStates := IsFinal.lt hf
      refine ⟨pm.fin s w (by rw [← k3]; exact hsw), ?_⟩
      obtain ⟨s', -, h2, h3⟩ := hcp s hsm
      rw [k4]
      cases hts : m.trsOf s with
      | nil => rfl
      | cons t ts =>
        have hsf := h2.1 hf
        rcases h3 t (by rw [hts]; exact List.mem_cons_self) with ⟨u, hum, -⟩ | ⟨w, hwf, -⟩
        · rw [hsf, trsOf_of_ge (Nat.le_refl _)] at hum; cases hum
        · rw [hsf, finOf_of_ge (Nat.le_refl _)] at hwf; cases hwf)
    (by
      intro s t ht hf
      rw [k4] at ht
      obtain ⟨u, hum, rfl⟩ := List.mem_map.1 ht
      obtain ⟨s', -, -, h3⟩ := hcp s (lt_of_mem_trsOf hum)
      obtain ⟨w, -, hc⟩ := htoF s u hum ((kf _).1 hf) s' h3
      unfold EncTable.dec
      rw [hc.get]
      exact ⟨rfl, rfl⟩)
    (by
      intro s
      by_cases hsm : s < m.numStates
      · obtain ⟨s', -, -, h3⟩ := hcp s hsm
        rw [k4, List.filter_map, List.length_map]
        have hnd := (dm s).sublist (List.filter_sublist (p := (fun t => (k.finOf t.nextstate).isSome) ∘ T.dec) (l := m.trsOf s) |>.map (·.ilabel))
        have hall : ∀ a ∈ ((m.trsOf s).filter ((fun t => (k.finOf t.nextstate).isSome) ∘ T.dec)).map (·.ilabel),
            ∃ w, f.finOf s' = some w ∧ T.Code a ⟨EPS, EPS, w⟩ := by
          intro a ha
          obtain ⟨t, ht, rfl⟩ := List.mem_map.1 ha
          obtain ⟨ht1, ht2⟩ := List.mem_filter.1 ht
          exact htoF s t ht1 ((kf _).1 ht2) s' h3
        rw [← List.length_map (f := fun t : Tr W => t.ilabel)]
        generalize ((m.trsOf s).filter ((fun t => (k.finOf t.nextstate).isSome) ∘ T.dec)).map (·.ilabel) = L at hnd hall
        match L, hnd, hall with
        | [], _, _ => simp
        | [a], _, _ => simp
        | a :: b :: L, hnd, hall =>
          obtain ⟨w, h1, h2⟩ := hall a (by simp)
          obtain ⟨w', h1', h2'⟩ := hall b (by simp)
          rw [h1] at h1'; cases h1'
          have := (EncTable.Code.inj he.ok h2 h2').2 rfl
          subst this
          simp at hnd
      · rw [trsOf_of_ge (by omega)]; simp)
    (by
      intro i hi
      rw [k1] at hi
      obtain ⟨s', h1, h2, -⟩ := hcp i (wm.start_lt i hi)
      rw [k3]
      by_contra hc
      have hf : m.IsFinal i := Option.isSome_iff_ne_none.2 hc
      have e1 := h2.1 hf
      have e2 := h1 hi
      omega)
  -- paths
  obtain ⟨k0, hk0, a1, a2, a3, a4⟩ := decode_coded he.coded (.inl (by rw [he.start]; exact hs))
  obtain ⟨k0', hk0', -, -, -, -, b4⟩ := decode_map he hs
  rw [hk0] at hk0'
  have e0 : k0 = k0' := congrArg Prod.snd (Except.ok.inj hk0')
  have b4 := b4 rfl
  rw [← e0] at b4
  have hpk : ∀ n, k.accPaths n = k0.accPaths n := by
    intro n
    have h1 := decoded_paths cm pm.fin k3 k4 n
    have h2 := decoded_paths he.coded he.plain.fin a3 a4 n
    have h3 := pathm n de
    rw [accPaths_some (a1.trans (he.start.trans hi')), h2, ← accPaths_some (he.start.trans hi'), ← h3]
    cases hi : m.start with
    | none => rw [accPaths_none (k1.trans hi), accPaths_none hi]; rfl
    | some i => rw [accPaths_some (k1.trans hi), accPaths_some hi, h1]
  have hsup := superfinal_paths hw b4 (by rw [a4, (he.super rfl).1]; rfl) (fun s => by rw [a3, he.finOf])
  have hdec : m.decode .encodeWeightsAndLabels T = .ok h := by
    unfold Fst.decode
    rw [hk]
    exact hr
  obtain ⟨σ, tr⟩ := connect_trimOf wg hgc
  -- the transitions of the result
  have hrow : ∀ j, j < h.numStates → ∃ s', ((h.trsOf j).map fun t => (t.ilabel, t.olabel, t.weight)).Sublist
        (((m.trsOf (σ j)).filter fun t => !(k.finOf t.nextstate).isSome).map fun t => ((T.dec t).ilabel, (T.dec t).olabel, (T.dec t).weight)) ∧
      ∀ t ∈ (m.trsOf (σ j)).filter (fun t => !(k.finOf t.nextstate).isSome), ∃ u ∈ f.trsOf s',
        T.Code t.ilabel ⟨u.ilabel, u.olabel, u.weight⟩ := by
    intro j hj
    have hlt := tr.lt j hj
    rw [g2, k2] at hlt
    obtain ⟨s', -, -, h3⟩ := hcp (σ j) hlt
    refine ⟨s', ?_, fun t ht => ?_⟩
    · have h1 := (tr.sub j hj).map fun t => (t.ilabel, t.olabel, t.weight)
      rw [List.map_map, g4, k4, List.filter_map, List.map_map] at h1
      exact h1
    · obtain ⟨ht1, ht2⟩ := List.mem_filter.1 ht
      rcases h3 t ht1 with ⟨u, h1, h2, -⟩ | ⟨w, -, -, hf⟩
      · exact ⟨u, h1, h2⟩
      · rw [(kf _).2 hf] at ht2; cases ht2
  refine ⟨h, ?_, wh, C22_decode_flags m wm tm _ T h hdec, hus, fun n => ?_, fun df j => ?_, fun ac j t ht => ?_, fun P hP => ⟨fun j t ht => ?_, fun j v hv => ?_⟩⟩
  · unfold minimizeEncoded
    rw [hg]
    simp only
    rw [hm]
    simp only
    rw [hdec]
  · rw [hp, hpk, accPaths_some (a1.trans (he.start.trans hi')), accPaths_some hi', hsup n i' hi'']
  · by_cases hj : j < h.numStates
    · obtain ⟨s', h1, h2⟩ := hrow j hj
      have h3 := h1.map Prod.fst
      rw [List.map_map, List.map_map] at h3
      refine List.Nodup.sublist h3 ?_
      have hnd : ((m.trsOf (σ j)).filter fun t => !(k.finOf t.nextstate).isSome).Pairwise fun a b => a.ilabel ≠ b.ilabel := by
        have := (dm (σ j)).sublist (List.filter_sublist (p := fun t => !(k.finOf t.nextstate).isSome) (l := m.trsOf (σ j)) |>.map (·.ilabel))
        exact List.pairwise_map.1 this
      refine List.pairwise_map.2 (hnd.imp_of_mem fun {a b} ha hb hab heq => hab ?_)
      obtain ⟨u, hum, hcu⟩ := h2 a ha
      obtain ⟨v, hvm, hcv⟩ := h2 b hb
      have e1 : u.ilabel = v.ilabel := by
        have h5 : (T.dec a).ilabel = (T.dec b).ilabel := heq
        unfold EncTable.dec at h5
        rwa [hcu.get, hcv.get] at h5
      have huv : u = v := List.inj_on_of_nodup_map (df s') hum hvm e1
      subst huv
      exact (EncTable.Code.inj he.ok hcu hcv).2 rfl
    · rw [trsOf_of_ge (by omega)]; exact List.nodup_nil
  · have hj : j < h.numStates := lt_of_mem_trsOf ht
    obtain ⟨s', h1, h2⟩ := hrow j hj
    obtain ⟨t', ht', e1⟩ := List.mem_map.1 (h1.subset (List.mem_map.2 ⟨t, ht, rfl⟩))
    obtain ⟨u, hum, hcu⟩ := h2 t' ht'
    unfold EncTable.dec at e1
    rw [hcu.get] at e1
    simp only [Prod.mk.injEq] at e1
    rw [← e1.1, ← e1.2.1]
    exact ac s' u hum
  · have hj : j < h.numStates := lt_of_mem_trsOf ht
    obtain ⟨s', h1, h2⟩ := hrow j hj
    obtain ⟨t', ht', e1⟩ := List.mem_map.1 (h1.subset (List.mem_map.2 ⟨t, ht, rfl⟩))
    obtain ⟨u, hum, hcu⟩ := h2 t' ht'
    unfold EncTable.dec at e1
    rw [hcu.get] at e1
    simp only [Prod.mk.injEq] at e1
    rw [← e1.2.2]
    exact hP.1 s' u hum
  · have hj : j < h.numStates := IsFinal.lt (by unfold IsFinal; rw [hv]; rfl)
    rw [tr.fin j hj] at hv
    have hnf : k.finOf (σ j) = none := by
      obtain ⟨i, hi, hr⟩ := (hus j hj).1
      rcases Relation.ReflTransGen.cases_tail hr with e | ⟨i1, -, t, ht, e⟩
      · subst e
        have h1 := tr.start _ hi
        rw [g3, k1] at h1
        obtain ⟨s', h2, h3, -⟩ := hcp _ (wm.start_lt _ h1)
        rw [k3]
        by_contra hc
        have e1 := h3.1 (Option.isSome_iff_ne_none.2 hc)
        have e2 := h2 h1
        omega
      · have h1 := (tr.sub i1 (lt_of_mem_trsOf ht)).subset (List.mem_map.2 ⟨t, ht, rfl⟩)
        rw [g4] at h1
        have h2 := (List.mem_filter.1 h1).2
        simp only [e] at h2
        simpa using h2
    rcases gfin _ _ hv with h1 | ⟨t, ht, h1, h2⟩
    · rw [hnf] at h1; cases h1
    · rw [k4] at ht
      obtain ⟨u, hum, rfl⟩ := List.mem_map.1 ht
      obtain ⟨s', -, -, h3⟩ := hcp (σ j) (lt_of_mem_trsOf hum)
      obtain ⟨w, hw', hc⟩ := htoF (σ j) u hum ((kf _).1 h1) s' h3
      rw [← h2]
      unfold EncTable.dec
      rw [hc.get]
      exact hP.2 s' w hw'

end main
end Verif
