import Verif.Lemmas.FwFinal
import Verif.Lemmas.DetFinite
import Verif.Lemmas.GallicLeft
import Verif.Model.MinimizeTr

/-! # Minimization of transducers: the last two steps -/

namespace Verif
set_option linter.unusedSectionVars false
universe u v
variable {W : Type u} {V : Type v}

/-! ### Factoring the weights of transitions and final weights, into at most two factors each -/

section
variable [MonoidWithZero V] [DecidableEq V] {d : Fst V} {factors : V → List (V × V)} {quantize : V → R V} {K J : V → Prop}
variable (hq : Exact factors quantize) (hd : d.WF) (hK : (∀ s, ∀ t ∈ d.trsOf s, K t.weight) ∧ ∀ s v, d.finOf s = some v → v ≠ 0 → K v) (hJ : ∀ v, K v → ∀ p ∈ factors v, J p.1 ∧ K p.2) (h1 : K 1)
  (hmul : ∀ a b, K a → K b → K (a * b))
include hq hd hK hJ h1 hmul

theorem fw_min_reach {e : FwElt V} (he : (fwMachine d factors quantize minFwOpts).Reach e) :
    K e.weight ∧ ∀ s, e.state = some s → s < d.numStates := by
  induction he with
  | @start t h =>
    simp only [TupleOp.machine, fwOp, Option.map_eq_some_iff] at h
    obtain ⟨i, hi, rfl⟩ := h
    exact ⟨h1, fun s hs => by cases hs; exact hd.start_lt i hi⟩
  | @step t a ht ha ih =>
    obtain ⟨st, w⟩ := t
    obtain ⟨ih1, ih2⟩ := ih
    cases st with
    | some s =>
      rw [fw_trs_some hq w (ih2 s rfl), List.mem_append] at ha
      rcases ha with ha | ha
      · obtain ⟨tr, htr, ha⟩ := List.mem_flatMap.1 ha
        unfold fwTrP at ha
        split at ha
        · rw [List.mem_singleton] at ha
          subst ha
          exact ⟨h1, fun q hq => by cases hq; exact hd.next_lt s tr htr⟩
        · obtain ⟨p, hp, rfl⟩ := List.mem_map.1 ha
          exact ⟨(hJ _ (hmul _ _ ih1 (hK.1 s tr htr)) p hp).2, fun q hq => by cases hq; exact hd.next_lt s tr htr⟩
      · cases hv : d.finOf s with
        | none => rw [hv] at ha; cases ha
        | some v =>
          rw [hv] at ha
          simp only at ha
          split at ha
          · cases ha
          · rename_i h0
            obtain ⟨p, hp, h3, -⟩ := mem_fwFinalsP _ _ _ a ha
            rw [h3]
            exact ⟨(hJ _ (hmul _ _ ih1 (hK.2 s v hv fun h => h0 (.inr h))) p hp).2, fun q hq => by cases hq⟩
    | none =>
      rw [fw_trs_none hq, if_neg (by simp [minFwOpts])] at ha
      obtain ⟨p, hp, h3, -⟩ := mem_fwFinalsP _ _ _ a ha
      rw [h3]
      exact ⟨(hJ _ ih1 p hp).2, fun q hq => by cases hq⟩

variable (hKJ : ∀ v, K v → factors v = [] → J v) (hone : ∀ v, factors v = [] ∨ ∃ p, factors v = [p])
include hKJ hone

theorem fw_min_trs {e : FwElt V} (he : (fwMachine d factors quantize minFwOpts).Reach e) :
    ∃ l m, (fwMachine d factors quantize minFwOpts).trs e = l ++ m ∧
      (l = [] ∨ ∃ s, l.map (fun a => (a.ilabel, a.olabel)) = (d.trsOf s).map fun t => (t.ilabel, t.olabel)) ∧ (∀ a ∈ l, J a.weight) ∧
      ∀ a ∈ m, a.ilabel = EPS ∧ a.olabel = EPS ∧ J a.weight := by
  have hfin : ∀ w, K w → ∀ a ∈ fwFinalsP minFwOpts minFwOpts.finalIlabel minFwOpts.finalOlabel (factors w), a.ilabel = EPS ∧ a.olabel = EPS ∧ J a.weight := by
    intro w hw a ha
    rw [fwFinalsP_plain ⟨rfl, rfl, rfl, rfl⟩] at ha
    obtain ⟨p, hp, rfl⟩ := List.mem_map.1 ha
    exact ⟨rfl, rfl, (hJ w hw p hp).1⟩
  obtain ⟨k1, k2⟩ := fw_min_reach hq hd hK hJ h1 hmul he
  obtain ⟨st, w⟩ := e
  cases st with
  | some s =>
    rw [fw_trs_some hq w (k2 s rfl)]
    refine ⟨_, _, rfl, Or.inr ⟨s, ?_⟩, fun a ha => ?_, fun a ha => ?_⟩
    · generalize d.trsOf s = ts
      induction ts with
      | nil => rfl
      | cons t ts ih =>
        rw [List.flatMap_cons, List.map_append, ih]
        unfold fwTrP
        split
        · rfl
        · rename_i hc
          rcases hone (w * t.weight) with h | ⟨p, h⟩
          · exact absurd (Or.inr h) hc
          · rw [h]; rfl
    · obtain ⟨tr, htr, ha⟩ := List.mem_flatMap.1 ha
      have hk := hmul _ _ k1 (hK.1 s tr htr)
      unfold fwTrP at ha
      split at ha
      · rename_i hc
        rw [List.mem_singleton] at ha
        subst ha
        exact hKJ _ hk (hc.resolve_left (by simp [minFwOpts]))
      · obtain ⟨p, hp, rfl⟩ := List.mem_map.1 ha
        exact (hJ _ hk p hp).1
    · cases hv : d.finOf s with
      | none => rw [hv] at ha; cases ha
      | some v =>
        rw [hv] at ha
        simp only at ha
        split at ha
        · cases ha
        · rename_i h0
          exact hfin _ (hmul _ _ k1 (hK.2 s v hv fun h => h0 (.inr h))) a ha
  | none =>
    exact ⟨[], _, by rw [fw_trs_none hq, if_neg (by simp [minFwOpts]), List.nil_append], Or.inl rfl, (by intro a ha; cases ha), hfin w k1⟩

theorem fw_min_fin {e : FwElt V} (he : (fwMachine d factors quantize minFwOpts).Reach e) {v : V}
    (h : (fwMachine d factors quantize minFwOpts).fin e = some v) : J v := by
  obtain ⟨k1, k2⟩ := fw_min_reach hq hd hK hJ h1 hmul he
  obtain ⟨st, w⟩ := e
  cases st with
  | some s =>
    simp only [TupleOp.machine, fwFin_some w (k2 s rfl)] at h
    split at h
    · rename_i hc
      injection h with h
      subst h
      refine hKJ _ ?_ (hc.2.resolve_left (by simp [minFwOpts]))
      cases hv : d.finOf s with
      | none => rw [hv] at hc; exact absurd (mul_zero _) hc.1
      | some v =>
        rw [hv] at hc
        exact hmul _ _ k1 (hK.2 s v hv fun h => hc.1 (by rw [h]; exact mul_zero _))
    · cases h
  | none =>
    simp only [TupleOp.machine, fwFin_none] at h
    split at h
    · rename_i hc
      injection h with h
      subst h
      exact hKJ _ k1 (hc.2.resolve_left (by simp [minFwOpts]))
    · cases h

/-- The factored FST, and the labels moved out of its weights. -/
theorem min_tail [MonoidWithZero W] [DecidableEq W] {extract : V → R (W × Label)} {mk : List Label → W → V} (hm : ∀ l m a b, mk l a * mk m b = mk (l ++ m) (a * b))
    (hac : ∀ s, ∀ t ∈ d.trsOf s, t.ilabel = t.olabel)
    (hR : ∀ v, J v → ∃ w l, extract v = .ok (w, l) ∧ v = mk (strip l) w)
    {n : Nat} {H : Fst V} (hH : factorWeight d factors quantize minFwOpts n = some (.ok H)) (hw : H.WF) :
    ∃ F : Fst W, H.weightConvert (fromGallic extract EPS) = .ok F ∧ F.WF ∧ F.AllCounters ∧
      ((∀ s, ((d.trsOf s).map (·.ilabel)).Nodup) → ∀ s, (((F.trsOf s).map (·.ilabel)).filter (· ≠ EPS)).Nodup) ∧
      ∃ part : Nat → Nat → Multiset (PathT W), (∀ m, F.accPaths m = ∑ n ∈ Finset.range (m + 1), part n (m - n)) ∧ (∀ n k, 2 ≤ k → part n k = 0) ∧
      ∀ n, (part n 0 + part n 1).map (fun p => (p.1, p.1, mk p.2.1 p.2.2)) = H.accPaths n := by
  obtain ⟨-, -, nm, hp⟩ := fw_out hq hd hH
  suffices hg : (∀ s, ∀ t ∈ H.trsOf s, J t.weight ∧ t.ilabel = t.olabel) ∧ (∀ s v, H.finOf s = some v → J v) ∧
      ((∀ s, ((d.trsOf s).map (·.ilabel)).Nodup) → ∀ s, (((H.trsOf s).map (·.ilabel)).filter (· ≠ EPS)).Nodup) by
    obtain ⟨F, f1, f2, f3, f4, f5⟩ := gallic_tail hm hR hw hg.1 hg.2.1
    exact ⟨F, f1, f2, f3, fun hnd => f4 (hg.2.2 hnd), f5⟩
  refine ⟨fun s t ht => ?_, fun s v hv => ?_, fun hnd s => ?_⟩
  · obtain ⟨e, a, -, he, ha, i1, i2, i3, -⟩ := hp.trs_of s t ht
    obtain ⟨l, m, e1, e2, e3, e4⟩ := fw_min_trs hq hd hK hJ h1 hmul hKJ hone he
    rw [e1, List.mem_append] at ha
    rw [i1, i2, i3]
    rcases ha with ha | ha
    · refine ⟨e3 a ha, ?_⟩
      rcases e2 with rfl | ⟨q, hq'⟩
      · cases ha
      · have := List.mem_map_of_mem (f := fun a : MTr (FwElt V) V => (a.ilabel, a.olabel)) ha
        rw [hq'] at this
        obtain ⟨t', ht', he'⟩ := List.mem_map.1 this
        injection he' with x y
        rw [← x, ← y]; exact hac q t' ht'
    · obtain ⟨a1, a2, a3⟩ := e4 a ha
      exact ⟨a3, by rw [a1, a2]⟩
  · obtain ⟨e, -, he, hf⟩ := hp.fin_of hv
    exact fw_min_fin hq hd hK hJ h1 hmul hKJ hone he hf
  · by_cases hs : s < H.numStates
    · obtain ⟨e, he⟩ := (hp.states s).1 hs
      have hf2 := hp.trs s e he
      have hl : (H.trsOf s).map (·.ilabel) = ((fwMachine d factors quantize minFwOpts).trs e).map (·.ilabel) := by
        revert hf2
        generalize H.trsOf s = l1
        generalize (fwMachine d factors quantize minFwOpts).trs e = l2
        intro hf2
        induction hf2 with
        | nil => rfl
        | cons hd _ ih => rw [List.map_cons, List.map_cons, ih, hd.1]
      obtain ⟨l, m, e1, e2, -, e3⟩ := fw_min_trs hq hd hK hJ h1 hmul hKJ hone ((hp.tuples e).2 ⟨s, he⟩)
      rw [hl, e1, List.map_append, List.filter_append]
      have : (m.map (·.ilabel)).filter (· ≠ EPS) = [] := by
        rw [List.filter_eq_nil_iff]
        intro x hx
        obtain ⟨a, ha, rfl⟩ := List.mem_map.1 hx
        simp [(e3 a ha).1]
      rw [this, List.append_nil]
      refine List.Nodup.filter _ ?_
      rcases e2 with rfl | ⟨q, hq'⟩
      · exact List.nodup_nil
      · have := congrArg (List.map Prod.fst) hq'
        rw [List.map_map, List.map_map] at this
        rw [show l.map (·.ilabel) = (d.trsOf q).map (·.ilabel) from this]
        exact hnd q
    · rw [Fst.trsOf_of_ge (by omega)]; exact List.nodup_nil

end

/-! ### Gallic weights -/

/-- A string of labels, none of them ε, and a weight. -/
def GPair (v : StrW × W) : Prop := ∃ l w, v = (.labels l, w) ∧ EPS ∉ l

/-- At most one label. -/
def GShort (v : StrW × W) : Prop := ∃ l w, v = (.labels l, w) ∧ EPS ∉ l ∧ l.length ≤ 1

theorem gpair_factor [MonoidWithZero W] (v : StrW × W) (hv : GPair v) : ∀ p ∈ gallicFactor v, GShort p.1 ∧ GPair p.2 := by
  obtain ⟨l, w, rfl, hl⟩ := hv
  rcases l with _ | ⟨a, _ | ⟨b, l⟩⟩
  · intro p hp; cases hp
  · intro p hp; cases hp
  · intro p hp
    simp only [gallicFactor, stringFactor, List.length_cons] at hp
    rw [if_neg (by omega), List.map_cons, List.map_nil, List.mem_singleton] at hp
    subst hp
    exact ⟨⟨[a], w, rfl, fun h => hl (by rw [List.mem_singleton] at h; subst h; simp), by simp⟩, ⟨b :: l, 1, rfl, fun h => hl (by simp [h])⟩⟩

theorem gpair_short [MonoidWithZero W] (v : StrW × W) (hv : GPair v) (h : gallicFactor v = []) : GShort v := by
  obtain ⟨l, w, rfl, hl⟩ := hv
  refine ⟨l, w, rfl, hl, ?_⟩
  rcases l with _ | ⟨a, _ | ⟨b, l⟩⟩
  · simp
  · simp
  · simp [gallicFactor, stringFactor] at h

theorem gfactor_one [MonoidWithZero W] (v : StrW × W) : gallicFactor v = [] ∨ ∃ p, gallicFactor v = [p] := by
  obtain ⟨s, w⟩ := v
  rcases s with _ | ⟨_ | ⟨a, _ | ⟨b, l⟩⟩⟩
  · exact .inl rfl
  · exact .inl rfl
  · exact .inl rfl
  · exact .inr ⟨_, by simp [gallicFactor, stringFactor]; rfl⟩

theorem gshort_extract [MonoidWithZero W] (v : StrW × W) (h : GShort v) : ∃ w l, extractPair v = .ok (w, l) ∧ v = (.labels (strip l), w) := by
  obtain ⟨l, w, rfl, hl, hn⟩ := h
  rcases l with _ | ⟨a, _ | ⟨b, l⟩⟩
  · exact ⟨w, EPS, rfl, rfl⟩
  · refine ⟨w, a, rfl, ?_⟩
    have : a ≠ EPS := fun h => hl (by simp [h])
    simp [strip, this]
  · simp at hn

theorem gpair_mul [MonoidWithZero W] (a b : StrW × W) (ha : GPair a) (hb : GPair b) : GPair (a * b) := by
  obtain ⟨l, w, rfl, hl⟩ := ha
  obtain ⟨m, x, rfl, hm⟩ := hb
  exact ⟨l ++ m, w * x, rfl, by simp [hl, hm]⟩

theorem gpair_one [MonoidWithZero W] : GPair (1 : StrW × W) := ⟨[], 1, rfl, by simp⟩

/-! ### Bounded paths -/

theorem Fst.paths_zero_of_acyclic [Zero V] [One V] [Mul V] [DecidableEq V] {f : Fst V} (hf : f.WF) (hac : f.Holds .acyclic) : ∀ n s, f.below s < n → f.pathsFrom n s = 0 := by
  intro n
  induction n with
  | zero => intro s h; omega
  | succ n ih =>
    intro s h
    simp only [pathsFrom]
    rw [Multiset.eq_zero_iff_forall_notMem]
    intro p hp
    simp only [Multiset.mem_bind, Multiset.mem_coe] at hp
    obtain ⟨t, ht, hp⟩ := hp
    rw [ih t.nextstate (by have := Fst.below_lt hf hac (s := s) (q := t.nextstate) ⟨t, ht, rfl⟩; omega)] at hp
    simp at hp

theorem Fst.paths_step [One V] [Mul V] {f : Fst V} {s q : StateId} (h : f.Edge s q) {n : Nat} (hp : ∃ p, p ∈ f.pathsFrom n q) : ∃ p, p ∈ f.pathsFrom (n + 1) s := by
  obtain ⟨t, ht, rfl⟩ := h
  obtain ⟨p, hp⟩ := hp
  exact ⟨_, by simp only [pathsFrom, Multiset.mem_bind, Multiset.mem_coe]; exact ⟨t, ht, Multiset.mem_map_of_mem _ hp⟩⟩

theorem Fst.paths_reach [One V] [Mul V] {f : Fst V} {s q : StateId} (h : f.Reach s q) {n : Nat} (hp : ∃ p, p ∈ f.pathsFrom n q) : ∃ m, n ≤ m ∧ ∃ p, p ∈ f.pathsFrom m s := by
  unfold Reach at h
  induction h using Relation.ReflTransGen.head_induction_on with
  | refl => exact ⟨n, Nat.le_refl _, hp⟩
  | head h1 _ ih =>
    obtain ⟨m, hm, hp⟩ := ih
    exact ⟨m + 1, by omega, paths_step h1 hp⟩

/-- If the accepting paths of an FST with useful states are not arbitrarily long it has no cycle. -/
theorem Fst.acyclic_of_bounded [Zero V] [One V] [Mul V] {f : Fst V} (hf : f.WF) (hu : f.AllUseful) (B : Nat) (hB : ∀ n, B < n → f.accPaths n = 0) : f.Holds .acyclic := by
  rintro ⟨s, hs⟩
  have hsl : s < f.numStates := by
    obtain ⟨q, ⟨t, ht, -⟩, -⟩ := Relation.TransGen.head'_iff.1 hs
    exact lt_of_mem_trsOf ht
  obtain ⟨⟨i, hi, hr⟩, q, hq, hqf⟩ := hu s hsl
  have h0 : ∃ p, p ∈ f.pathsFrom 0 q := by
    obtain ⟨w, hw⟩ := Option.isSome_iff_exists.1 hqf
    exact ⟨_, by simp only [pathsFrom, hw]; exact Multiset.mem_singleton_self _⟩
  have hlong : ∀ N, ∃ m, N ≤ m ∧ ∃ p, p ∈ f.pathsFrom m s := by
    intro N
    induction N with
    | zero => obtain ⟨m, -, h⟩ := paths_reach hq h0; exact ⟨m, Nat.zero_le _, h⟩
    | succ N ih =>
      obtain ⟨m, hm, hp⟩ := ih
      obtain ⟨r, h1, h2⟩ := Relation.TransGen.head'_iff.1 hs
      obtain ⟨m', hm', hp'⟩ := paths_reach h2 hp
      exact ⟨m' + 1, by omega, paths_step h1 hp'⟩
  obtain ⟨m, hm, hp⟩ := hlong (B + 1)
  obtain ⟨m', hm', p, hp'⟩ := paths_reach hr hp
  have := hB m' (by omega)
  rw [accPaths_some hi] at this
  rw [this] at hp'
  simp at hp'

theorem Fst.paths_weights [One V] [Mul V] {f : Fst V} {K : V → Prop} (hK : f.WeightsIn K) (hmul : ∀ a b, K a → K b → K (a * b)) :
    ∀ n s, ∀ p ∈ f.pathsFrom n s, K p.2.2 := by
  intro n
  induction n with
  | zero =>
    intro s p hp
    simp only [pathsFrom] at hp
    cases hv : f.finOf s with
    | none => rw [hv] at hp; simp at hp
    | some v => rw [hv] at hp; rw [Multiset.mem_singleton] at hp; subst hp; exact hK.2 s v hv
  | succ n ih =>
    intro s p hp
    simp only [pathsFrom, Multiset.mem_bind, Multiset.mem_coe] at hp
    obtain ⟨t, ht, hp⟩ := hp
    obtain ⟨r, hr, rfl⟩ := Multiset.mem_map.1 hp
    exact hmul _ _ (hK.1 s t ht) (ih _ r hr)

end Verif
