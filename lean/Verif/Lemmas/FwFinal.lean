import Verif.Props.C41Flags
import Verif.Props.C60
import Verif.Model.DeterminizeFst

/-!
# Factoring final weights only, then moving labels out of gallic weights

The last two steps of the determinization of transducers.
-/

namespace Verif
set_option linter.unusedSectionVars false
universe u v
variable {W : Type u} {V : Type v}

/-! ### Splitting multisets of paths -/

theorem split_map_add {α β : Type*} (φ : α → β) (D : Multiset β) : ∀ (C : Multiset β) (A B : Multiset α), (A + B).map φ = C + D →
    ∃ A1 B1 A2 B2, A = A1 + A2 ∧ B = B1 + B2 ∧ (A1 + B1).map φ = C ∧ (A2 + B2).map φ = D := by
  classical
  intro C
  induction C using Multiset.induction_on with
  | empty => intro A B h; exact ⟨0, 0, A, B, by simp, by simp, by simp, by simpa using h⟩
  | cons c C ih =>
    intro A B h
    have hc : c ∈ (A + B).map φ := by rw [h]; simp
    obtain ⟨b, hb, e⟩ := Multiset.mem_map.1 hc
    rcases Multiset.mem_add.1 hb with hb | hb
    · obtain ⟨A', rfl⟩ := Multiset.exists_cons_of_mem hb
      rw [Multiset.cons_add, Multiset.map_cons, e, Multiset.cons_add, Multiset.cons_inj_right] at h
      obtain ⟨A1, B1, A2, B2, h1, h2, h3, h4⟩ := ih A' B h
      exact ⟨b ::ₘ A1, B1, A2, B2, by rw [h1, Multiset.cons_add], h2, by rw [Multiset.cons_add, Multiset.map_cons, h3, e], h4⟩
    · obtain ⟨B', rfl⟩ := Multiset.exists_cons_of_mem hb
      rw [Multiset.add_cons, Multiset.map_cons, e, Multiset.cons_add, Multiset.cons_inj_right] at h
      obtain ⟨A1, B1, A2, B2, h1, h2, h3, h4⟩ := ih A B' h
      exact ⟨A1, b ::ₘ B1, A2, B2, h1, by rw [h2, Multiset.cons_add], by rw [Multiset.add_cons, Multiset.map_cons, h3, e], h4⟩

theorem split_map_sum {α β : Type*} (φ : α → β) (C : Nat → Multiset β) : ∀ (m : Nat) (A B : Multiset α), (A + B).map φ = ∑ n ∈ Finset.range m, C n →
    ∃ A' B' : Nat → Multiset α, A = ∑ n ∈ Finset.range m, A' n ∧ B = ∑ n ∈ Finset.range m, B' n ∧ ∀ n, n < m → (A' n + B' n).map φ = C n := by
  intro m
  induction m with
  | zero =>
    intro A B h
    rw [Finset.range_zero, Finset.sum_empty, Multiset.map_eq_zero] at h
    refine ⟨fun _ => 0, fun _ => 0, ?_, ?_, fun n h => by omega⟩
    · rw [Finset.range_zero, Finset.sum_empty]; exact (add_eq_zero.1 h).1
    · rw [Finset.range_zero, Finset.sum_empty]; exact (add_eq_zero.1 h).2
  | succ m ih =>
    intro A B h
    rw [Finset.sum_range_succ] at h
    obtain ⟨A1, B1, A2, B2, rfl, rfl, h3, h4⟩ := split_map_add φ _ _ A B h
    obtain ⟨A', B', e1, e2, e3⟩ := ih A1 B1 h3
    refine ⟨fun n => if n = m then A2 else A' n, fun n => if n = m then B2 else B' n, ?_, ?_, fun n hn => ?_⟩
    · rw [Finset.sum_range_succ, if_pos rfl, e1]
      congr 1
      exact Finset.sum_congr rfl fun n hn => by rw [if_neg]; have := Finset.mem_range.1 hn; omega
    · rw [Finset.sum_range_succ, if_pos rfl, e2]
      congr 1
      exact Finset.sum_congr rfl fun n hn => by rw [if_neg]; have := Finset.mem_range.1 hn; omega
    · by_cases hnm : n = m
      · subst hnm; simp only [if_true]; exact h4
      · simp only [if_neg hnm]; exact e3 n (by omega)

/-- Paths grouped twice, first by `p1` and then by `p2`, grouped once. -/
theorem regroup {α β : Type*} (φ : α → β) {accF : Nat → Multiset α} {accH : Nat → Multiset β} {p1 : Nat → Nat → Multiset β} {p2 : Nat → Nat → Multiset α}
    (h1 : ∀ m, accH m = ∑ n ∈ Finset.range (m + 1), p1 n (m - n)) (hD : ∀ n, ∃ D, ∀ k, D ≤ k → p1 n k = 0)
    (h2 : ∀ m, accF m = ∑ n ∈ Finset.range (m + 1), p2 n (m - n)) (h3 : ∀ n k, 2 ≤ k → p2 n k = 0)
    (h4 : ∀ n, (p2 n 0 + p2 n 1).map φ = accH n) :
    ∃ part : Nat → Nat → Multiset α, (∀ m, accF m = ∑ n ∈ Finset.range (m + 1), part n (m - n)) ∧
      ∀ n, ∃ D, (∀ k, D ≤ k → part n k = 0) ∧ ∀ D', (∀ k, D' ≤ k → p1 n k = 0) → (∑ k ∈ Finset.range D, part n k).map φ = ∑ k ∈ Finset.range D', p1 n k := by
  have hx : ∀ j, ∃ A' B' : Nat → Multiset α, p2 j 0 = ∑ n ∈ Finset.range (j + 1), A' n ∧ p2 j 1 = ∑ n ∈ Finset.range (j + 1), B' n ∧
      ∀ n, n < j + 1 → (A' n + B' n).map φ = p1 n (j - n) := by
    intro j
    refine split_map_sum φ (fun n => p1 n (j - n)) (j + 1) _ _ ?_
    rw [h4, h1]
  choose A B e1 e2 e3 using hx
  -- `q0 n k`, `q1 n k` are the shares of `p1 n k`
  have hq : ∀ n k, (A (n + k) n + B (n + k) n).map φ = p1 n k := by
    intro n k
    rw [e3 (n + k) n (by omega)]
    congr 1; omega
  refine ⟨fun n k => A (n + k) n + if k = 0 then 0 else B (n + (k - 1)) n, fun m => ?_, fun n => ?_⟩
  · rw [Finset.sum_add_distrib]
    have hA : ∑ n ∈ Finset.range (m + 1), A (n + (m - n)) n = p2 m 0 := by
      rw [e1]
      exact Finset.sum_congr rfl fun n hn => by
        have := Finset.mem_range.1 hn
        rw [show n + (m - n) = m by omega]
    rw [hA, h2]
    cases m with
    | zero => simp
    | succ m =>
      rw [Finset.sum_range_succ, Finset.sum_range_succ, Finset.sum_eq_zero, Nat.sub_self, Nat.add_sub_cancel_left, zero_add, add_comm (p2 m 1)]
      · congr 1
        rw [Finset.sum_range_succ, Nat.sub_self, if_pos rfl, add_zero, e2]
        exact Finset.sum_congr rfl fun n hn => by
          have := Finset.mem_range.1 hn
          rw [if_neg (by omega), show n + (m + 1 - n - 1) = m by omega]
      · intro n hn
        have := Finset.mem_range.1 hn
        exact h3 _ _ (by omega)
  · obtain ⟨D, hD⟩ := hD n
    have hz : ∀ k, p1 n k = 0 → A (n + k) n = 0 ∧ B (n + k) n = 0 := by
      intro k hk
      have := hq n k
      rw [hk, Multiset.map_eq_zero] at this
      exact add_eq_zero.1 this
    refine ⟨D + 1, fun k hk => ?_, fun D' hD' => ?_⟩
    · show A (n + k) n + (if k = 0 then 0 else B (n + (k - 1)) n) = 0
      rw [(hz k (hD k (by omega))).1, if_neg (by omega), (hz (k - 1) (hD _ (by omega))).2, add_zero]
    · have hs : ∀ E, (∀ k, E ≤ k → p1 n k = 0) → ∀ E', E ≤ E' → ∑ k ∈ Finset.range E', p1 n k = ∑ k ∈ Finset.range E, p1 n k := by
        intro E hE E' hle
        exact (Finset.sum_subset (Finset.range_mono hle) fun x _ hx => hE x (by simpa using hx)).symm
      have key : (∑ k ∈ Finset.range (D + 1), (A (n + k) n + if k = 0 then 0 else B (n + (k - 1)) n)) =
          ∑ k ∈ Finset.range D, (A (n + k) n + B (n + k) n) := by
        rw [Finset.sum_add_distrib, Finset.sum_add_distrib, Finset.sum_range_succ, (hz D (hD D (le_refl _))).1, add_zero]
        congr 1
        rw [Finset.sum_range_succ']
        simp
      show (∑ k ∈ Finset.range (D + 1), (A (n + k) n + if k = 0 then 0 else B (n + (k - 1)) n)).map φ = _
      rw [key]
      have hmap : (∑ k ∈ Finset.range D, (A (n + k) n + B (n + k) n)).map φ = ∑ k ∈ Finset.range D, p1 n k := by
        have : ∀ E, (∑ k ∈ Finset.range E, (A (n + k) n + B (n + k) n)).map φ = ∑ k ∈ Finset.range E, p1 n k := by
          intro E
          induction E with
          | zero => simp
          | succ E ih => rw [Finset.sum_range_succ, Finset.sum_range_succ, Multiset.map_add, ih, hq]
        exact this D
      rw [hmap]
      rcases Nat.le_total D D' with h | h
      · exact (hs D hD D' h).symm
      · exact hs D' hD' D h

/-! ### Factoring final weights -/

section
variable [MonoidWithZero V] [DecidableEq V] {d : Fst V} {factors : V → List (V × V)} {quantize : V → R V} {K J : V → Prop}

section
variable (hq : Exact factors quantize) (hd : d.WF) (hK : ∀ s v, d.finOf s = some v → v ≠ 0 → K v) (hJ : ∀ v, K v → ∀ p ∈ factors v, J p.1 ∧ K p.2)
include hq hd hK hJ

/-- The transitions and final weights of a reachable element. -/
theorem fw_final_only {e : FwElt V} (he : (fwMachine d factors quantize detFwOpts).Reach e) :
    ((∃ s, s < d.numStates ∧ e = ⟨some s, 1⟩) ∨ (e.state = none ∧ K e.weight)) := by
  induction he with
  | @start t h =>
    simp only [TupleOp.machine, fwOp, Option.map_eq_some_iff] at h
    obtain ⟨i, hi, rfl⟩ := h
    exact Or.inl ⟨i, hd.start_lt i hi, rfl⟩
  | @step t a ht ha ih =>
    rcases ih with ⟨s, hs, rfl⟩ | ⟨h1, h2⟩
    · rw [fw_trs_some hq 1 hs, List.mem_append] at ha
      rcases ha with ha | ha
      · obtain ⟨tr, htr, ha⟩ := List.mem_flatMap.1 ha
        rw [fwTrP, if_pos (Or.inl (show detFwOpts.factorTr = false from rfl)), List.mem_singleton] at ha
        subst ha
        exact Or.inl ⟨tr.nextstate, hd.next_lt s tr htr, rfl⟩
      · right
        cases hv : d.finOf s with
        | none => rw [hv] at ha; cases ha
        | some v =>
          rw [hv] at ha
          simp only at ha
          split at ha
          · cases ha
          · rename_i h0
            obtain ⟨p, hp, h3, -⟩ := mem_fwFinalsP _ _ _ a ha
            rw [one_mul] at hp
            rw [h3]
            exact ⟨rfl, (hJ v (hK s v hv (by tauto)) p hp).2⟩
    · right
      obtain ⟨st, w⟩ := t
      subst h1
      rw [fw_trs_none hq, if_neg (by simp [detFwOpts])] at ha
      obtain ⟨p, hp, h3, -⟩ := mem_fwFinalsP _ _ _ a ha
      rw [h3]
      exact ⟨rfl, (hJ w h2 p hp).2⟩

theorem fw_final_trs {e : FwElt V} (he : (fwMachine d factors quantize detFwOpts).Reach e) :
    ∃ l m, (fwMachine d factors quantize detFwOpts).trs e = l ++ m ∧
      (l = [] ∨ ∃ s, l = (d.trsOf s).map fun t => ⟨t.ilabel, t.olabel, t.weight, ⟨some t.nextstate, 1⟩⟩) ∧ ∀ a ∈ m, a.ilabel = EPS ∧ a.olabel = EPS ∧ J a.weight := by
  have hfin : ∀ w, K w → ∀ a ∈ fwFinalsP detFwOpts detFwOpts.finalIlabel detFwOpts.finalOlabel (factors w), a.ilabel = EPS ∧ a.olabel = EPS ∧ J a.weight := by
    intro w hw a ha
    rw [fwFinalsP_plain ⟨rfl, rfl, rfl, rfl⟩] at ha
    obtain ⟨p, hp, rfl⟩ := List.mem_map.1 ha
    exact ⟨rfl, rfl, (hJ w hw p hp).1⟩
  rcases fw_final_only hq hd hK hJ he with ⟨s, hs, rfl⟩ | ⟨h1, h2⟩
  · rw [fw_trs_some hq 1 hs]
    refine ⟨_, _, rfl, Or.inr ⟨s, ?_⟩, fun a ha => ?_⟩
    · generalize d.trsOf s = ts
      induction ts with
      | nil => rfl
      | cons t ts ih =>
        rw [List.flatMap_cons, ih, fwTrP, if_pos (Or.inl (show detFwOpts.factorTr = false from rfl)), one_mul]
        rfl
    · cases hv : d.finOf s with
      | none => rw [hv] at ha; cases ha
      | some v =>
        rw [hv] at ha
        simp only at ha
        split at ha
        · cases ha
        · rename_i h0
          rw [one_mul] at ha
          exact hfin v (hK s v hv (by tauto)) a ha
  · obtain ⟨st, w⟩ := e
    subst h1
    refine ⟨[], _, by rw [fw_trs_none hq, if_neg (by simp [detFwOpts]), List.nil_append], Or.inl rfl, hfin w h2⟩

theorem fw_final_fin {e : FwElt V} (he : (fwMachine d factors quantize detFwOpts).Reach e) {v : V}
    (h : (fwMachine d factors quantize detFwOpts).fin e = some v) : K v ∧ v ≠ 0 ∧ factors v = [] := by
  rcases fw_final_only hq hd hK hJ he with ⟨s, hs, rfl⟩ | ⟨h1, h2⟩
  · simp only [TupleOp.machine, fwFin_some 1 hs, one_mul] at h
    split at h
    · rename_i hc
      injection h with h
      subst h
      refine ⟨?_, hc.1, hc.2.resolve_left (by simp [detFwOpts])⟩
      cases hv : d.finOf s with
      | none => rw [hv] at hc; exact absurd rfl hc.1
      | some v => rw [hv] at hc; exact hK s v hv hc.1
    · cases h
  · obtain ⟨st, w⟩ := e
    subst h1
    simp only [TupleOp.machine, fwFin_none] at h
    split at h
    · rename_i hc
      injection h with h
      subst h
      exact ⟨h2, hc.1, hc.2.resolve_left (by simp [detFwOpts])⟩
    · cases h

end

/-- An FST whose weights have at most one label each, and the labels moved out of its weights. -/
theorem gallic_tail [MonoidWithZero W] [DecidableEq W] {extract : V → R (W × Label)} {mk : List Label → W → V} (hm : ∀ l m a b, mk l a * mk m b = mk (l ++ m) (a * b))
    (hR : ∀ v, J v → ∃ w l, extract v = .ok (w, l) ∧ v = mk (strip l) w)
    {H : Fst V} (hw : H.WF) (htr : ∀ s, ∀ t ∈ H.trsOf s, J t.weight ∧ t.ilabel = t.olabel) (hfin : ∀ s v, H.finOf s = some v → J v) :
    ∃ F : Fst W, H.weightConvert (fromGallic extract EPS) = .ok F ∧ F.WF ∧ F.AllCounters ∧
      ((∀ s, (((H.trsOf s).map (·.ilabel)).filter (· ≠ EPS)).Nodup) → ∀ s, (((F.trsOf s).map (·.ilabel)).filter (· ≠ EPS)).Nodup) ∧
      ∃ part : Nat → Nat → Multiset (PathT W), (∀ m, F.accPaths m = ∑ n ∈ Finset.range (m + 1), part n (m - n)) ∧ (∀ n k, 2 ≤ k → part n k = 0) ∧
      ∀ n, (part n 0 + part n 1).map (fun p => (p.1, p.1, mk p.2.1 p.2.2)) = H.accPaths n := by
  have hread : ∀ v, J v → extract v = .ok (readW extract v) ∧ ∀ w l, extract v = .ok (w, l) → v = mk (strip l) w := by
    intro v hv
    obtain ⟨w, l, h1, h2⟩ := hR v hv
    refine ⟨by rw [readW, h1], fun w' l' h' => ?_⟩
    rw [h1] at h'
    injection h' with h'
    injection h' with h3 h4
    rw [← h3, ← h4]; exact h2
  have hex : Extractable extract H :=
    ⟨fun s t ht => ⟨(hread _ (htr s t ht).1).1, (htr s t ht).2⟩, fun s v hv => (hread v (hfin s v hv)).1⟩
  cases hi : H.start with
  | none =>
    refine ⟨Fst.new, C60_no_start H _ hi, ⟨(by intro i h; cases h), (by intro s t h; cases s <;> cases h)⟩, ?_, ?_, fun _ _ => 0, ?_, ?_, ?_⟩
    · exact (freshStates_spec (V := W) 0).2.2.2.2.2
    · intro _ s
      rw [show (Fst.new : Fst W).trsOf s = [] by rw [Fst.trsOf_of_ge]; exact Nat.zero_le _]
      exact List.nodup_nil
    · intro m; rw [Fst.accPaths_none (by rfl)]; simp
    · intros; rfl
    · intro n; rw [Fst.accPaths_none hi]; rfl
  | some i =>
    obtain ⟨h1, h2⟩ := C60_from_gallic H extract EPS (by simp [hi])
    obtain ⟨F, hF⟩ := h1.2 hex
    obtain ⟨a, -⟩ := h2 F hF
    refine ⟨F, hF, ⟨fun j hj => ?_, fun s t ht => ?_⟩, a.counters, fun hnod s => ?_, C60_from_gallic_paths hw hF hm fun v w l hv ho => ?_⟩
    · have := hw.start_lt j (a.start.symm.trans hj)
      rcases a.num with e | e <;> omega
    · rcases (a.mem ht).2 with ⟨t', h3, h4⟩ | ⟨h3, -, h4⟩
      · have := hw.next_lt s t' h3
        rw [h4]
        simp only [plainTr]
        rcases a.num with e | e <;> omega
      · omega
    · by_cases hs : s < H.numStates
      · rw [a.trs s hs, List.map_append, List.filter_append, List.map_map]
        have : ((superTr extract EPS H.numStates (H.finOf s)).map (·.ilabel)).filter (· ≠ EPS) = [] := by
          cases H.finOf s with
          | none => rfl
          | some v => simp only [superTr]; split <;> simp
        rw [this, List.append_nil]
        exact hnod s
      · have : F.trsOf s = [] := by
          by_cases hs2 : s < F.numStates
          · have hn : F.numStates = H.numStates + 1 := by rcases a.num with e | e <;> omega
            have : s = H.numStates := by omega
            subst this
            exact (a.super hn).1
          · exact Fst.trsOf_of_ge (by omega)
        rw [this]; exact List.nodup_nil
    · rcases ho with ⟨s, t, ht, rfl⟩ | ⟨s, hs⟩
      · exact (hread _ (htr s t ht).1).2 w l hv
      · exact (hread _ (hfin s v hs)).2 w l hv


/-- The factored FST, and the labels moved out of its weights. -/
theorem det_tail [MonoidWithZero W] [DecidableEq W] {extract : V → R (W × Label)} {mk : List Label → W → V} (hm : ∀ l m a b, mk l a * mk m b = mk (l ++ m) (a * b))
    (hq : Exact factors quantize) (hd : d.WF) (hac : ∀ s, ∀ t ∈ d.trsOf s, t.ilabel = t.olabel) (hnd : ∀ s, ((d.trsOf s).map (·.ilabel)).Nodup)
    (hT : ∀ s, ∀ t ∈ d.trsOf s, J t.weight) (hK : ∀ s v, d.finOf s = some v → v ≠ 0 → K v) (hJ : ∀ v, K v → ∀ p ∈ factors v, J p.1 ∧ K p.2)
    (hKJ : ∀ v, K v → v ≠ 0 → factors v = [] → J v) (hR : ∀ v, J v → ∃ w l, extract v = .ok (w, l) ∧ v = mk (strip l) w)
    {n : Nat} {H : Fst V} (hH : factorWeight d factors quantize detFwOpts n = some (.ok H)) (hw : H.WF) :
    ∃ F : Fst W, H.weightConvert (fromGallic extract EPS) = .ok F ∧ F.WF ∧ F.AllCounters ∧
      (∀ s, (((F.trsOf s).map (·.ilabel)).filter (· ≠ EPS)).Nodup) ∧
      ∃ part : Nat → Nat → Multiset (PathT W), (∀ m, F.accPaths m = ∑ n ∈ Finset.range (m + 1), part n (m - n)) ∧ (∀ n k, 2 ≤ k → part n k = 0) ∧
      ∀ n, (part n 0 + part n 1).map (fun p => (p.1, p.1, mk p.2.1 p.2.2)) = H.accPaths n := by
  obtain ⟨-, -, nm, hp⟩ := fw_out hq hd hH
  have htr : ∀ s, ∀ t ∈ H.trsOf s, J t.weight ∧ t.ilabel = t.olabel := by
    intro s t ht
    obtain ⟨e, a, -, he, ha, h1, h2, h3, -⟩ := hp.trs_of s t ht
    obtain ⟨l, m, e1, e2, e3⟩ := fw_final_trs hq hd hK hJ he
    rw [e1, List.mem_append] at ha
    rw [h1, h2, h3]
    rcases ha with ha | ha
    · rcases e2 with rfl | ⟨q, rfl⟩
      · cases ha
      · obtain ⟨t', ht', rfl⟩ := List.mem_map.1 ha
        exact ⟨hT q t' ht', hac q t' ht'⟩
    · obtain ⟨a1, a2, a3⟩ := e3 a ha
      exact ⟨a3, by rw [a1, a2]⟩
  have hfin : ∀ s v, H.finOf s = some v → J v := by
    intro s v hv
    obtain ⟨e, -, he, hf⟩ := hp.fin_of hv
    obtain ⟨k1, k2, k3⟩ := fw_final_fin hq hd hK hJ he hf
    exact hKJ v k1 k2 k3
  have hnod : ∀ s, (((H.trsOf s).map (·.ilabel)).filter (· ≠ EPS)).Nodup := by
    intro s
    by_cases hs : s < H.numStates
    · obtain ⟨e, he⟩ := (hp.states s).1 hs
      have hf2 := hp.trs s e he
      have hl : (H.trsOf s).map (·.ilabel) = ((fwMachine d factors quantize detFwOpts).trs e).map (·.ilabel) := by
        revert hf2
        generalize H.trsOf s = l1
        generalize (fwMachine d factors quantize detFwOpts).trs e = l2
        intro hf2
        induction hf2 with
        | nil => rfl
        | cons hd _ ih => rw [List.map_cons, List.map_cons, ih, hd.1]
      obtain ⟨l, m, e1, e2, e3⟩ := fw_final_trs hq hd hK hJ ((hp.tuples e).2 ⟨s, he⟩)
      rw [hl, e1, List.map_append, List.filter_append]
      have : (m.map (·.ilabel)).filter (· ≠ EPS) = [] := by
        rw [List.filter_eq_nil_iff]
        intro x hx
        obtain ⟨a, ha, rfl⟩ := List.mem_map.1 hx
        simp [(e3 a ha).1]
      rw [this, List.append_nil]
      refine List.Nodup.filter _ ?_
      rcases e2 with rfl | ⟨q, rfl⟩
      · exact List.nodup_nil
      · rw [List.map_map]; exact hnd q
    · rw [Fst.trsOf_of_ge (by omega)]; exact List.nodup_nil
  obtain ⟨F, f1, f2, f3, f4, f5⟩ := gallic_tail hm hR hw htr hfin
  exact ⟨F, f1, f2, f3, f4 hnod, f5⟩

end
end Verif
