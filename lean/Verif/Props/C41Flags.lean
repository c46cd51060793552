import Verif.Props.C41
import Verif.Props.C42Flags

/-! # C51 for `factor_weight` -/

namespace Verif
universe u
variable {W : Type u}
open Lz

theorem factorWeight_bits {p : Props} (b : PropBit) (h : Props.factorWeight p b = true) : p b = true ∧
    (b ∈ [PropBit.acceptor, .acyclic, .accessible, .coaccessible] ∨
    (b ∈ [PropBit.notAcceptor, .notIDeterministic, .notODeterministic, .epsilons, .iEpsilons, .oEpsilons, .cyclic, .notILabelSorted, .notOLabelSorted] ∧
      p .accessible = true)) := by
  unfold Props.factorWeight at h
  simp only [Props.orIf_apply, Props.of_apply, Props.keep, Props.and_apply, Props.has] at h
  cases b <;> simp_all

section
variable [Zero W] [One W] [Mul W] [DecidableEq W] {f : Fst W} {factors : W → List (W × W)} {quantize : W → R W} {o : FwOpts}

omit [Zero W] in
theorem fwTrP_ne (w : W) (t : Tr W) : fwTrP factors o w t ≠ [] := by
  unfold fwTrP
  split
  · simp
  · rename_i h
    simp only [not_or] at h
    simpa using h.2

omit [Zero W] in
theorem fwTrP_labels {w : W} {t : Tr W} {a : MTr (FwElt W) W} (h : a ∈ fwTrP factors o w t) : a.ilabel = t.ilabel ∧ a.olabel = t.olabel := by
  unfold fwTrP at h
  split at h
  · simp only [List.mem_singleton] at h; subst h; exact ⟨rfl, rfl⟩
  · simp only [List.mem_map] at h; obtain ⟨p, _, rfl⟩ := h; exact ⟨rfl, rfl⟩

omit [Zero W] in
theorem fwTrP_sublist (w : W) : ∀ ts : List (Tr W), List.Sublist (ts.map fun t => (t.ilabel, t.olabel))
    ((ts.flatMap (fwTrP factors o w)).map fun a => (a.ilabel, a.olabel))
  | [] => by simp
  | t :: ts => by
    have ih := fwTrP_sublist w ts
    rw [List.flatMap_cons, List.map_append, List.map_cons]
    match hl : fwTrP factors o w t with
    | [] => exact absurd hl (fwTrP_ne w t)
    | a :: as =>
      have := fwTrP_labels (show a ∈ fwTrP factors o w t by rw [hl]; simp)
      rw [List.map_cons, this.1, this.2, List.cons_append]
      exact (ih.trans (List.sublist_append_right _ _)).cons₂ _

omit [Zero W] [One W] [Mul W] [DecidableEq W] in
theorem fwFinalsP_labels (hi : o.incIlabel = o.incOlabel) : ∀ (ps : List (W × W)) (l : Label), ∀ a ∈ fwFinalsP o l l ps, a.ilabel = a.olabel
  | [], _, a, h => by simp [fwFinalsP] at h
  | p :: ps, l, a, h => by
    rw [fwFinalsP] at h
    rcases List.mem_cons.1 h with rfl | h
    · rfl
    · rw [hi] at h
      exact fwFinalsP_labels hi ps _ a h

variable (hq : Exact factors quantize)
include hq

/-- The transitions of an element. -/
theorem fw_trs_some (w : W) {s} (hs : s < f.numStates) : (fwMachine f factors quantize o).trs ⟨some s, w⟩ =
    (f.trsOf s).flatMap (fwTrP factors o w) ++
      match f.finOf s with
      | none => []
      | some v => if o.factorFinal = false ∨ v = 0 then [] else fwFinalsP o o.finalIlabel o.finalOlabel (factors (w * v)) := by
  simp only [TupleOp.machine, fwTrs_some hq w hs]
  rfl

theorem fw_trs_none (w : W) : (fwMachine f factors quantize o).trs ⟨none, w⟩ =
    if o.factorFinal = false then [] else fwFinalsP o o.finalIlabel o.finalOlabel (factors w) := by
  simp only [TupleOp.machine, fwTrs_none hq w]

/-- The transitions of the input appear, with their labels, in the order of the input. -/
theorem fw_sublist (w : W) {s} (hs : s < f.numStates) : List.Sublist ((f.trsOf s).map fun t => (t.ilabel, t.olabel))
    (((fwMachine f factors quantize o).trs ⟨some s, w⟩).map fun a => (a.ilabel, a.olabel)) := by
  rw [fw_trs_some hq w hs, List.map_append]
  exact (fwTrP_sublist w _).trans (List.sublist_append_left _ _)

theorem fw_next_some (w : W) {s q} (hs : s < f.numStates) (h : f.Edge s q) : ∃ w', (fwMachine f factors quantize o).Next ⟨some s, w⟩ ⟨some q, w'⟩ := by
  obtain ⟨tr, htr, rfl⟩ := h
  obtain ⟨a, ha⟩ := List.exists_mem_of_ne_nil _ (fwTrP_ne (factors := factors) (o := o) w tr)
  obtain ⟨r, hr⟩ := mem_fwTrP ha
  refine ⟨r, a, ?_, hr⟩
  rw [fw_trs_some hq w hs]
  exact List.mem_append_left _ (List.mem_flatMap.2 ⟨tr, htr, ha⟩)

theorem fw_follow (hf : f.WF) {s q} (h : Relation.TransGen f.Edge s q) (w : W) (hs : s < f.numStates) :
    ∃ w', Relation.TransGen (fwMachine f factors quantize o).Next ⟨some s, w⟩ ⟨some q, w'⟩ ∧ q < f.numStates := by
  induction h with
  | single h =>
    obtain ⟨w', h'⟩ := fw_next_some (o := o) hq w hs h
    obtain ⟨tr, htr, rfl⟩ := h
    exact ⟨w', .single h', hf.next_lt _ _ htr⟩
  | tail _ h ih =>
    obtain ⟨w', h1, h2⟩ := ih
    obtain ⟨w'', h'⟩ := fw_next_some (o := o) hq w' h2 h
    obtain ⟨tr, htr, rfl⟩ := h
    exact ⟨w'', h1.tail h', hf.next_lt _ _ htr⟩

theorem fw_accessible (hf : f.WF) {s} (h : f.Accessible s) : ∃ w, (fwMachine f factors quantize o).Reach ⟨some s, w⟩ := by
  obtain ⟨i, h1, h2⟩ := h
  have h0 : (fwMachine f factors quantize o).Reach ⟨some i, 1⟩ := .start (by simp [TupleOp.machine, fwOp, h1])
  rcases Relation.reflTransGen_iff_eq_or_transGen.1 h2 with rfl | h
  · exact ⟨_, h0⟩
  · obtain ⟨w, h3, _⟩ := fw_follow (o := o) hq hf h 1 (hf.start_lt i h1)
    exact ⟨w, h0.next h3.to_reflTransGen⟩

/-- Where a step leads. -/
theorem fw_step {st : Option StateId} {w : W} {u : FwElt W} (hs : ∀ s, st = some s → s < f.numStates) (h : (fwMachine f factors quantize o).Next ⟨st, w⟩ u) :
    (∃ s q, st = some s ∧ u.state = some q ∧ f.Edge s q) ∨
    (u.state = none ∧ ∃ x, ∃ p ∈ factors x, u.weight = p.2 ∧ (st = none → x = w)) := by
  obtain ⟨a, ha, rfl⟩ := h
  cases st with
  | none =>
    rw [fw_trs_none hq] at ha
    split at ha
    · cases ha
    · obtain ⟨p, hp, e, _⟩ := mem_fwFinalsP _ _ _ _ ha
      exact .inr ⟨by rw [e], w, p, hp, by rw [e], fun _ => rfl⟩
  | some s =>
    rw [fw_trs_some hq w (hs s rfl)] at ha
    rcases List.mem_append.1 ha with ha | ha
    · obtain ⟨t, ht, hat⟩ := List.mem_flatMap.1 ha
      obtain ⟨r, e⟩ := mem_fwTrP hat
      exact .inl ⟨s, t.nextstate, rfl, by rw [e], t, ht, rfl⟩
    · cases hv : f.finOf s with
      | none => rw [hv] at ha; cases ha
      | some v =>
        rw [hv] at ha
        simp only at ha
        split at ha
        · cases ha
        · obtain ⟨p, hp, e, _⟩ := mem_fwFinalsP _ _ _ _ ha
          exact .inr ⟨by rw [e], w * v, p, hp, by rw [e], fun h => by cases h⟩

theorem fw_steps (hf : f.WF) {t u : FwElt W} (ht : (fwMachine f factors quantize o).Reach t) (depth : W → Nat) (hd : ∀ w, ∀ p ∈ factors w, depth p.2 < depth w)
    (h : Relation.TransGen (fwMachine f factors quantize o).Next t u) :
    (∃ s q, t.state = some s ∧ u.state = some q ∧ Relation.TransGen f.Edge s q) ∨
    (u.state = none ∧ (t.state = none → depth u.weight < depth t.weight)) := by
  have step : ∀ {t u}, (fwMachine f factors quantize o).Reach t → (fwMachine f factors quantize o).Next t u →
      (∃ s q, t.state = some s ∧ u.state = some q ∧ f.Edge s q) ∨ (u.state = none ∧ (t.state = none → depth u.weight < depth t.weight)) := by
    intro t u ht h
    rcases fw_step hq (fw_reach_lt hq hf t ht) h with h | ⟨h1, x, p, hp, h2, h3⟩
    · exact .inl h
    · refine .inr ⟨h1, fun h4 => ?_⟩
      have := hd x p hp
      rw [← h2, h3 h4] at this
      exact this
  induction h with
  | single h =>
    rcases step ht h with ⟨s, q, h1, h2, h3⟩ | h
    · exact .inl ⟨s, q, h1, h2, .single h3⟩
    · exact .inr h
  | tail h' h ih =>
    have hr := ht.next h'.to_reflTransGen
    rcases step hr h with ⟨s, q, h1, h2, h3⟩ | ⟨h1, h2⟩
    · rcases ih with ⟨s', q', h4, h5, h6⟩ | ⟨h4, _⟩
      · rw [h5] at h1
        injection h1 with h1
        subst h1
        exact .inl ⟨s', q, h4, h2, h6.tail h3⟩
      · rw [h4] at h1; cases h1
    · refine .inr ⟨h1, fun h3 => ?_⟩
      rcases ih with ⟨s', q', h4, h5, h6⟩ | ⟨h4, h5⟩
      · rw [h4] at h3; cases h3
      · have := h2 h4
        have := h5 h3
        omega

/-- What `factor_weight` returns presents the machine. -/
theorem fw_out (hf : f.WF) {n : Nat} {F : Fst W} (h : factorWeight f factors quantize o n = some (.ok F)) :
    {e | (fwMachine f factors quantize o).Reach e}.Finite ∧
    F.props = (if (fwMachine f factors quantize o).start = none then Props.nullMask else Props.factorWeight f.props) ∧
      ∃ nm, (fwMachine f factors quantize o).Presents nm F := by
  unfold factorWeight fwNew at h
  split at h
  · cases h
  · rename_i op hop
    split at hop
    · cases hop
    · injection hop with hop
      subst hop
      simp only [Option.map_eq_some_iff] at h
      obtain ⟨⟨r, z'⟩, h1, h2⟩ := h
      simp only at h2
      obtain ⟨h3, F', h4, _, _, h5, nm, h6, _⟩ := C38_returns mapCache_law FwTable.law FwTable.findTuple_eq (fwOp f factors quantize o) (fwMachine f factors quantize o)
        rfl (fun t ht => (fw_no_error hq hf t ht).1) (fun t ht => (fw_no_error hq hf t ht).2) (FwTable.ok_new _)
        (fun s => by simp [FwTable.tup, FwTable.byLeft, FwTable.new]) h1
      rw [h2] at h4
      injection h4 with h4
      subst h4
      exact ⟨h3, h5, nm, h6⟩

/-- A final weight that is left is given off in the end. -/
theorem fw_finish (depth : W → Nat) (hd : ∀ w, ∀ p ∈ factors w, depth p.2 < depth w) (hne : ∀ w, ∀ p ∈ factors w, p.2 ≠ 0) :
    ∀ k (w : W), depth w < k → w ≠ 0 → ∃ u, Relation.ReflTransGen (fwMachine f factors quantize o).Next ⟨none, w⟩ u ∧ ((fwMachine f factors quantize o).fin u).isSome
  | 0, _, h, _ => by omega
  | k + 1, w, h, h0 => by
    by_cases hc : o.factorFinal = false ∨ factors w = []
    · refine ⟨_, .refl, ?_⟩
      simp only [TupleOp.machine, fwFin_none]
      rw [if_pos ⟨h0, hc⟩]
      rfl
    · simp only [not_or] at hc
      match hl : factors w with
      | [] => exact absurd hl hc.2
      | p :: ps =>
        have hp : p ∈ factors w := by rw [hl]; simp
        obtain ⟨u, h1, h2⟩ := fw_finish depth hd hne k p.2 (by have := hd w p hp; omega) (hne w p hp)
        refine ⟨u, .head ⟨⟨o.finalIlabel, o.finalOlabel, p.1, ⟨none, p.2⟩⟩, ?_, rfl⟩ h1, h2⟩
        rw [fw_trs_none hq, if_neg hc.1, hl]
        exact List.mem_cons_self ..

/-- C51 for `factor_weight`: for a well formed FST with truthful flags, when factoring comes to an end and `factor_weight` returns, all flags of the result
are true, except possibly `ACCEPTOR` and `COACCESSIBLE`. `ACCEPTOR` is true if the labels for final weights are the same on both sides, or if final weights
are not factored. `COACCESSIBLE` is true if final weights and second factors are not zero and neither are their products; here `K` is a set that contains one
and all second factors. -/
theorem C41_flags (hfac : Factoring factors) (hf : f.WF) (ht : f.Truthful) {n : Nat} {F : Fst W} (h : factorWeight f factors quantize o n = some (.ok F)) :
    (∀ b, b ≠ .acceptor → b ≠ .coaccessible → F.props b = true → F.Holds b) ∧
    (o.factorFinal = false ∨ (o.finalIlabel = o.finalOlabel ∧ o.incIlabel = o.incOlabel) → F.props .acceptor = true → F.Holds .acceptor) ∧
    (∀ K : W → Prop, (∀ s, f.finOf s ≠ some 0) → (∀ a, K a → a ≠ 0) → K 1 → (∀ w, ∀ p ∈ factors w, K p.2) →
      (∀ a, K a → ∀ s v, f.finOf s = some v → a * v ≠ 0) → F.props .coaccessible = true → F.Holds .coaccessible) := by
  obtain ⟨depth, hd⟩ := hfac
  obtain ⟨hfin, hp, nm, H⟩ := fw_out hq hf h
  by_cases hst : (fwMachine f factors quantize o).start = none
  · rw [if_pos hst] at hp
    have := presents_none H hst hp
    subst this
    exact ⟨fun b _ _ => Fst.truthful_new b, fun _ => Fst.truthful_new _, fun _ _ _ _ _ _ => Fst.truthful_new _⟩
  rw [if_neg hst] at hp
  have hlt : ∀ {s tr}, tr ∈ f.trsOf s → s < f.numStates := by
    intro s tr htr
    by_contra hc
    unfold Fst.trsOf at htr
    rw [List.getElem?_eq_none (by simpa [Fst.numStates] using hc)] at htr
    cases htr
  -- the labels of every state of the input appear in the result
  have hsub : f.props .accessible = true → ∀ s, s < f.numStates → ∃ q, List.Sublist ((f.trsOf s).map fun t => (t.ilabel, t.olabel))
      ((F.trsOf q).map fun t => (t.ilabel, t.olabel)) := by
    intro hb s hs
    obtain ⟨w, hw⟩ := fw_accessible (o := o) hq hf (ht _ hb s hs)
    obtain ⟨q, hq'⟩ := (H.tuples _).1 hw
    refine ⟨q, ?_⟩
    have h1 := fw_sublist (factors := factors) (quantize := quantize) (o := o) hq w hs
    have h2 : ((F.trsOf q).map fun t => (t.ilabel, t.olabel)) = ((fwMachine f factors quantize o).trs ⟨some s, w⟩).map fun a => (a.ilabel, a.olabel) := by
      have := H.trs q _ hq'
      generalize F.trsOf q = l at this
      generalize (fwMachine f factors quantize o).trs ⟨some s, w⟩ = m at this
      induction this with
      | nil => rfl
      | cons hd _ ih => rw [List.map_cons, List.map_cons, ih, hd.1, hd.2.1]
    rw [h2]; exact h1
  have hsome : f.props .accessible = true → ∀ s, ∀ tr ∈ f.trsOf s, ∃ q, ∃ tr' ∈ F.trsOf q, tr'.ilabel = tr.ilabel ∧ tr'.olabel = tr.olabel := by
    intro hb s tr htr
    obtain ⟨q, hq'⟩ := hsub hb s (hlt htr)
    have := hq'.subset (List.mem_map_of_mem (f := fun t : Tr W => (t.ilabel, t.olabel)) htr)
    obtain ⟨tr', h1, h2⟩ := List.mem_map.1 this
    simp only [Prod.mk.injEq] at h2
    exact ⟨q, tr', h1, h2⟩
  have hiSub : f.props .accessible = true → ∀ s, ∃ q, List.Sublist ((f.trsOf s).map (·.ilabel)) ((F.trsOf q).map (·.ilabel)) := by
    intro hb s
    by_cases hs : s < f.numStates
    · obtain ⟨q, hq'⟩ := hsub hb s hs
      refine ⟨q, ?_⟩
      have := hq'.map Prod.fst
      simpa only [List.map_map, Function.comp_def] using this
    · refine ⟨0, ?_⟩
      have : f.trsOf s = [] := by
        unfold Fst.trsOf
        rw [List.getElem?_eq_none (by simpa [Fst.numStates] using hs)]
      rw [this]; simp
  have hoSub : f.props .accessible = true → ∀ s, ∃ q, List.Sublist ((f.trsOf s).map (·.olabel)) ((F.trsOf q).map (·.olabel)) := by
    intro hb s
    by_cases hs : s < f.numStates
    · obtain ⟨q, hq'⟩ := hsub hb s hs
      refine ⟨q, ?_⟩
      have := hq'.map Prod.snd
      simpa only [List.map_map, Function.comp_def] using this
    · refine ⟨0, ?_⟩
      have : f.trsOf s = [] := by
        unfold Fst.trsOf
        rw [List.getElem?_eq_none (by simpa [Fst.numStates] using hs)]
      rw [this]; simp
  refine ⟨fun b hb1 hb2 hb => ?_, fun hlab hb => ?_, fun K h0 hK h1 hneK hmul hb => ?_⟩
  · rw [hp] at hb
    obtain ⟨hb0, hb⟩ := factorWeight_bits b hb
    have hfb := ht b hb0
    rcases hb with hb | ⟨hb, hacc⟩
    · simp only [List.mem_cons, List.not_mem_nil, or_false] at hb
      rcases hb with rfl | rfl | rfl | rfl
      · exact absurd rfl hb1
      · refine H.holds_acyclic.2 fun t h1 hc => ?_
        rcases fw_steps hq hf h1 depth hd hc with ⟨s, q, e1, e2, e3⟩ | ⟨e1, e2⟩
        · rw [e1] at e2
          injection e2 with e2
          subst e2
          exact hfb ⟨s, e3⟩
        · have := e2 e1; omega
      · exact H.accessible
      · exact absurd rfl hb2
    · simp only [List.mem_cons, List.not_mem_nil, or_false] at hb
      rcases hb with rfl | rfl | rfl | rfl | rfl | rfl | rfl | rfl | rfl
      · intro hc
        refine hfb fun s tr htr => ?_
        obtain ⟨q, tr', h1, h2, h3⟩ := hsome hacc s tr htr
        rw [← h2, ← h3]; exact hc q tr' h1
      · intro hc
        refine hfb fun s => ?_
        obtain ⟨q, h1⟩ := hiSub hacc s
        exact h1.nodup (hc q)
      · intro hc
        refine hfb fun s => ?_
        obtain ⟨q, h1⟩ := hoSub hacc s
        exact h1.nodup (hc q)
      · obtain ⟨s, tr, htr, e1, e2⟩ := hfb
        obtain ⟨q, tr', h1, h2, h3⟩ := hsome hacc s tr htr
        exact ⟨q, tr', h1, h2.trans e1, h3.trans e2⟩
      · obtain ⟨s, tr, htr, e1⟩ := hfb
        obtain ⟨q, tr', h1, h2, h3⟩ := hsome hacc s tr htr
        exact ⟨q, tr', h1, h2.trans e1⟩
      · obtain ⟨s, tr, htr, e1⟩ := hfb
        obtain ⟨q, tr', h1, h2, h3⟩ := hsome hacc s tr htr
        exact ⟨q, tr', h1, h3.trans e1⟩
      · obtain ⟨s, hs⟩ := hfb
        have hl : s < f.numStates := by
          obtain ⟨_, _, tr, htr, rfl⟩ := Relation.TransGen.tail'_iff.1 hs
          exact hf.next_lt _ tr htr
        obtain ⟨w, hw⟩ := fw_accessible (o := o) hq hf (ht _ hacc s hl)
        obtain ⟨u, ⟨hu, _⟩, hc⟩ := exists_self_of_succ (A := {t | (fwMachine f factors quantize o).Reach t ∧ t.state = some s})
          (r := (fwMachine f factors quantize o).Next) (hfin.subset fun t ht => ht.1) ⟨_, hw, rfl⟩ (by
            rintro ⟨st, w⟩ ⟨h1, h2⟩
            simp only at h2
            subst h2
            obtain ⟨w', h3, _⟩ := fw_follow (o := o) hq hf hs w hl
            exact ⟨_, ⟨h1.next h3.to_reflTransGen, rfl⟩, h3⟩)
        exact H.holds_cyclic.2 ⟨u, hu, hc⟩
      · intro hc
        refine hfb fun s => ?_
        obtain ⟨q, h1⟩ := hiSub hacc s
        exact (hc q).sublist h1
      · intro hc
        refine hfb fun s => ?_
        obtain ⟨q, h1⟩ := hoSub hacc s
        exact (hc q).sublist h1
  · rw [hp] at hb
    have hfb := ht _ (factorWeight_bits _ hb).1
    refine H.all_trs (fun a b _ => a = b) ?_
    rintro ⟨st, w⟩ hr a ha
    have hfinal : ∀ ps, a ∈ (if o.factorFinal = false then [] else fwFinalsP o o.finalIlabel o.finalOlabel ps) → a.ilabel = a.olabel := by
      intro ps ha
      rcases hlab with hl | ⟨hl1, hl2⟩
      · rw [if_pos hl] at ha; cases ha
      · split at ha
        · cases ha
        · rw [← hl1] at ha
          exact fwFinalsP_labels hl2 _ _ a ha
    cases st with
    | none =>
      rw [fw_trs_none hq] at ha
      exact hfinal _ ha
    | some s =>
      rw [fw_trs_some hq w (fw_reach_lt hq hf _ hr s rfl)] at ha
      rcases List.mem_append.1 ha with ha | ha
      · obtain ⟨tr, htr, ha⟩ := List.mem_flatMap.1 ha
        rw [(fwTrP_labels ha).1, (fwTrP_labels ha).2]
        exact hfb s tr htr
      · cases hv : f.finOf s with
        | none => rw [hv] at ha; cases ha
        | some v =>
          rw [hv] at ha
          simp only at ha
          split at ha
          · cases ha
          · rename_i hc
            simp only [not_or] at hc
            exact hfinal (factors (w * v)) (by rw [if_neg hc.1]; exact ha)
  · rw [hp] at hb
    have hfb := ht _ (factorWeight_bits _ hb).1
    have hne : ∀ w, ∀ p ∈ factors w, p.2 ≠ 0 := fun w p hp => hK _ (hneK w p hp)
    -- weights that are kept are in `K`
    have hw0 : ∀ t, (fwMachine f factors quantize o).Reach t → K t.weight := by
      intro t htr
      cases htr with
      | start h =>
        simp only [TupleOp.machine, fwOp, Option.map_eq_some_iff] at h
        obtain ⟨i, _, rfl⟩ := h
        exact h1
      | @step t a hr ha =>
        obtain ⟨st, w⟩ := t
        cases st with
        | none =>
          rw [fw_trs_none hq] at ha
          split at ha
          · cases ha
          · obtain ⟨p, hp, e, _⟩ := mem_fwFinalsP _ _ _ _ ha
            rw [e]; exact hneK _ p hp
        | some s =>
          rw [fw_trs_some hq w (fw_reach_lt hq hf _ hr s rfl)] at ha
          rcases List.mem_append.1 ha with ha | ha
          · obtain ⟨tr, htr, ha⟩ := List.mem_flatMap.1 ha
            unfold fwTrP at ha
            split at ha
            · simp only [List.mem_singleton] at ha; subst ha; exact h1
            · simp only [List.mem_map] at ha; obtain ⟨p, hp, rfl⟩ := ha; exact hneK _ p hp
          · cases hv : f.finOf s with
            | none => rw [hv] at ha; cases ha
            | some v =>
              rw [hv] at ha
              simp only at ha
              split at ha
              · cases ha
              · obtain ⟨p, hp, e, _⟩ := mem_fwFinalsP _ _ _ _ ha
                rw [e]; exact hneK _ p hp
    refine H.holds_coaccessible ?_
    rintro ⟨st, w⟩ hr
    cases st with
    | none => exact fw_finish hq depth hd hne (depth w + 1) w (by omega) (hK _ (hw0 _ hr))
    | some s =>
      have hs := fw_reach_lt hq hf _ hr s rfl
      obtain ⟨q, h2, h3⟩ := hfb s hs
      obtain ⟨w', h4, hqlt⟩ : ∃ w', Relation.ReflTransGen (fwMachine f factors quantize o).Next ⟨some s, w⟩ ⟨some q, w'⟩ ∧ q < f.numStates := by
        rcases Relation.reflTransGen_iff_eq_or_transGen.1 h2 with rfl | h2
        · exact ⟨w, .refl, hs⟩
        · obtain ⟨w', e1, e2⟩ := fw_follow (o := o) hq hf h2 w hs
          exact ⟨w', e1.to_reflTransGen, e2⟩
      have hr' := hr.next h4
      obtain ⟨v, hv⟩ := Option.isSome_iff_exists.1 h3
      have hv0 : v ≠ 0 := by
        rintro rfl
        exact h0 q hv
      have hwv := hmul w' (hw0 _ hr') q v hv
      by_cases hc : o.factorFinal = false ∨ factors (w' * v) = []
      · refine ⟨_, h4, ?_⟩
        simp only [TupleOp.machine, fwFin_some w' hqlt, hv, Option.getD_some]
        rw [if_pos ⟨hwv, hc⟩]
        rfl
      · simp only [not_or] at hc
        match hl : factors (w' * v) with
        | [] => exact absurd hl hc.2
        | p :: ps =>
          have hp : p ∈ factors (w' * v) := by rw [hl]; simp
          obtain ⟨u, e1, e2⟩ := fw_finish (f := f) (o := o) hq depth hd hne (depth p.2 + 1) p.2 (by omega) (hne _ p hp)
          refine ⟨u, h4.trans (.head ⟨⟨o.finalIlabel, o.finalOlabel, p.1, ⟨none, p.2⟩⟩, ?_, rfl⟩ e1), e2⟩
          rw [fw_trs_some hq w' hqlt, hv]
          simp only
          rw [if_neg (by simp only [not_or]; exact ⟨hc.1, hv0⟩), hl]
          exact List.mem_append_right _ (List.mem_cons_self ..)

end

/-! ### Concrete cases -/

/-- One transition with a string, a final string, the flags that are true of it. -/
def exFwFlags : Fst StrW := ⟨[⟨none, [⟨7, 0, .labels [1, 2, 3], 1⟩], 0, 1⟩, ⟨some (.labels [4, 5]), [], 0, 0⟩], some 0,
  Props.of [.acyclic, .accessible, .coaccessible, .oEpsilons, .notAcceptor]⟩

theorem exFwFlags_trs : ∀ s, ∀ tr ∈ exFwFlags.trsOf s, s = 0 ∧ tr = ⟨7, 0, .labels [1, 2, 3], 1⟩ := by
  intro s tr h
  match s, h with
  | 0, h => simp [exFwFlags, Fst.trsOf] at h; exact ⟨rfl, h⟩
  | 1, h => simp [exFwFlags, Fst.trsOf] at h
  | n + 2, h => simp [exFwFlags, Fst.trsOf] at h

theorem exFwFlags_truthful : exFwFlags.Truthful := by
  have e1 : exFwFlags.Edge 0 1 := ⟨_, List.mem_singleton_self _, rfl⟩
  intro b hb
  have : b ∈ [PropBit.acyclic, .accessible, .coaccessible, .oEpsilons, .notAcceptor] := by
    have h := hb
    simp only [exFwFlags, Props.of_apply, decide_eq_true_eq] at h
    exact h
  simp only [List.mem_cons, List.not_mem_nil, or_false] at this
  rcases this with rfl | rfl | rfl | rfl | rfl
  · refine Fst.acyclic_of_topSorted fun s tr h => ?_
    obtain ⟨rfl, rfl⟩ := exFwFlags_trs s tr h
    exact Nat.zero_lt_one
  · intro s hs
    have h3 : s < 2 := hs
    match s, h3 with
    | 0, _ => exact ⟨0, rfl, .refl⟩
    | 1, _ => exact ⟨0, rfl, .single e1⟩
  · intro s hs
    have h3 : s < 2 := hs
    match s, h3 with
    | 0, _ => exact ⟨1, .single e1, rfl⟩
    | 1, _ => exact ⟨1, .refl, rfl⟩
  · exact ⟨0, _, List.mem_singleton_self _, rfl⟩
  · intro h
    exact absurd (h 0 _ (List.mem_singleton_self _)) (by decide)

/-- All hypotheses of `C41_flags` are met, and the flags are kept. -/
example : ∃ F, factorWeight exFwFlags stringFactor strQuantize exFwOpts 10 = some (.ok F) ∧ F.numStates = 6 ∧
    (∀ b, b ∈ [PropBit.acyclic, .accessible, .coaccessible, .oEpsilons, .notAcceptor] → F.props b = true) ∧ F.Truthful := by
  obtain ⟨F, hF, h2⟩ := out_of_ok (x := factorWeight exFwFlags stringFactor strQuantize exFwOpts 10)
    (fun F => (F.numStates, [PropBit.acyclic, .accessible, .coaccessible, .oEpsilons, .notAcceptor].all F.props)) (b := (6, true)) (by rfl)
  simp only [Prod.mk.injEq, List.all_eq_true] at h2
  refine ⟨F, hF, h2.1, h2.2, ?_⟩
  clear h2
  have hwf : exFwFlags.WF := ⟨by simp [exFwFlags, Fst.numStates], fun s tr h => by
    obtain ⟨rfl, rfl⟩ := exFwFlags_trs s tr h
    exact Nat.one_lt_two⟩
  obtain ⟨h1, h2, h3⟩ := C41_flags string_laws.1 string_laws.2.1 hwf exFwFlags_truthful
    hF
  intro b hb
  by_cases hb1 : b = .acceptor
  · subst hb1; exact h2 (.inr ⟨rfl, rfl⟩) hb
  · by_cases hb2 : b = .coaccessible
    · subst hb2
      have hnz : ∀ s, exFwFlags.finOf s ≠ some 0 := by
        intro s
        match s with
        | 0 => simp [Fst.finOf, exFwFlags]
        | 1 => show some (StrW.labels [4, 5]) ≠ some .inf; simp
        | n + 2 => simp [Fst.finOf, exFwFlags]
      refine h3 (· ≠ 0) hnz (fun a h => h) (by decide) ?_ (fun a ha s v hv => ?_) hb
      · intro w p hp
        match w, hp with
        | .labels (a :: l), hp =>
          simp only [stringFactor, List.mem_singleton] at hp
          subst hp
          show StrW.labels l ≠ .inf
          simp
      · have hv0 : v ≠ 0 := fun h => hnz s (h ▸ hv)
        rcases a with _ | a
        · exact absurd rfl ha
        rcases v with _ | b
        · exact absurd rfl hv0
        · show StrW.labels _ ≠ .inf
          simp
    · exact h1 b hb1 hb2 hb

/-- A state with final weight zero. -/
def exFwZero : Fst StrW := ⟨[⟨some .inf, [], 0, 0⟩], some 0, Props.of [.coaccessible]⟩

/-- Defect: `COACCESSIBLE` is kept although a final weight zero is dropped. -/
theorem C41_coaccessible_defect : exFwZero.Truthful ∧ ∃ F, factorWeight exFwZero stringFactor strQuantize exFwOpts 10 = some (.ok F) ∧
    F.props .coaccessible = true ∧ ¬ F.Holds .coaccessible := by
  refine ⟨?_, _, rfl, rfl, ?_⟩
  · intro b hb
    cases b <;> first | (exact absurd hb (by decide)) | skip
    intro s hs
    have : s = 0 := by simpa [exFwZero, Fst.numStates] using hs
    subst this
    exact ⟨0, .refl, rfl⟩
  · intro h
    obtain ⟨q, _, hq⟩ := h 0 (by decide)
    match q, hq with
    | 0, hq => cases hq
    | n + 1, hq => cases hq

end Verif
