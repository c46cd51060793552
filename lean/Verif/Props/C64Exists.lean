import Verif.Props.C64Delayed

/-! # C51 for the flags of a delayed union, concatenation or closure that say that something exists -/

namespace Verif
universe u
variable {W : Type u}
open Lz

section
variable [Zero W] [One W] [DecidableEq W] {list : List (Label × Fst W)} {root : Label} {r : Nat}

/-- The FST that `replace` returns is the machine of the network of the list. -/
theorem replace_net (hwf : ∀ p ∈ list, p.2.WF) (hr : namedBy list root = some r) {n : Nat} {F : Fst W} (hF : replace list root false n = some (.ok F)) :
    ∃ (N : RNet W) (nm : StateId → Option RCfg), N.machine.Presents nm F ∧ N.root = r ∧ (∀ i, N.fst i = (list[i]?.map (·.2)).getD ⟨[], none, fun _ => false⟩) ∧
      ∀ tr, N.callee tr = if tr.olabel = EPS then none else namedBy list tr.olabel := by
  obtain ⟨g, h1, h2, h3, h4, h5⟩ := RGrammar.new_net false hr hwf
  obtain ⟨F', ⟨N, hN⟩, _, _, e4, nm, e5⟩ := replace_present h1 h2 (.inr ⟨n, by rw [hF]; simp⟩)
  obtain rfl : F' = F := by
    have h6 : ∀ m, n ≤ m → replace list root false m = some (.ok F) := by
      intro m hm
      rw [replace_run h1] at hF ⊢
      simp only [Option.map_eq_some_iff] at hF ⊢
      obtain ⟨⟨a, z⟩, h4, h5⟩ := hF
      refine ⟨(a, z), ?_, h5⟩
      induction m, hm using Nat.le_induction with
      | base => exact h4
      | succ m _ ih => exact compute_more _ _ ih
    have h7 := hN (max N n) (Nat.le_max_left _ _)
    rw [h6 _ (Nat.le_max_right _ _)] at h7
    injection h7 with h7
    injection h7 with h7
    exact h7.symm
  refine ⟨g.net, nm, e5, h3, fun i => ?_, fun tr => ?_⟩
  · have : g.net.rtn.fst i = (rtnOf list false).fst i := by rw [h4]
    exact this
  · have : g.net.rtn.callee tr = (rtnOf list false).callee tr := by rw [h4]
    exact this

/-- An FST of the list that calls nothing and that the root calls from its start is part of the FST that `replace` returns: what exists in it exists there. -/
theorem replace_copies (hwf : ∀ p ∈ list, p.2.WF) (hr : namedBy list root = some r) {n : Nat} {F : Fst W} (hF : replace list root false n = some (.ok F))
    {R f : Fst W} {i : StateId} {t0 : Tr W} {k : Nat} (hR : list[r]?.map (·.2) = some R) (hi : R.start = some i) (ht0 : t0 ∈ R.trsOf i) (h0 : t0.olabel ≠ EPS)
    (hk : namedBy list t0.olabel = some k) (hf : list[k]?.map (·.2) = some f) (hn : ∀ s, ∀ t ∈ f.trsOf s, t.olabel = EPS ∨ namedBy list t.olabel = none)
    (ha : f.Holds .accessible) {b : PropBit} (hb : b ∈ [PropBit.notAcceptor, .notIDeterministic, .notODeterministic, .epsilons, .iEpsilons, .oEpsilons,
      .notILabelSorted, .notOLabelSorted, .weighted, .weightedCycles, .cyclic, .notCoaccessible])
    (h : f.Holds b ∨ (b = .weightedCycles ∧ (t0.nextstate = i ∨ ∃ t1 ∈ R.trsOf t0.nextstate, t1.olabel = EPS ∧ t1.nextstate = i) ∧ (∀ s, f.finOf s ≠ some 0) ∧
      f.Holds .weighted ∧ f.Holds .coaccessible)) : F.Holds b := by
  obtain ⟨N, nm, H, hroot, hfst, hcallee⟩ := replace_net hwf hr hF
  have eR : N.fst N.root = R := by rw [hfst, hroot, hR]; rfl
  have ef : N.fst k = f := by rw [hfst, hf]; rfl
  let C : StateId → RCfg := fun s => ⟨[⟨N.root, t0.nextstate⟩], k, s⟩
  have hnone : ∀ s, ∀ t ∈ f.trsOf s, N.callee t = none := by
    intro s t ht
    rw [hcallee]
    split
    · rfl
    · next hc => exact (hn s t ht).resolve_left hc
  have htrs : ∀ s, N.machine.trs (C s) = N.retTr (C s) ++ (f.trsOf s).map fun t => ⟨t.ilabel, t.olabel, t.weight, C t.nextstate⟩ := by
    intro s
    rw [RNet.machine_trs]
    congr 1
    show ((N.fst k).trsOf s).flatMap _ = _
    rw [ef, List.map_eq_flatMap]
    refine List.flatMap_congr fun t ht => ?_
    simp only [RNet.stepTr, hnone s t ht]
    rfl
  have hmem : ∀ {s t}, t ∈ f.trsOf s → (⟨t.ilabel, t.olabel, t.weight, C t.nextstate⟩ : MTr RCfg W) ∈ N.machine.trs (C s) := by
    intro s t ht
    rw [htrs]
    exact List.mem_append_right _ (List.mem_map.2 ⟨t, ht, rfl⟩)
  have hnext : ∀ {s q}, f.Edge s q → N.machine.Next (C s) (C q) := by
    rintro s q ⟨t, ht, rfl⟩
    exact ⟨_, hmem ht, rfl⟩
  have hdown : ∀ s, s < f.numStates → Relation.ReflTransGen N.machine.Next ⟨[], N.root, i⟩ (C s) := by
    intro s hs
    obtain ⟨q, hq, hqs⟩ := ha s hs
    have h2 : N.machine.Next ⟨[], N.root, i⟩ (C q) := by
      refine ⟨⟨N.callIn t0, N.callOut t0, t0.weight, C q⟩, ?_, rfl⟩
      rw [RNet.machine_trs]
      refine List.mem_append_right _ (List.mem_flatMap.2 ⟨t0, by rw [eR]; exact ht0, ?_⟩)
      have : N.callee t0 = some k := by rw [hcallee, if_neg h0, hk]
      simp only [RNet.stepTr, this, ef, hq]
      exact List.mem_singleton.2 rfl
    exact .head h2 (Relation.ReflTransGen.lift C (fun _ _ h => hnext h) _ _ hqs)
  have hreach : ∀ s, s < f.numStates → N.machine.Reach (C s) := by
    intro s hs
    have h1 : N.machine.Reach ⟨[], N.root, i⟩ := .start (by simp only [RNet.machine]; rw [eR, hi]; rfl)
    exact h1.next (hdown s hs)
  have hlt : ∀ {s t}, t ∈ f.trsOf s → s < f.numStates := by
    intro s t ht
    by_contra hc
    rw [Fst.trsOf_of_ge (not_lt.1 hc)] at ht
    cases ht
  have hsome : ∀ (P : Label → Label → W → Prop) {s t}, t ∈ f.trsOf s → P t.ilabel t.olabel t.weight → ∃ s, ∃ tr ∈ F.trsOf s, P tr.ilabel tr.olabel tr.weight :=
    fun P s t ht hp => H.some_tr P (hreach s (hlt ht)) (hmem ht) hp
  have hlistI : ∀ (P : List Label → Prop), P [] → (∀ l l', P (l ++ l') → P l') → (¬ ∀ s, P ((f.trsOf s).map (·.ilabel))) → ¬ ∀ s, P ((F.trsOf s).map (·.ilabel)) := by
    intro P p0 hp h hc
    refine h fun s => ?_
    by_cases hs : s < f.numStates
    · obtain ⟨q, hq⟩ := (H.tuples _).1 (hreach s hs)
      have := hc q
      rw [H.ilabels hq, htrs, List.map_append, List.map_map] at this
      exact hp _ _ this
    · rw [Fst.trsOf_of_ge (not_lt.1 hs)]; exact p0
  have hlistO : ∀ (P : List Label → Prop), P [] → (∀ l l', P (l ++ l') → P l') → (¬ ∀ s, P ((f.trsOf s).map (·.olabel))) → ¬ ∀ s, P ((F.trsOf s).map (·.olabel)) := by
    intro P p0 hp h hc
    refine h fun s => ?_
    by_cases hs : s < f.numStates
    · obtain ⟨q, hq⟩ := (H.tuples _).1 (hreach s hs)
      have := hc q
      rw [H.olabels hq, htrs, List.map_append, List.map_map] at this
      exact hp _ _ this
    · rw [Fst.trsOf_of_ge (not_lt.1 hs)]; exact p0
  have hret : ∀ {s w}, f.finOf s = some w → w ≠ 0 → (⟨N.retIn, N.retOut, w, ⟨[], N.root, t0.nextstate⟩⟩ : MTr RCfg W) ∈ N.machine.trs (C s) := by
    intro s w hw hne
    rw [htrs]
    refine List.mem_append_left _ ?_
    have : (N.fst (C s).fst).finOf (C s).state = some w := by show (N.fst k).finOf s = _; rw [ef, hw]
    simp only [RNet.retTr, this, C]
    rw [if_neg hne]
    exact List.mem_singleton.2 rfl
  have hfl : ∀ {s w}, f.finOf s = some w → s < f.numStates := by
    intro s w hw
    by_contra hc
    rw [Fst.finOf_of_ge (not_lt.1 hc)] at hw
    cases hw
  have hcyc : ∀ {s} {a : MTr RCfg W}, s < f.numStates → a ∈ N.machine.trs (C s) → ¬ Fst.TrivialW a.weight → Relation.ReflTransGen N.machine.Next a.next (C s) →
      F.HasWeightedCycle := by
    intro s a hs hm h1 h2
    obtain ⟨q, hq⟩ := (H.tuples _).1 (hreach s hs)
    obtain ⟨tr, k1, k2, k3, k4, k5⟩ := H.of_trs hq _ hm
    obtain ⟨q', hq', hr'⟩ := H.of_nexts k5 h2
    obtain rfl := H.one _ _ _ hq hq'
    exact ⟨q, tr, k1, by rw [k4]; exact h1, hr'⟩
  rcases h with h | ⟨rfl, hl, hz, hw, hco⟩
  swap
  · have hup : Relation.ReflTransGen N.machine.Next ⟨[], N.root, t0.nextstate⟩ ⟨[], N.root, i⟩ := by
      rcases hl with hl | ⟨t1, ht1, h1, hl⟩
      · rw [hl]
      · refine .single ⟨⟨t1.ilabel, t1.olabel, t1.weight, ⟨[], N.root, i⟩⟩, ?_, rfl⟩
        rw [RNet.machine_trs]
        refine List.mem_append_right _ (List.mem_flatMap.2 ⟨t1, by rw [eR]; exact ht1, ?_⟩)
        have : N.callee t1 = none := by rw [hcallee, if_pos h1]
        simp only [RNet.stepTr, this, hl]
        exact List.mem_singleton.2 rfl
    have hwff : f.WF := by
      cases hl : list[k]? with
      | none => rw [hl] at hf; cases hf
      | some p =>
        rw [hl] at hf
        injection hf with hf
        rw [← hf]
        exact hwf p (List.mem_of_getElem? hl)
    by_contra hno
    refine hw ⟨fun s t ht => ?_, fun s w hw => ?_⟩
    · by_contra hne
      obtain ⟨q, hq1, hq2⟩ := hco t.nextstate (hwff.2 s t ht)
      obtain ⟨w, hw⟩ := Option.isSome_iff_exists.1 hq2
      have e1 : Relation.ReflTransGen N.machine.Next (C t.nextstate) (C q) := Relation.ReflTransGen.lift C (fun _ _ h => hnext h) _ _ hq1
      have e2 : N.machine.Next (C q) ⟨[], N.root, t0.nextstate⟩ := ⟨_, hret hw (fun h => hz q (by rw [hw, h])), rfl⟩
      exact hno (hcyc (hlt ht) (hmem ht) hne (((e1.tail e2).trans hup).trans (hdown s (hlt ht))))
    · by_contra hne
      exact hno (hcyc (hfl hw) (hret hw (fun h => hne (.inl h))) hne (hup.trans (hdown s (hfl hw))))
  simp only [List.mem_cons, List.not_mem_nil, or_false] at hb
  rcases hb with rfl | rfl | rfl | rfl | rfl | rfl | rfl | rfl | rfl | rfl | rfl | rfl
  · intro hc
    refine h fun s t ht => ?_
    by_contra hne
    obtain ⟨s', t', h1, h2⟩ := hsome (fun a b _ => a ≠ b) ht hne
    exact h2 (hc s' t' h1)
  · exact hlistI _ List.nodup_nil (fun l l' h => (List.nodup_append.1 h).2.1) h
  · exact hlistO _ List.nodup_nil (fun l l' h => (List.nodup_append.1 h).2.1) h
  · obtain ⟨s, t, ht, h1⟩ := h
    exact hsome (fun a b _ => a = EPS ∧ b = EPS) ht h1
  · obtain ⟨s, t, ht, h1⟩ := h
    exact hsome (fun a _ _ => a = EPS) ht h1
  · obtain ⟨s, t, ht, h1⟩ := h
    exact hsome (fun _ b _ => b = EPS) ht h1
  · exact hlistI _ List.Pairwise.nil (fun l l' h => (List.pairwise_append.1 h).2.1) h
  · exact hlistO _ List.Pairwise.nil (fun l l' h => (List.pairwise_append.1 h).2.1) h
  · intro hc
    refine h ⟨fun s t ht => ?_, fun s w hw => ?_⟩
    · by_contra hne
      obtain ⟨s', t', h1, h2⟩ := hsome (fun _ _ w => ¬ Fst.TrivialW w) ht hne
      exact h2 (hc.1 s' t' h1)
    · by_contra hne
      obtain ⟨s', t', h1, h2⟩ := H.some_tr (fun _ _ w => ¬ Fst.TrivialW w) (hreach s (hfl hw)) (hret hw (fun h0 => hne (.inl h0))) hne
      exact h2 (hc.1 s' t' h1)
  · obtain ⟨s, t, ht, h1, h2⟩ := h
    exact hcyc (hlt ht) (hmem ht) h1 (Relation.ReflTransGen.lift C (fun _ _ h => hnext h) _ _ h2)
  · obtain ⟨s, hs⟩ := h
    rw [H.holds_cyclic]
    obtain ⟨q, ⟨t, ht, _⟩, _⟩ := Relation.TransGen.head'_iff.1 hs
    exact ⟨C s, hreach s (hlt ht), Relation.TransGen.lift C (fun _ _ h => hnext h) _ _ hs⟩
  · intro hc
    refine h fun s hs => ?_
    obtain ⟨q, hq⟩ := (H.tuples _).1 (hreach s hs)
    obtain ⟨q', hr', hfin⟩ := hc q ((H.states q).2 ⟨_, hq⟩)
    have hpath : ∀ {a c : StateId}, F.Reach a c → F.IsFinal c → ∀ s, nm a = some (C s) → f.Coaccessible s := by
      intro a c hac hfc
      induction hac using Relation.ReflTransGen.head_induction_on with
      | refl =>
        intro s hs
        have : F.finOf c = none := by rw [H.fin _ _ hs]; simp [RNet.machine, C]
        rw [Fst.IsFinal, this] at hfc
        cases hfc
      | head e _ ih =>
        intro s hs
        obtain ⟨tr, htr, rfl⟩ := e
        obtain ⟨u, a', k1, _, k2, k3⟩ := H.trs_of _ tr htr
        rw [hs] at k1
        injection k1 with k1
        subst k1
        rw [htrs, List.mem_append] at k2
        rcases k2 with k2 | k2
        · cases hw : f.finOf s with
          | none =>
            have : (N.fst (C s).fst).finOf (C s).state = none := by show (N.fst k).finOf s = _; rw [ef, hw]
            simp [RNet.retTr, this, C] at k2
          | some w => exact ⟨s, .refl, by rw [Fst.IsFinal, hw]; rfl⟩
        · obtain ⟨t, ht, rfl⟩ := List.mem_map.1 k2
          obtain ⟨z, z1, z2⟩ := ih t.nextstate k3.2.2.2
          exact ⟨z, Relation.ReflTransGen.head ⟨t, ht, rfl⟩ z1, z2⟩
    exact hpath hr' hfin s hq

/-- The position of a configuration in the root. -/
def RCfg.rank (c : RCfg) : Nat :=
  match c.stack with
  | [] => 2 * c.state
  | fr :: _ => 2 * fr.state - 1

/-- A configuration at the root, or in an FST called from the root that calls nothing. -/
def RNet.Shallow (N : RNet W) (c : RCfg) : Prop :=
  (c.stack = [] ∧ c.fst = N.root) ∨ ∃ fr, c.stack = [fr] ∧ fr.fst = N.root ∧ 0 < fr.state ∧ ∀ s, ∀ t ∈ (N.fst c.fst).trsOf s, N.callee t = none

theorem RNet.shallow_step {N : RNet W} (hR : ∀ s, ∀ t ∈ (N.fst N.root).trsOf s, s < t.nextstate)
    (hn : ∀ t k, N.callee t = some k → ∀ s, ∀ t ∈ (N.fst k).trsOf s, N.callee t = none) {c : RCfg} (hc : N.Shallow c) {a : MTr RCfg W} (ha : a ∈ N.machine.trs c) :
    N.Shallow a.next ∧ (c.rank < a.next.rank ∨ c.rank = a.next.rank ∧ a.next.fst = c.fst ∧
      ∃ t ∈ (N.fst c.fst).trsOf c.state, t.nextstate = a.next.state ∧ t.weight = a.weight) := by
  obtain ⟨st, k, q⟩ := c
  rw [RNet.machine_trs, List.mem_append] at ha
  rcases hc with ⟨h1, h2⟩ | ⟨fr, h1, h2, h3, h4⟩
  · simp only at h1 h2
    subst h1 h2
    rcases ha with ha | ha
    · simp [RNet.retTr] at ha
    obtain ⟨t, ht, ha⟩ := List.mem_flatMap.1 ha
    have hlt := hR q t ht
    unfold RNet.stepTr at ha
    cases hk : N.callee t with
    | none =>
      simp only [hk, List.mem_singleton] at ha
      subst ha
      refine ⟨.inl ⟨rfl, rfl⟩, .inl ?_⟩
      simp only [RCfg.rank]
      omega
    | some j =>
      cases hj : (N.fst j).start with
      | none => simp [hk, hj] at ha
      | some i =>
        simp only [hk, hj, List.mem_singleton] at ha
        subst ha
        refine ⟨.inr ⟨_, rfl, rfl, by show 0 < t.nextstate; omega, hn t j hk⟩, .inl ?_⟩
        simp only [RCfg.rank]
        omega
  · simp only at h1
    subst h1
    rcases ha with ha | ha
    · unfold RNet.retTr at ha
      cases hf : (N.fst k).finOf q with
      | none => simp [hf] at ha
      | some w =>
        by_cases hw : w = 0
        · simp [hf, hw] at ha
        · simp only [hf, hw, if_false, List.mem_singleton] at ha
          subst ha
          refine ⟨.inl ⟨rfl, h2⟩, .inl ?_⟩
          simp only [RCfg.rank]
          omega
    · obtain ⟨t, ht, ha⟩ := List.mem_flatMap.1 ha
      simp only [RNet.stepTr, h4 q t ht, List.mem_singleton] at ha
      subst ha
      exact ⟨.inr ⟨fr, rfl, h2, h3, h4⟩, .inr ⟨rfl, rfl, t, ht, rfl, rfl⟩⟩

theorem RNet.shallow_steps {N : RNet W} (hR : ∀ s, ∀ t ∈ (N.fst N.root).trsOf s, s < t.nextstate)
    (hn : ∀ t k, N.callee t = some k → ∀ s, ∀ t ∈ (N.fst k).trsOf s, N.callee t = none) {c d : RCfg} (hc : N.Shallow c) (h : Relation.ReflTransGen N.machine.Next c d) :
    N.Shallow d ∧ c.rank ≤ d.rank ∧ (c.rank = d.rank → d.fst = c.fst ∧ (N.fst c.fst).Reach c.state d.state) := by
  induction h with
  | refl => exact ⟨hc, le_refl _, fun _ => ⟨rfl, .refl⟩⟩
  | tail _ e ih =>
    obtain ⟨i1, i2, i3⟩ := ih
    obtain ⟨a, ha, rfl⟩ := e
    obtain ⟨s1, s2⟩ := RNet.shallow_step hR hn i1 ha
    refine ⟨s1, by omega, fun he => ?_⟩
    rcases s2 with s2 | ⟨s2, s3, t, ht, s4, _⟩
    · omega
    · obtain ⟨j1, j2⟩ := i3 (by omega)
      exact ⟨by rw [s3, j1], j2.tail ⟨t, by rw [← j1]; exact ht, s4⟩⟩

/-- If the transitions of the root lead on, and what it calls calls nothing, `replace` makes no weighted cycles. -/
theorem replace_unweightedCycles (hwf : ∀ p ∈ list, p.2.WF) (hr : namedBy list root = some r) {n : Nat} {F : Fst W} (hF : replace list root false n = some (.ok F))
    {R : Fst W} (hR : list[r]?.map (·.2) = some R) (hlt : ∀ s, ∀ t ∈ R.trsOf s, s < t.nextstate)
    (hn : ∀ l k f, l ≠ EPS → namedBy list l = some k → list[k]?.map (·.2) = some f → ∀ s, ∀ t ∈ f.trsOf s, t.olabel = EPS ∨ namedBy list t.olabel = none)
    (h : ∀ p ∈ list, p.2.Holds .unweightedCycles) : F.Holds .unweightedCycles := by
  obtain ⟨N, nm, H, hroot, hfst, hcallee⟩ := replace_net hwf hr hF
  have eR : N.fst N.root = R := by rw [hfst, hroot, hR]; rfl
  have hR' : ∀ s, ∀ t ∈ (N.fst N.root).trsOf s, s < t.nextstate := by rw [eR]; exact hlt
  have hn' : ∀ t k, N.callee t = some k → ∀ s, ∀ t ∈ (N.fst k).trsOf s, N.callee t = none := by
    intro t k hk s t' ht'
    rw [hcallee] at hk
    by_cases h0 : t.olabel = EPS
    · rw [if_pos h0] at hk; cases hk
    rw [if_neg h0] at hk
    rw [hfst] at ht'
    cases hl : list[k]? with
    | none => rw [hl] at ht'; simp [Fst.trsOf] at ht'
    | some p =>
      rw [hl] at ht'
      rw [hcallee]
      split
      · rfl
      · next hc => exact (hn _ k p.2 h0 hk (by rw [hl]; rfl) s t' ht').resolve_left hc
  have hsh : ∀ c, N.machine.Reach c → N.Shallow c := by
    intro c hc
    induction hc with
    | start h =>
      simp only [RNet.machine, Option.map_eq_some_iff] at h
      obtain ⟨s, _, rfl⟩ := h
      exact .inl ⟨rfl, rfl⟩
    | step _ ha ih => exact (RNet.shallow_step hR' hn' ih ha).1
  rintro ⟨s, t, ht, hne, hback⟩
  obtain ⟨c, a, k1, k2, k3, k4⟩ := H.trs_of s t ht
  have hback' : Relation.ReflTransGen N.machine.Next a.next c := by
    rcases Relation.reflTransGen_iff_eq_or_transGen.1 hback with e | e
    · have := k4.2.2.2
      rw [← e, k1] at this
      injection this with this
      rw [this]
    · obtain ⟨x, y, e1, e2, e3⟩ := H.edges e
      rw [k4.2.2.2] at e1
      rw [k1] at e2
      injection e1 with e1
      injection e2 with e2
      subst e1 e2
      exact e3.to_reflTransGen
  obtain ⟨s1, s2⟩ := RNet.shallow_step hR' hn' (hsh c k2) k3
  obtain ⟨_, j2, j3⟩ := RNet.shallow_steps hR' hn' s1 hback'
  rcases s2 with s2 | ⟨s2, s3, t', ht', s4, s5⟩
  · omega
  · obtain ⟨_, j4⟩ := j3 s2.symm
    rw [s3] at j4
    have hh : ¬ (N.fst c.fst).HasWeightedCycle := by
      rw [hfst]
      cases hl : list[c.fst]? with
      | none => rintro ⟨s, t, ht, _⟩; simp [Fst.trsOf] at ht
      | some p => exact h p (List.mem_of_getElem? hl)
    exact hh ⟨c.state, t', ht', by rw [s5, ← k4.2.2.1]; exact hne, by rw [s4]; exact j4⟩

end

end Verif
