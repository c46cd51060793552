import Verif.Props.C39
import Verif.Props.C42
import Verif.Lemmas.PresentsFlags

/-! # C51 for `compose` -/

namespace Verif
universe u
variable {W : Type u} {FS : Type}
open Lz

theorem compose_bits {p q : Props} (b : PropBit) (h : Props.compose p q b = true) :
    b = .accessible ∨ (p b = true ∧ q b = true ∧
      (b ∈ [PropBit.noIEpsilons, .acyclic, .initialAcyclic] ∨ (b = .iDeterministic ∧ q .noIEpsilons = true) ∨
        (p .acceptor = true ∧ q .acceptor = true ∧ (b ∈ [PropBit.acceptor, .noEpsilons, .noOEpsilons] ∨ (b = .oDeterministic ∧ p .noIEpsilons = true ∧ q .noIEpsilons = true))))) := by
  unfold Props.compose at h
  cases h1 : p .acceptor <;> cases h2 : q .acceptor <;> cases h3 : p .noIEpsilons <;> cases h4 : q .noIEpsilons <;>
    cases b <;> simp_all [Props.orIf_apply, Props.of_apply, Props.keep, Props.and_apply, Props.or_apply, Props.has]

/-- A filter that does not fail on states of the operands. -/
def FilterRuns (A B : Fst W) (F : ComposeFilter FS W) : Prop :=
  ∀ s1 s2 fs, s1 < A.numStates → s2 < B.numStates → ∃ flt, F.filter A B s1 s2 fs = .ok flt

section
variable [Zero W] [DecidableEq W]

theorem epsInfo_runs (f : Fst W) (input : Bool) {s : StateId} (hs : s < f.numStates) : ∃ x, epsInfo f input s = .ok x := by
  have g : f.states[s]? = some f.states[s] := List.getElem?_eq_getElem hs
  unfold epsInfo
  simp only [Fst.numTrsR, Fst.numIEpsR, Fst.numOEpsR, Fst.isFinalR, g]
  cases input <;> exact ⟨_, rfl⟩

theorem seqFilter_runs (A B : Fst W) : FilterRuns A B seqFilter := fun s1 s2 fs h1 _ => by
  obtain ⟨x, hx⟩ := epsInfo_runs A false h1
  exact ⟨seqFilterTr x.1 x.2 fs, by simp [seqFilter, hx]⟩

theorem altFilter_runs (A B : Fst W) : FilterRuns A B altFilter := fun s1 s2 fs _ h2 => by
  obtain ⟨x, hx⟩ := epsInfo_runs B true h2
  exact ⟨altFilterTr x.1 x.2 fs, by simp [altFilter, hx]⟩

theorem matchFilter_runs (A B : Fst W) : FilterRuns A B matchFilter := fun s1 s2 fs h1 h2 => by
  obtain ⟨x, hx⟩ := epsInfo_runs A false h1
  obtain ⟨y, hy⟩ := epsInfo_runs B true h2
  exact ⟨matchFilterTr x.1 x.2 y.1 y.2 fs, by simp [matchFilter, hx, hy]⟩

end

theorem nullFilter_runs (A B : Fst W) : FilterRuns A B nullFilter := fun _ _ _ _ _ => ⟨_, rfl⟩
theorem trivialFilter_runs (A B : Fst W) : FilterRuns A B trivialFilter := fun _ _ _ _ _ => ⟨_, rfl⟩
theorem noMatchFilter_runs (A B : Fst W) : FilterRuns A B noMatchFilter := fun _ _ _ _ _ => ⟨_, rfl⟩

section
variable [Zero W] [One W] [Mul W] [DecidableEq W] {A B : Fst W} {F : ComposeFilter FS W} {mt : MatchT}

/-- What the flags need to know about the transitions. -/
theorem compose_trs_pairs (hc : Composable A B mt) (hF : FilterRuns A B F) {t : CTup FS} (h1 : t.s1 < A.numStates) (h2 : t.s2 < B.numStates) :
    ∃ flt, composeTrs A B F mt t = .ok ((composeOp A B F mt).machine.trs t) ∧
      ((composeOp A B F mt).machine.trs t : Multiset (MTr (CTup FS) W)) = (pairsU A B t.s1 t.s2).filterMap (pairTr flt) := by
  obtain ⟨flt, hf⟩ := hF t.s1 t.s2 t.fs h1 h2
  obtain ⟨l, e1, e2⟩ := composeTrs_eq A B F hc t h1 h2 hf
  have : (composeOp A B F mt).machine.trs t = l := by simp only [TupleOp.machine, composeOp, e1]
  rw [this]
  refine ⟨flt, e1, ?_⟩
  rw [e2]
  unfold composeTag
  rw [hf, Multiset.map_filterMap]
  congr 1
  funext x
  simp only [pairTr, Option.map_map]
  rfl

/-- A transition of the composition: one of the operands stays, or both move. -/
theorem compose_tr_cases (hc : Composable A B mt) (hF : FilterRuns A B F) {t : CTup FS} (h1 : t.s1 < A.numStates) (h2 : t.s2 < B.numStates)
    {m : MTr (CTup FS) W} (hm : m ∈ (composeOp A B F mt).machine.trs t) :
    (∃ b ∈ B.trsOf t.s2, b.ilabel = EPS ∧ m.ilabel = EPS ∧ m.olabel = b.olabel ∧ m.next.s1 = t.s1 ∧ m.next.s2 = b.nextstate) ∨
    (∃ a ∈ A.trsOf t.s1, a.olabel = EPS ∧ m.ilabel = a.ilabel ∧ m.olabel = EPS ∧ m.next.s1 = a.nextstate ∧ m.next.s2 = t.s2) ∨
    (∃ a ∈ A.trsOf t.s1, ∃ b ∈ B.trsOf t.s2, a.olabel = b.ilabel ∧ m.ilabel = a.ilabel ∧ m.olabel = b.olabel ∧ m.next.s1 = a.nextstate ∧ m.next.s2 = b.nextstate) := by
  obtain ⟨flt, _, e⟩ := compose_trs_pairs hc hF h1 h2
  have := e ▸ Multiset.mem_coe.2 hm
  obtain ⟨x, hx, hq⟩ := (Multiset.mem_filterMap _ _).1 this
  unfold pairTr at hq
  rw [Option.map_eq_some_iff] at hq
  obtain ⟨fs, _, rfl⟩ := hq
  simp only [pairsU, Multiset.mem_add, Multiset.mem_map, Multiset.mem_bind, clsTrs, Multiset.mem_filter, Multiset.mem_coe, decide_eq_true_eq] at hx
  rcases hx with ((⟨b, hb, rfl⟩ | ⟨a, ha, rfl⟩) | ⟨a, ha, b, hb, rfl⟩) | ⟨a, ha, b, hb, rfl⟩
  · exact .inl ⟨b, hb.1, hb.2, rfl, rfl, rfl, rfl⟩
  · exact .inr (.inl ⟨a, ha.1, ha.2, rfl, rfl, rfl, rfl⟩)
  · exact .inr (.inr ⟨a, ha.1, b, hb.1, ha.2.trans hb.2.symm, rfl, rfl, rfl, rfl⟩)
  · exact .inr (.inr ⟨a, ha.1, b, hb.1.1, hb.2.symm, rfl, rfl, rfl, rfl⟩)

theorem compose_reach_lt (hc : Composable A B mt) (hF : FilterRuns A B F) {t : CTup FS} (h : (composeOp A B F mt).machine.Reach t) :
    t.s1 < A.numStates ∧ t.s2 < B.numStates := by
  induction h with
  | start h =>
    simp only [TupleOp.machine, composeOp, composeStart] at h
    cases h1 : A.start with
    | none => simp [h1] at h
    | some i =>
      cases h2 : B.start with
      | none => simp [h1, h2] at h
      | some j =>
        simp only [h1, h2, Option.some.injEq] at h
        subst h
        exact ⟨hc.wf1.start_lt _ h1, hc.wf2.start_lt _ h2⟩
  | step _ ha ih =>
    rcases compose_tr_cases hc hF ih.1 ih.2 ha with ⟨b, hb, _, _, _, e1, e2⟩ | ⟨a, ha, _, _, _, e1, e2⟩ | ⟨a, ha, b, hb, _, _, _, e1, e2⟩ <;> rw [e1, e2]
    · exact ⟨ih.1, hc.wf2.next_lt _ _ hb⟩
    · exact ⟨hc.wf1.next_lt _ _ ha, ih.2⟩
    · exact ⟨hc.wf1.next_lt _ _ ha, hc.wf2.next_lt _ _ hb⟩

theorem compose_fin_runs (hF : FilterRuns A B F) {t : CTup FS} (h1 : t.s1 < A.numStates) (h2 : t.s2 < B.numStates) :
    composeFin A B F t = .ok ((composeOp A B F mt).machine.fin t) := by
  obtain ⟨flt, hf⟩ := hF t.s1 t.s2 t.fs h1 h2
  have e := composeFin_eq A B F t h1 h2 hf
  simp only [TupleOp.machine, composeOp, e]

/-- Along the composition each operand moves or stays, and one of them moves. -/
theorem compose_steps (hc : Composable A B mt) (hF : FilterRuns A B F) {t u : CTup FS} (ht : (composeOp A B F mt).machine.Reach t)
    (h : Relation.TransGen (composeOp A B F mt).machine.Next t u) :
    A.Reach t.s1 u.s1 ∧ B.Reach t.s2 u.s2 ∧ (Relation.TransGen A.Edge t.s1 u.s1 ∨ Relation.TransGen B.Edge t.s2 u.s2) := by
  have one : ∀ {t u : CTup FS}, (composeOp A B F mt).machine.Reach t → (composeOp A B F mt).machine.Next t u →
      A.Reach t.s1 u.s1 ∧ B.Reach t.s2 u.s2 ∧ (Relation.TransGen A.Edge t.s1 u.s1 ∨ Relation.TransGen B.Edge t.s2 u.s2) := by
    rintro t _ ht ⟨m, hm, rfl⟩
    obtain ⟨l1, l2⟩ := compose_reach_lt hc hF ht
    rcases compose_tr_cases hc hF l1 l2 hm with ⟨b, hb, _, _, _, e1, e2⟩ | ⟨a, ha, _, _, _, e1, e2⟩ | ⟨a, ha, b, hb, _, _, _, e1, e2⟩ <;> rw [e1, e2]
    · exact ⟨.refl, .single ⟨b, hb, rfl⟩, .inr (.single ⟨b, hb, rfl⟩)⟩
    · exact ⟨.single ⟨a, ha, rfl⟩, .refl, .inl (.single ⟨a, ha, rfl⟩)⟩
    · exact ⟨.single ⟨a, ha, rfl⟩, .single ⟨b, hb, rfl⟩, .inl (.single ⟨a, ha, rfl⟩)⟩
  induction h with
  | single h => exact one ht h
  | tail h1 h2 ih =>
    obtain ⟨x1, x2, x3⟩ := one (ht.next h1.to_reflTransGen) h2
    refine ⟨ih.1.trans x1, ih.2.1.trans x2, ?_⟩
    rcases ih.2.2 with h | h
    · exact .inl (h.trans_left x1)
    · exact .inr (h.trans_left x2)

theorem bind_mono {α β : Type*} {S : Multiset α} {f g : α → Multiset β} (h : ∀ a ∈ S, f a ≤ g a) : S.bind f ≤ S.bind g := by
  induction S using Multiset.induction_on with
  | empty => simp
  | cons a S ih =>
    rw [Multiset.cons_bind, Multiset.cons_bind]
    exact add_le_add (h a (Multiset.mem_cons_self _ _)) (ih fun b hb => h b (Multiset.mem_cons_of_mem hb))

/-- The labels of the transitions are among those of the pairs. -/
theorem pairTr_labels (flt : Tr W → Tr W → Option FS) (g : MTr (CTup FS) W → Label) (k : Tr W × Tr W → Label)
    (hg : ∀ x fs, g (addTr x.1 x.2 fs) = k x) (S : Multiset (Tr W × Tr W)) : (S.filterMap (pairTr flt)).map g ≤ S.map k := by
  induction S using Multiset.induction_on with
  | empty => simp
  | cons x S ih =>
    cases hx : pairTr flt x with
    | none =>
      rw [Multiset.filterMap_cons_none _ _ hx, Multiset.map_cons]
      exact ih.trans (Multiset.le_cons_self _ _)
    | some m =>
      rw [Multiset.filterMap_cons_some _ _ _ hx, Multiset.map_cons, Multiset.map_cons]
      unfold pairTr at hx
      rw [Option.map_eq_some_iff] at hx
      obtain ⟨fs, _, rfl⟩ := hx
      rw [hg]
      exact Multiset.cons_le_cons _ ih

theorem match_le_one {s : StateId} (h : ((B.trsOf s).map (·.ilabel)).Nodup) (e : Bool) (l : Label) (c : Label) :
    ((clsTrs Tr.ilabel B e s).filter fun b => b.ilabel = l).map (fun _ => c) ≤ {c} := by
  rw [Multiset.map_const', ← Multiset.replicate_one, Multiset.replicate_le_replicate]
  refine (Multiset.card_le_card (Multiset.filter_le_filter _ (Multiset.filter_le _ _))).trans ?_
  have := Multiset.nodup_iff_count_le_one.1 (Multiset.coe_nodup.2 h) l
  rw [← Multiset.map_coe, Multiset.count_map] at this
  simpa only [eq_comm] using this

theorem cls_none {sel : Tr W → Label} {f : Fst W} (h : ¬ ∃ s, ∃ t ∈ f.trsOf s, sel t = EPS) (s : StateId) : clsTrs sel f true s = 0 := by
  unfold clsTrs
  rw [Multiset.filter_eq_nil]
  intro t ht
  simp only [decide_eq_true_eq]
  exact fun e => h ⟨s, t, ht, e⟩

theorem compose_idet {s1 s2 : StateId} (h1 : ((A.trsOf s1).map (·.ilabel)).Nodup) (h2 : ((B.trsOf s2).map (·.ilabel)).Nodup)
    (hB : ¬ ∃ s, ∃ t ∈ B.trsOf s, t.ilabel = EPS) : ((pairsU A B s1 s2).map fun x => x.1.ilabel).Nodup := by
  refine Multiset.nodup_of_le ?_ (Multiset.coe_nodup.2 h1)
  rw [← Multiset.map_coe, clsTrs_add Tr.olabel A s1]
  unfold pairsU
  rw [cls_none hB]
  simp only [Multiset.map_zero, zero_add, Multiset.bind_zero, add_zero, Multiset.map_add, Multiset.map_map, Multiset.map_bind, Function.comp_def]
  refine add_le_add le_rfl ?_
  rw [← Multiset.bind_singleton]
  exact bind_mono fun a _ => match_le_one h2 _ _ _

theorem compose_odet {s1 s2 : StateId} (hb : ∀ s, ∀ t ∈ B.trsOf s, t.ilabel = t.olabel)
    (h1 : ((A.trsOf s1).map (·.olabel)).Nodup) (h2 : ((B.trsOf s2).map (·.ilabel)).Nodup)
    (hA : ¬ ∃ s, ∃ t ∈ A.trsOf s, t.olabel = EPS) (hB : ¬ ∃ s, ∃ t ∈ B.trsOf s, t.ilabel = EPS) : ((pairsU A B s1 s2).map fun x => x.2.olabel).Nodup := by
  refine Multiset.nodup_of_le ?_ (Multiset.coe_nodup.2 h1)
  rw [← Multiset.map_coe, clsTrs_add Tr.olabel A s1]
  unfold pairsU
  rw [cls_none hB, cls_none hA]
  simp only [Multiset.map_zero, zero_add, Multiset.bind_zero, Multiset.zero_bind, Multiset.map_map, Multiset.map_bind, Function.comp_def]
  rw [← Multiset.bind_singleton]
  refine bind_mono fun a _ => ?_
  refine le_trans (le_of_eq ?_) (match_le_one h2 false a.olabel a.olabel)
  refine Multiset.map_congr rfl fun b hm => ?_
  obtain ⟨h3, h4⟩ := Multiset.mem_filter.1 hm
  rw [← h4, hb s2 b (Multiset.mem_of_mem_filter h3)]

variable [DecidableEq FS]

/-- C51 for `compose`: all flags of the result are true if those of the operands are, for every filter that runs, with or without `connect`. -/
theorem C39_flags (h : Operands A B) (ta : A.Truthful) (tb : B.Truthful) (hF : FilterRuns A B F) (connect : Bool) {n : Nat} {C : Fst W}
    (hC : composeWith F connect A B n = some (.ok C)) : C.Truthful := by
  obtain ⟨mt, hm, hc⟩ := h.composable
  simp only [composeWith, composeNew, hm] at hC
  match hr : Lz.compute vecCache ((composeOp A B F mt).withTable BiMap.findId BiMap.findTuple) n ⟨vecCache.empty, BiMap.new⟩ with
  | none => simp [hr] at hC
  | some (.error e, z) => simp [hr] at hC
  | some (.ok D, z) =>
    rw [hr] at hC
    simp only [Option.some.injEq] at hC
    obtain ⟨_, D', e, hw, _, hp, nm, H, _⟩ := C38_returns vecCache_law BiMap.law BiMap.findTuple_eq (composeOp A B F mt) (composeOp A B F mt).machine rfl
      (fun t ht => (compose_trs_pairs hc hF (compose_reach_lt hc hF ht).1 (compose_reach_lt hc hF ht).2).choose_spec.1)
      (fun t ht => compose_fin_runs hF (compose_reach_lt hc hF ht).1 (compose_reach_lt hc hF ht).2) BiMap.ok_new (fun s => rfl) hr
    injection e with e
    subst e
    have td : D.Truthful := by
      by_cases hs : (composeOp A B F mt).machine.start = none
      · rw [if_pos hs] at hp
        rw [presents_none H hs hp]
        exact Fst.truthful_new
      rw [if_neg hs] at hp
      intro b hb
      rw [hp] at hb
      have cases := fun {t} (ht : (composeOp A B F mt).machine.Reach t) {m} => compose_tr_cases (m := m) hc hF (compose_reach_lt hc hF ht).1 (compose_reach_lt hc hF ht).2
      rcases compose_bits b hb with rfl | ⟨pb, qb, h3⟩
      · intro s hs
        exact H.accessible s hs
      have HA := ta b pb
      have HB := tb b qb
      rcases h3 with h3 | ⟨rfl, h3⟩ | ⟨aa, ab, h3⟩
      · simp only [List.mem_cons, List.not_mem_nil, or_false] at h3
        rcases h3 with rfl | rfl | rfl
        · rintro ⟨s, tr, htr, e⟩
          refine H.all_trs (fun i _ _ => i ≠ EPS) (fun t ht m hm => ?_) s tr htr e
          rcases cases ht hm with ⟨b, hb, e, _⟩ | ⟨a, ha, _, e, _⟩ | ⟨a, ha, b, hb, _, e, _⟩
          · exact absurd ⟨_, b, hb, e⟩ HB
          · rw [e]; exact fun e => HA ⟨_, a, ha, e⟩
          · rw [e]; exact fun e => HA ⟨_, a, ha, e⟩
        · rw [H.holds_acyclic]
          intro t ht hcy
          rcases (compose_steps hc hF ht hcy).2.2 with h | h
          · exact HA ⟨_, h⟩
          · exact HB ⟨_, h⟩
        · rw [H.holds_initialAcyclic]
          intro t ht hcy
          have hst := ht
          simp only [TupleOp.machine, composeOp, composeStart] at hst
          cases h1 : A.start with
          | none => simp [h1] at hst
          | some i =>
            cases h2 : B.start with
            | none => simp [h1, h2] at hst
            | some j =>
              simp only [h1, h2, Option.some.injEq] at hst
              rcases (compose_steps hc hF (.start ht) hcy).2.2 with h | h <;> subst hst
              · exact HA ⟨_, h1, h⟩
              · exact HB ⟨_, h2, h⟩
      · refine H.all_ilabels List.Nodup List.nodup_nil fun t ht => ?_
        obtain ⟨flt, _, e⟩ := compose_trs_pairs hc hF (compose_reach_lt hc hF ht).1 (compose_reach_lt hc hF ht).2
        rw [← Multiset.coe_nodup, ← Multiset.map_coe, e]
        exact Multiset.nodup_of_le (pairTr_labels flt _ (fun x => x.1.ilabel) (fun _ _ => rfl) _) (compose_idet (HA _) (HB _) (tb _ h3))
      · have A1 := ta _ aa
        have B1 := tb _ ab
        simp only [List.mem_cons, List.not_mem_nil, or_false] at h3
        rcases h3 with (rfl | rfl | rfl) | ⟨rfl, h3, h4⟩
        · refine H.all_trs (fun i o _ => i = o) (fun t ht m hm => ?_)
          rcases cases ht hm with ⟨b, hb, e, e1, e2, _⟩ | ⟨a, ha, e, e1, e2, _⟩ | ⟨a, ha, b, hb, e, e1, e2, _⟩ <;> rw [e1, e2]
          · rw [← B1 _ b hb, e]
          · rw [A1 _ a ha, e]
          · rw [A1 _ a ha, e, B1 _ b hb]
        · rintro ⟨s, tr, htr, e⟩
          refine H.all_trs (fun i o _ => ¬ (i = EPS ∧ o = EPS)) (fun t ht m hm => ?_) s tr htr e
          rintro ⟨x1, x2⟩
          rcases cases ht hm with ⟨b, hb, e, e1, e2, _⟩ | ⟨a, ha, e, e1, e2, _⟩ | ⟨a, ha, b, hb, e, e1, e2, _⟩
          · exact HB ⟨_, b, hb, e, e2 ▸ x2⟩
          · exact HA ⟨_, a, ha, e1 ▸ x1, e⟩
          · exact HA ⟨_, a, ha, e1 ▸ x1, A1 _ a ha ▸ e1 ▸ x1⟩
        · rintro ⟨s, tr, htr, e⟩
          refine H.all_trs (fun _ o _ => o ≠ EPS) (fun t ht m hm => ?_) s tr htr e
          rcases cases ht hm with ⟨b, hb, e, e1, e2, _⟩ | ⟨a, ha, e, e1, e2, _⟩ | ⟨a, ha, b, hb, e, e1, e2, _⟩
          · rw [e2]; exact fun e => HB ⟨_, b, hb, e⟩
          · exact absurd ⟨_, a, ha, e⟩ HA
          · rw [e2]; exact fun e => HB ⟨_, b, hb, e⟩
        · refine H.all_olabels List.Nodup List.nodup_nil fun t ht => ?_
          obtain ⟨flt, _, e⟩ := compose_trs_pairs hc hF (compose_reach_lt hc hF ht).1 (compose_reach_lt hc hF ht).2
          rw [← Multiset.coe_nodup, ← Multiset.map_coe, e]
          refine Multiset.nodup_of_le (pairTr_labels flt _ (fun x => x.2.olabel) (fun _ _ => rfl) _) (compose_odet B1 (HA _) ?_ ?_ (tb _ h4))
          · rw [List.map_congr_left fun b hb => B1 _ b hb]; exact HB _
          · rintro ⟨s, a, ha, e⟩
            exact ta _ h3 ⟨s, a, ha, (A1 s a ha).trans e⟩
    cases connect with
    | false => simp only [Bool.false_eq_true, if_false, Except.ok.injEq] at hC; exact hC ▸ td
    | true => exact C18_flags D C hw td hC

end

/-- Deletes `1`, then rewrites `2` to `5`. -/
def exDelete : Fst Nat := ⟨[⟨none, [⟨1, 0, 2, 1⟩], 0, 1⟩, ⟨none, [⟨2, 5, 3, 2⟩], 0, 0⟩, ⟨some 1, [], 0, 0⟩], some 0,
  Props.of [.oLabelSorted, .noIEpsilons, .iDeterministic, .acyclic, .initialAcyclic]⟩
/-- Rewrites `5` to `8`. -/
def exRewrite : Fst Nat := ⟨[⟨none, [⟨5, 8, 7, 1⟩], 0, 0⟩, ⟨some 1, [], 0, 0⟩], some 0,
  Props.of [.iLabelSorted, .noIEpsilons, .iDeterministic, .acyclic, .initialAcyclic]⟩

theorem exRewrite_ok : Operands exDelete exRewrite ∧ exDelete.Truthful ∧ exRewrite.Truthful := by
  have h1 : ∀ s, (s = 0 ∧ exDelete.trsOf s = [⟨1, 0, 2, 1⟩]) ∨ (s = 1 ∧ exDelete.trsOf s = [⟨2, 5, 3, 2⟩]) ∨ exDelete.trsOf s = [] := by
    intro s; rcases s with _ | _ | _ | s <;> simp [exDelete, Fst.trsOf]
  have h2 : ∀ s, (s = 0 ∧ exRewrite.trsOf s = [⟨5, 8, 7, 1⟩]) ∨ exRewrite.trsOf s = [] := by
    intro s; rcases s with _ | _ | s <;> simp [exRewrite, Fst.trsOf]
  have n1 : exDelete.numStates = 3 := rfl
  have n2 : exRewrite.numStates = 2 := rfl
  have t1 : ∀ s, ∀ t ∈ exDelete.trsOf s, s < t.nextstate ∧ t.nextstate < 3 ∧ t.olabel ≠ NO_LABEL ∧ t.ilabel ≠ EPS := by
    intro s t ht
    rcases h1 s with ⟨rfl, e⟩ | ⟨rfl, e⟩ | e <;> rw [e] at ht <;> simp at ht <;> subst ht <;> decide
  have t2 : ∀ s, ∀ t ∈ exRewrite.trsOf s, s < t.nextstate ∧ t.nextstate < 2 ∧ t.ilabel ≠ NO_LABEL ∧ t.ilabel ≠ EPS := by
    intro s t ht
    rcases h2 s with ⟨rfl, e⟩ | e <;> rw [e] at ht <;> simp at ht <;> subst ht <;> decide
  refine ⟨⟨⟨?_, ?_⟩, ⟨?_, ?_⟩, ?_, ?_, ?_, ?_, ?_, ?_, .inl rfl⟩, ?_, ?_⟩
  · intro s hs; cases hs; decide
  · intro s t ht; exact (t1 s t ht).2.1
  · intro s hs; cases hs; decide
  · intro s t ht; exact (t2 s t ht).2.1
  · intro s st hs; rcases s with _ | _ | _ | s <;> simp [exDelete] at hs <;> subst hs <;> exact ⟨rfl, rfl⟩
  · intro s st hs; rcases s with _ | _ | s <;> simp [exRewrite] at hs <;> subst hs <;> exact ⟨rfl, rfl⟩
  · intro s t ht; exact (t1 s t ht).2.2.1
  · intro s t ht; exact (t2 s t ht).2.2.1
  · intro _ s; rcases h1 s with ⟨_, e⟩ | ⟨_, e⟩ | e <;> rw [e] <;> simp
  · intro _ s; rcases h2 s with ⟨_, e⟩ | e <;> rw [e] <;> simp
  · intro b hb
    simp only [exDelete, Props.of_apply, decide_eq_true_eq, List.mem_cons, List.not_mem_nil, or_false] at hb
    rcases hb with rfl | rfl | rfl | rfl | rfl
    · intro s; rcases h1 s with ⟨_, e⟩ | ⟨_, e⟩ | e <;> rw [e] <;> simp
    · rintro ⟨s, t, ht, e⟩; exact (t1 s t ht).2.2.2 e
    · intro s; rcases h1 s with ⟨_, e⟩ | ⟨_, e⟩ | e <;> rw [e] <;> simp
    · exact Fst.acyclic_of_topSorted fun s t h => (t1 s t h).1
    · rintro ⟨i, _, hi⟩; exact Fst.acyclic_of_topSorted (fun s t h => (t1 s t h).1) ⟨i, hi⟩
  · intro b hb
    simp only [exRewrite, Props.of_apply, decide_eq_true_eq, List.mem_cons, List.not_mem_nil, or_false] at hb
    rcases hb with rfl | rfl | rfl | rfl | rfl
    · intro s; rcases h2 s with ⟨_, e⟩ | e <;> rw [e] <;> simp
    · rintro ⟨s, t, ht, e⟩; exact (t2 s t ht).2.2.2 e
    · intro s; rcases h2 s with ⟨_, e⟩ | e <;> rw [e] <;> simp
    · exact Fst.acyclic_of_topSorted fun s t h => (t2 s t h).1
    · rintro ⟨i, _, hi⟩; exact Fst.acyclic_of_topSorted (fun s t h => (t2 s t h).1) ⟨i, hi⟩

/-- The flags of the operands reach the composition. -/
example : ∃ C, compose exDelete exRewrite 10 = some (.ok C) ∧ C.numStates = 3 ∧
    (∀ b ∈ [PropBit.noIEpsilons, .iDeterministic, .acyclic, .initialAcyclic, .accessible], C.props b = true) ∧ C.Truthful := by
  obtain ⟨C, hC, h2⟩ := out_of_ok (x := compose exDelete exRewrite 10)
    (fun C => (C.numStates, [PropBit.noIEpsilons, .iDeterministic, .acyclic, .initialAcyclic, .accessible].all C.props)) (b := (3, true)) (by rfl)
  simp only [Prod.mk.injEq, List.all_eq_true] at h2
  exact ⟨C, hC, h2.1, h2.2, C39_flags exRewrite_ok.1 exRewrite_ok.2.1 exRewrite_ok.2.2 (seqFilter_runs _ _) true hC⟩

end Verif
