import Verif.Lemmas.ReplaceFlags
import Verif.Props.C40
import Verif.Props.C42

/-! # C51 for `replace` -/

namespace Verif
universe u
variable {W : Type u}
open Lz

/-- The flags collected from the list. -/
theorem replaceFold_apply (t : Bool) (L : List PropBit) (b : PropBit) : ∀ (ps : List Props) (z : Props),
    (ps.foldl (fun acc p => (Props.orIf t acc (Props.keep [.notAcceptor] p)).or (Props.keep L p)) z) b = true →
    z b = true ∨ (b = .notAcceptor) ∨ b ∈ L
  | [], z, h => .inl h
  | p :: ps, z, h => by
    rw [List.foldl_cons] at h
    rcases replaceFold_apply t L b ps _ h with h | h
    · simp only [Props.or_apply, Props.orIf_apply, Props.keep, Props.and_apply, Props.of_apply, Bool.or_eq_true, Bool.and_eq_true, decide_eq_true_eq,
        List.mem_singleton] at h
      rcases h with (h | h) | h
      · exact .inl h
      · exact .inr (.inl h.2.1)
      · exact .inr (.inr h.1)
    · exact .inr h

section bits
variable {ps : List Props} {root : Nat} {epsCall epsRet outEpsCall outEpsRet transducer noEmpty allI allO dense : Bool}

theorem replace_bits (h0 : ps ≠ []) (b : PropBit) (h : Props.replace ps root epsCall epsRet outEpsCall outEpsRet transducer noEmpty allI allO dense b = true) :
    (b = .acceptor → transducer = false ∧ ∀ p ∈ ps, p .acceptor = true) ∧
    (b = .iDeterministic → epsCall = false ∧ epsRet = true ∧ (∀ p ∈ ps, p .iDeterministic = true) ∧ ∀ q ∈ ps.zipIdx, q.2 = root ∨ q.1 .noIEpsilons = true) ∧
    (b = .noIEpsilons → epsRet = false) ∧
    (b = .acyclic → ∀ p ∈ ps, p .acyclic = true) ∧
    (b = .unweighted → ∀ p ∈ ps, p .unweighted = true) ∧
    (b = .initialAcyclic → ps.getD root (fun _ => false) .initialAcyclic = true) ∧
    (b = .initialCyclic → (noEmpty = true ∧ ∀ p ∈ ps, p .accessible = true ∧ p .coaccessible = true) ∧ ps.getD root (fun _ => false) .initialCyclic = true) ∧
    (b = .coaccessible → noEmpty = true ∧ ∀ p ∈ ps, p .accessible = true ∧ p .coaccessible = true) ∧
    (b = .iLabelSorted → allI = true ∧ epsRet = true ∧ (epsCall = false ∨ dense = true)) ∧
    (b = .oLabelSorted → allO = true ∧ outEpsRet = true ∧ (outEpsCall = false ∨ dense = true)) := by
  unfold Props.replace at h
  rw [if_neg (by simpa using h0)] at h
  obtain ⟨fold, hfold⟩ : ∃ z : Props, z = ps.foldl (fun acc p => (Props.orIf transducer acc (Props.keep [.notAcceptor] p)).or
          (Props.keep [.notIDeterministic, .notODeterministic, .epsilons, .iEpsilons, .oEpsilons, .weighted, .weightedCycles, .cyclic,
            .notTopSorted, .notString] p)) (fun _ => false) := ⟨_, rfl⟩
  have hf : fold b = true → b = .notAcceptor ∨ b ∈ [.notIDeterministic, .notODeterministic, .epsilons, .iEpsilons, .oEpsilons, .weighted, .weightedCycles, .cyclic,
            .notTopSorted, .notString] := by
    intro h
    rw [hfold] at h
    rcases replaceFold_apply _ _ _ _ _ h with h | h
    · cases h
    · exact h
  simp only [← hfold] at h
  generalize hacc : (noEmpty && ps.all fun p => p.has .accessible && p.has .coaccessible) = acc at h
  have hacc' : acc = true → noEmpty = true ∧ ∀ p ∈ ps, p .accessible = true ∧ p .coaccessible = true := by
    intro h; rw [h] at hacc; simpa using hacc
  refine ⟨?_, ?_, ?_, ?_, ?_, ?_, ?_, ?_, ?_, ?_⟩
  all_goals
    intro hb
    subst hb
    have hf' : fold _ = false := Bool.eq_false_iff.2 fun h' => by simpa using hf h'
    cases acc <;> simp [Props.setIf_apply, Props.of_apply, hf'] at h hacc' <;> first | exact h | (obtain ⟨h1, h2⟩ := h; exact ⟨hacc', h1⟩) | simp_all | skip

end bits

/-- The position of the root that the flags are computed with. -/
theorem rootFold_eq (root : Label) (list : List (Label × Fst W)) :
    list.zipIdx.foldl (fun r p => if p.1.1 = root then p.2 else r) 0 = (namedBy list root).getD 0 := by
  induction list using List.reverseRecOn with
  | nil => rfl
  | append_singleton list x ih =>
    rw [List.zipIdx_append, List.foldl_append, namedBy_snoc, ih]
    simp only [List.zipIdx_singleton, List.foldl_cons, List.foldl_nil, Nat.zero_add]
    by_cases h : x.1 = root <;> simp [h]

section
variable [Zero W] [One W] [DecidableEq W] {list : List (Label × Fst W)} {root : Label} {r : Nat} {eps : Bool}

/-- Sorted labels stay sorted when an initial segment of them is replaced by 0. -/
theorem sorted_zeroed {f : Label → Bool} (hf : ∀ a b, a ≤ b → f b = true → f a = true ∨ a = 0) {l : List Label} (h : l.Pairwise (· ≤ ·)) :
    (l.map fun a => if f a then 0 else a).Pairwise (· ≤ ·) := by
  rw [List.pairwise_map]
  refine h.imp ?_
  intro a b hab
  by_cases hb : f b = true
  · rcases hf a b hab hb with ha | ha <;> simp [ha]
  · by_cases ha : f a = true
    · simp [ha]
    · simp [ha, hb]; exact hab

/-- C51 for `replace`: for well formed FSTs with truthful flags, whenever `replace` returns, these flags of the result are true: `ACCESSIBLE`,
`ACCEPTOR`, `I_DETERMINISTIC`, `ACYCLIC`, `UNWEIGHTED`, `INITIAL_ACYCLIC`, `NO_I_EPSILONS`; `COACCESSIBLE` and `INITIAL_CYCLIC` if no
final weight is zero; `I_LABEL_SORTED` if calls keep their input label; `O_LABEL_SORTED` if the FSTs have different names, none of them 0. -/
theorem C40_flags_partial (hwf : ∀ p ∈ list, p.2.WF) (ht : ∀ p ∈ list, p.2.Truthful) (hr : namedBy list root = some r) {n : Nat} {F : Fst W}
    (hF : replace list root eps n = some (.ok F)) :
    (∀ b ∈ [PropBit.accessible, .acceptor, .iDeterministic, .acyclic, .unweighted, .initialAcyclic, .noIEpsilons], F.props b = true → F.Holds b) ∧
    ((∀ p ∈ list, ∀ s, p.2.finOf s ≠ some 0) → ∀ b ∈ [PropBit.coaccessible, .initialCyclic], F.props b = true → F.Holds b) ∧
    (eps = false → F.props .iLabelSorted = true → F.Holds .iLabelSorted) ∧
    ((list.map (·.1)).Nodup → 0 ∉ list.map (·.1) → F.props .oLabelSorted = true → F.Holds .oLabelSorted) := by
  obtain ⟨g, h1, h2, h3, h4, h5⟩ := RGrammar.new_net eps hr hwf
  obtain ⟨F', ⟨N, hN⟩, _, _, e4, nm, e5⟩ := replace_present h1 h2 (.inr ⟨n, by rw [hF]; simp⟩)
  obtain rfl : F' = F := by
    have h6 : ∀ m, n ≤ m → replace list root eps m = some (.ok F) := by
      intro m hm
      rw [replace_run h1] at hF ⊢
      simp only [Option.map_eq_some_iff] at hF ⊢
      obtain ⟨⟨a, z⟩, h4, h5⟩ := hF
      refine ⟨(a, z), ?_, h5⟩
      induction m, hm using Nat.le_induction with
      | base => exact h4
      | succ m _ ih => exact compute_more _ _ ih
    have h7 := hN (max N n) (Nat.le_max_left _ _)
    rw [h6 _ (Nat.le_max_right _ _)] at h7
    injection h7 with h7
    injection h7 with h7
    exact h7.symm
  have hnr : ¬ g.net.rtn.Recursive g.net.root := by
    rw [h4, h3]
    exact (C40_ends hwf hr).1 ⟨n, by rw [hF]; simp⟩
  by_cases hst : g.net.machine.start = none
  · rw [if_pos hst] at e4
    have := presents_none e5 hst e4
    subst this
    exact ⟨fun b _ => Fst.truthful_new b, fun _ b _ => Fst.truthful_new b, fun _ => Fst.truthful_new _, fun _ _ => Fst.truthful_new _⟩
  rw [if_neg hst, h5] at e4
  -- the FSTs of the network
  have hfst : ∀ i, g.net.fst i = (list[i]?.map (·.2)).getD ⟨[], none, fun _ => false⟩ := fun i => by
    have : g.net.rtn.fst i = (rtnOf list eps).fst i := by rw [h4]
    exact this
  have hcallee : ∀ tr, g.net.callee tr = if tr.olabel = EPS then none else namedBy list tr.olabel := fun tr => by
    have : g.net.rtn.callee tr = (rtnOf list eps).callee tr := by rw [h4]
    exact this
  have hp0 : list.map (·.2.props) ≠ [] := by
    intro he
    rw [List.map_eq_nil_iff] at he
    subst he
    cases hr
  have hflag : ∀ (b : PropBit), (∀ p ∈ list.map (·.2.props), p b = true) → ∀ i, i < list.length → (g.net.fst i).Holds b := by
    intro b hb i hi
    rw [hfst, List.getElem?_eq_getElem hi]
    exact ht _ (List.getElem_mem hi) b (hb _ (List.mem_map_of_mem (f := fun p : Label × Fst W => p.2.props) (List.getElem_mem hi)))
  have hlen : ∀ {c}, g.net.machine.Reach c → c.fst < list.length := by
    intro c hc
    have := (RGrammar.reach_valid h2 hc).1.1
    have h6 : g.fsts.length = list.length := by
      obtain ⟨g', k1, _, k3, _⟩ := RGrammar.new_some (o := ROpts.new root eps) hr
      rw [h1] at k1
      injection k1 with k1
      rw [k1, k3, List.length_map]
    rwa [h6] at this
  have hempty : ∀ i, ¬ i < list.length → g.net.fst i = ⟨[], none, fun _ => false⟩ := by
    intro i hi
    rw [hfst, List.getElem?_eq_none (by omega)]
    rfl
  obtain ⟨g', k1, k2, k3, k4, k5, k6, k7, k8, k9, _⟩ := RGrammar.new_some (o := ROpts.new root eps) hr
  rw [h1] at k1
  injection k1 with k1
  subst k1
  have hcallIn : ∀ tr, g.net.callIn tr = if eps then 0 else tr.ilabel := by
    intro tr
    simp only [RGrammar.net, k8, ROpts.new]
    cases eps <;> simp [RLabelType.epsIn]
  have hcallOut : ∀ tr, g.net.callOut tr = 0 := by
    intro tr
    simp only [RGrammar.net, k8, ROpts.new]
    cases eps <;> simp [RLabelType.epsOut]
  have hretIn : g.net.retIn = 0 := by
    simp only [RGrammar.net, k9, ROpts.new]
    simp [RLabelType.epsIn]
  have hretOut : g.net.retOut = 0 := by
    simp only [RGrammar.net, k9, ROpts.new]
    simp [RLabelType.epsOut]
  have hrootlt : g.net.root < list.length := by rw [h3]; exact (namedBy_some hr).1
  have hcalleelt : ∀ tr j, g.net.callee tr = some j → j < list.length := by
    intro tr j hj
    rw [hcallee] at hj
    by_cases ho : tr.olabel = EPS
    · rw [if_pos ho] at hj; cases hj
    · rw [if_neg ho] at hj; exact (namedBy_some hj).1
  have hbits := fun b (hb : replaceProps list (ROpts.new root eps) b = true) => replace_bits hp0 b hb
  rw [← e4] at hbits
  have hroot : ∀ b, (list.map (·.2.props)).getD (list.zipIdx.foldl (fun r p => if p.1.1 = (ROpts.new root eps).root then p.2 else r) 0) (fun _ => false) b = true →
      (g.net.fst g.net.root).Holds b := by
    intro b hb
    have hro : (ROpts.new root eps).root = root := rfl
    rw [hro, rootFold_eq, hr] at hb
    simp only [Option.getD_some] at hb
    obtain ⟨hl, f, hf⟩ := namedBy_some hr
    rw [List.getD_eq_getElem?_getD, List.getElem?_map, hf] at hb
    rw [hfst, h3, hf]
    exact ht _ (List.mem_of_getElem? hf) b hb
  refine ⟨?_, ?_, ?_, ?_⟩
  · intro b hb hp
    obtain ⟨b1, b2, b3, b4, b5, b6, _⟩ := hbits b hp
    simp only [List.mem_cons, List.not_mem_nil, or_false] at hb
    rcases hb with rfl | rfl | rfl | rfl | rfl | rfl | rfl
    · exact e5.accessible
    · obtain ⟨c1, c2⟩ := b1 rfl
      have heps : eps = true := by
        cases eps with
        | true => rfl
        | false => simp [replaceTransducer, ROpts.new] at c1
      refine e5.all_trs (fun il ol _ => il = ol) fun t ht' a ha => ?_
      rcases RNet.mem_trs ha with ⟨w, _, _, q1, q2⟩ | ⟨tr, htr, _, ⟨q1, q2⟩ | ⟨_, q1, q2⟩⟩
      · rw [q1, q2, hretIn, hretOut]
      · rw [q1, q2]; exact hflag .acceptor c2 t.fst (hlen ht') t.state tr htr
      · rw [q1, q2, hcallIn, hcallOut, heps]; rfl
    · obtain ⟨c1, _, c3, c4⟩ := b2 rfl
      have heps : eps = false := by
        cases eps with
        | false => rfl
        | true => simp [ROpts.new, RLabelType.epsIn] at c1
      refine e5.all_ilabels List.Nodup List.nodup_nil fun t ht' => ?_
      have hsub := RNet.trs_ilabels (N := g.net) (fun tr => by rw [hcallIn, heps]; rfl) t
      have hnd : (((g.net.fst t.fst).trsOf t.state).map (·.ilabel)).Nodup := hflag .iDeterministic c3 t.fst (hlen ht') t.state
      rw [RNet.machine_trs, List.map_append]
      rcases RNet.ret_labels (N := g.net) t with q | ⟨q1, q2⟩
      · rw [q, List.nil_append]; exact hnd.sublist hsub
      · rw [q2, hretIn, List.singleton_append, List.nodup_cons]
        refine ⟨fun h0 => ?_, hnd.sublist hsub⟩
        have h0' := hsub.subset h0
        have hne := RNet.not_root hnr ht' q1
        have hro : (ROpts.new root eps).root = root := rfl
        rw [hro, rootFold_eq, hr] at c4
        have hlt := hlen ht'
        rcases c4 ((list[t.fst]).2.props, t.fst) (by
          rw [List.mem_zipIdx_iff_getElem?, List.getElem?_map, List.getElem?_eq_getElem hlt]; rfl) with c5 | c5
        · exact hne (by rw [h3]; exact c5)
        · have hh := ht _ (List.getElem_mem hlt) .noIEpsilons c5
          rw [hfst, List.getElem?_eq_getElem hlt] at h0'
          obtain ⟨tr, htr, h00⟩ := List.mem_map.1 h0'
          exact hh ⟨t.state, tr, htr, h00⟩
    · rw [e5.holds_acyclic]
      intro t _
      refine RNet.acyclic (N := g.net) (fun i s hs => ?_) _ t rfl
      by_cases hi : i < list.length
      · exact hflag .acyclic (b4 rfl) i hi ⟨s, hs⟩
      · rw [hempty i hi] at hs
        obtain ⟨q, ⟨tr, htr, _⟩, _⟩ := Relation.TransGen.head'_iff.1 hs
        simp [Fst.trsOf] at htr
    · refine e5.holds_unweighted fun t ht' => ?_
      have hh := hflag .unweighted (b5 rfl) t.fst (hlen ht')
      refine ⟨fun a ha => ?_, fun w hw => ?_⟩
      · rcases RNet.mem_trs ha with ⟨w, q0, q, _⟩ | ⟨tr, htr, q, _⟩
        · rw [q]; exact hh.2 _ _ q0
        · rw [q]; exact hh.1 _ tr htr
      · simp only [RNet.machine] at hw
        by_cases hs : t.stack = []
        · rw [if_pos hs] at hw; exact hh.2 _ _ hw
        · rw [if_neg hs] at hw; cases hw
    · rw [e5.holds_initialAcyclic]
      intro t hts hc
      simp only [RNet.machine, Option.map_eq_some_iff] at hts
      obtain ⟨s, hs, rfl⟩ := hts
      exact hroot .initialAcyclic (b6 rfl) ⟨s, hs, RNet.initial_acyclic hc⟩
    · have := b3 rfl
      simp [ROpts.new, RLabelType.epsIn] at this
  · intro hz b hb hp
    obtain ⟨_, _, _, _, _, _, b7, b8, _⟩ := hbits b hp
    have hz' : ∀ i s, (g.net.fst i).finOf s ≠ some 0 := by
      intro i s
      by_cases hi : i < list.length
      · rw [hfst, List.getElem?_eq_getElem hi]; exact hz _ (List.getElem_mem hi) s
      · rw [hempty i hi]; simp [Fst.finOf]
    have hacc : ((list.all fun p => p.2.start.isSome) = true ∧ ∀ p ∈ list.map (·.2.props), p .accessible = true ∧ p .coaccessible = true) →
        (∀ i, i < list.length → ∃ q, (g.net.fst i).start = some q) ∧ ∀ i, i < list.length → ∀ s, g.net.rtn.Arrives i s → (g.net.fst i).Coaccessible s := by
      rintro ⟨c1, c2⟩
      constructor
      · intro i hi
        rw [List.all_eq_true] at c1
        rw [hfst, List.getElem?_eq_getElem hi]
        exact Option.isSome_iff_exists.1 (c1 _ (List.getElem_mem hi))
      · intro i hi s hs
        refine hflag .coaccessible (fun p hp => (c2 p hp).2) i hi s ?_
        have hwfi : (g.net.fst i).WF := by rw [hfst, List.getElem?_eq_getElem hi]; exact hwf _ (List.getElem_mem hi)
        cases hs with
        | start h => exact hwfi.start_lt _ h
        | step _ h _ => exact hwfi.next_lt _ _ h
        | call _ h _ _ _ _ => exact hwfi.next_lt _ _ h
    simp only [List.mem_cons, List.not_mem_nil, or_false] at hb
    rcases hb with rfl | rfl
    · obtain ⟨c1, c2⟩ := hacc (b8 rfl)
      exact e5.holds_coaccessible fun t ht' => RNet.coaccessible hnr hrootlt hcalleelt c1 hz' c2 ht'
    · obtain ⟨c0, c3⟩ := b7 rfl
      obtain ⟨c1, c2⟩ := hacc c0
      obtain ⟨s, hs, hc⟩ := hroot .initialCyclic c3
      rw [e5.holds_initialCyclic]
      exact ⟨⟨[], g.net.root, s⟩, by simp [RNet.machine, hs], RNet.initial_cyclic hnr hrootlt hcalleelt c1 hz' c2 hs hc⟩
  · intro heps hp
    obtain ⟨_, _, _, _, _, _, _, _, b9, _⟩ := hbits _ hp
    obtain ⟨c1, _, _⟩ := b9 rfl
    refine e5.all_ilabels (List.Pairwise (· ≤ ·)) List.Pairwise.nil fun t ht' => ?_
    have hsub := RNet.trs_ilabels (N := g.net) (fun tr => by rw [hcallIn, heps]; rfl) t
    have hs : (((g.net.fst t.fst).trsOf t.state).map (·.ilabel)).Pairwise (· ≤ ·) := by
      refine hflag .iLabelSorted (fun p hp => ?_) t.fst (hlen ht') t.state
      obtain ⟨q, hq, rfl⟩ := List.mem_map.1 hp
      exact List.all_eq_true.1 c1 q hq
    rw [RNet.machine_trs, List.map_append]
    rcases RNet.ret_labels (N := g.net) t with q | ⟨_, q⟩
    · rw [q, List.nil_append]; exact hs.sublist hsub
    · rw [q, hretIn, List.singleton_append, List.pairwise_cons]
      exact ⟨fun _ _ => Nat.zero_le _, hs.sublist hsub⟩
  · intro hnd h0 hp
    obtain ⟨_, _, _, _, _, _, _, _, _, b10⟩ := hbits _ hp
    obtain ⟨c1, _, c3⟩ := b10 rfl
    have hdense : ∀ l ∈ list.map (·.1), l ≤ list.length := by
      rcases c3 with c3 | c3
      · cases eps <;> simp [ROpts.new, RLabelType.epsOut] at c3
      · intro l hl
        obtain ⟨q, hq, rfl⟩ := List.mem_map.1 hl
        simpa using List.all_eq_true.1 c3 q hq
    have hall : ∀ l, 0 < l → l ≤ list.length → l ∈ list.map (·.1) := by
      intro l hl0 hl
      have hsub : list.map (·.1) ⊆ List.range' 1 list.length := by
        intro k hk
        have := hdense k hk
        have : k ≠ 0 := fun e => h0 (e ▸ hk)
        rw [List.mem_range'_1]
        omega
      have hperm := (List.subperm_of_subset hnd hsub).perm_of_length_le (by simp)
      rw [hperm.mem_iff, List.mem_range'_1]
      omega
    refine e5.all_olabels (List.Pairwise (· ≤ ·)) List.Pairwise.nil fun t ht' => ?_
    have hsub := RNet.trs_olabels (N := g.net) hcallOut t
    have hs : (((g.net.fst t.fst).trsOf t.state).map (·.olabel)).Pairwise (· ≤ ·) := by
      refine hflag .oLabelSorted (fun p hp => ?_) t.fst (hlen ht') t.state
      obtain ⟨q, hq, rfl⟩ := List.mem_map.1 hp
      exact List.all_eq_true.1 c1 q hq
    have hs' : (((g.net.fst t.fst).trsOf t.state).map fun tr => if (g.net.callee tr).isSome then 0 else tr.olabel).Pairwise (· ≤ ·) := by
      have := sorted_zeroed (f := fun l => ((if l = EPS then none else namedBy list l) : Option Nat).isSome) ?_ hs
      · rw [List.map_map] at this
        simpa [Function.comp_def, hcallee] using this
      · intro a b hab hb
        by_cases ha0 : a = 0
        · exact .inr ha0
        · left
          by_cases hb0 : b = EPS
          · rw [if_pos hb0] at hb; cases hb
          · rw [if_neg hb0] at hb
            rw [if_neg ha0]
            obtain ⟨j, hj⟩ := Option.isSome_iff_exists.1 hb
            obtain ⟨_, f, hf⟩ := namedBy_some hj
            have hbl := hdense b (List.mem_map_of_mem (f := fun p : Label × Fst W => p.1) (List.mem_of_getElem? hf))
            have hal := hall a (Nat.pos_of_ne_zero ha0) (Nat.le_trans hab hbl)
            cases hn : namedBy list a with
            | none => exact absurd hal (namedBy_none.1 hn)
            | some k => rfl
    rw [RNet.machine_trs, List.map_append]
    rcases RNet.ret_olabels (N := g.net) t with q | q
    · rw [q, List.nil_append]; exact hs'.sublist hsub
    · rw [q, hretOut, List.singleton_append, List.pairwise_cons]
      exact ⟨fun _ _ => Nat.zero_le _, hs'.sublist hsub⟩

end

/-! ### Examples and defects -/

theorem replace_out {x : Option (R (Fst Nat))} {states : List (State Nat)} {start : Option StateId} {b : PropBit}
    (h : x.map (fun r => r.toOption.map fun F => (F.states, F.start, F.props b)) = some (some (states, start, true))) :
    ∃ props : Props, x = some (.ok ⟨states, start, props⟩) ∧ props b = true := by
  obtain ⟨⟨s, i, p⟩, h1, h2⟩ := out_of_ok (fun F : Fst Nat => (F.states, F.start, F.props b)) h
  simp only [Prod.mk.injEq] at h2
  obtain ⟨rfl, rfl, h3⟩ := h2
  exact ⟨p, h1, h3⟩

/-- Two states, all transitions from the first to the second, the second is final. -/
def exTwo (trs : List (Tr Nat)) (w : Nat) (fl : List PropBit) : Fst Nat := ⟨[⟨none, trs, 0, 0⟩, ⟨some w, [], 0, 0⟩], some 0, Props.of fl⟩

theorem exTwo_trs {trs : List (Tr Nat)} {w fl s tr} (h : tr ∈ (exTwo trs w fl).trsOf s) : s = 0 ∧ tr ∈ trs := by
  match s, h with
  | 0, h => exact ⟨rfl, by simpa [exTwo, Fst.trsOf] using h⟩
  | 1, h => simp [exTwo, Fst.trsOf] at h
  | n + 2, h => simp [exTwo, Fst.trsOf] at h

theorem exTwo_conn {trs : List (Tr Nat)} {w fl} (h : ∃ tr ∈ trs, tr.nextstate = 1) : (exTwo trs w fl).Holds .accessible ∧ (exTwo trs w fl).Holds .coaccessible := by
  obtain ⟨tr, h1, h2⟩ := h
  have he : (exTwo trs w fl).Edge 0 1 := ⟨tr, by simpa [exTwo, Fst.trsOf] using h1, h2⟩
  constructor <;> intro s hs
  · match s, hs with
    | 0, _ => exact ⟨0, rfl, .refl⟩
    | 1, _ => exact ⟨0, rfl, .single he⟩
    | n + 2, hs => simp [exTwo, Fst.numStates] at hs
  · match s, hs with
    | 0, _ => exact ⟨1, .single he, rfl⟩
    | 1, _ => exact ⟨1, .refl, rfl⟩
    | n + 2, hs => simp [exTwo, Fst.numStates] at hs

theorem exTwo_truthful {trs : List (Tr Nat)} {w fl} (h : ∃ tr ∈ trs, tr.nextstate = 1)
    (hf : ∀ b ∈ fl, b = .accessible ∨ b = .coaccessible ∨ (exTwo trs w fl).Holds b) : (exTwo trs w fl).Truthful := by
  intro b hb
  have hb' : b ∈ fl := by simpa [exTwo, Props.of_apply] using hb
  rcases hf b hb' with rfl | rfl | h'
  · exact (exTwo_conn h).1
  · exact (exTwo_conn h).2
  · exact h'

/-- The hypotheses of `C40_flags_partial` are met, with flags set. -/
example : (∀ p ∈ [((10 : Label), exTwo [⟨1, 20, 1, 1⟩, ⟨2, 5, 1, 1⟩] 1 [.accessible, .coaccessible, .iDeterministic]), (20, exTwo [⟨3, 3, 1, 1⟩] 1 [.accessible, .coaccessible, .iDeterministic, .noIEpsilons])],
      p.2.Truthful) ∧
    (replace [((10 : Label), exTwo [⟨1, 20, 1, 1⟩, ⟨2, 5, 1, 1⟩] 1 [.accessible, .coaccessible, .iDeterministic]), (20, exTwo [⟨3, 3, 1, 1⟩] 1 [.accessible, .coaccessible, .iDeterministic, .noIEpsilons])]
      10 false 10).map (fun r => r.toOption.map fun F => (F.props .iDeterministic, F.props .coaccessible)) = some (some (true, true)) := by
  refine ⟨?_, by decide +kernel⟩
  intro p hp
  simp only [List.mem_cons, List.not_mem_nil, or_false] at hp
  rcases hp with rfl | rfl
  · refine exTwo_truthful ⟨_, List.mem_cons_self .., rfl⟩ ?_
    intro b hb
    simp only [List.mem_cons, List.not_mem_nil, or_false] at hb
    rcases hb with rfl | rfl | rfl
    · exact .inl rfl
    · exact .inr (.inl rfl)
    · refine .inr (.inr fun s => ?_)
      match s with
      | 0 => simp [exTwo, Fst.trsOf]
      | 1 => simp [exTwo, Fst.trsOf]
      | n + 2 => simp [exTwo, Fst.trsOf]
  · refine exTwo_truthful ⟨_, List.mem_cons_self .., rfl⟩ ?_
    intro b hb
    simp only [List.mem_cons, List.not_mem_nil, or_false] at hb
    rcases hb with rfl | rfl | rfl | rfl
    · exact .inl rfl
    · exact .inr (.inl rfl)
    · refine .inr (.inr fun s => ?_)
      match s with
      | 0 => simp [exTwo, Fst.trsOf]
      | 1 => simp [exTwo, Fst.trsOf]
      | n + 2 => simp [exTwo, Fst.trsOf]
    · refine .inr (.inr ?_)
      rintro ⟨s, tr, htr, h0⟩
      have := (exTwo_trs htr).2
      simp only [List.mem_singleton] at this
      subst this
      cases h0

/-- One transition, from state 1 to state 0. -/
def exBack : Fst Nat := ⟨[⟨some 1, [], 0, 0⟩, ⟨none, [⟨5, 5, 1, 0⟩], 0, 0⟩], some 1, Props.of [.notTopSorted, .accessible, .coaccessible]⟩

/-- Defect: `NOT_TOP_SORTED` is copied although the states are numbered anew. -/
theorem C40_not_top_sorted_defect : exBack.Truthful ∧
    ∃ F, replace [((1 : Label), exBack)] 1 true 10 = some (.ok F) ∧ F.props .notTopSorted = true ∧ ¬ F.Holds .notTopSorted := by
  constructor
  · have he : exBack.Edge 1 0 := ⟨⟨5, 5, 1, 0⟩, by simp [exBack, Fst.trsOf], rfl⟩
    intro b hb
    have hb' : b = .notTopSorted ∨ b = .accessible ∨ b = .coaccessible := by simpa [exBack, Props.of_apply] using hb
    rcases hb' with rfl | rfl | rfl
    · intro h
      have := h 1 ⟨5, 5, 1, 0⟩ (by simp [exBack, Fst.trsOf])
      simp at this
    · intro s hs
      match s, hs with
      | 0, _ => exact ⟨1, rfl, .single he⟩
      | 1, _ => exact ⟨1, rfl, .refl⟩
      | n + 2, hs => simp [exBack, Fst.numStates] at hs
    · intro s hs
      match s, hs with
      | 0, _ => exact ⟨0, .refl, rfl⟩
      | 1, _ => exact ⟨0, .single he, rfl⟩
      | n + 2, hs => simp [exBack, Fst.numStates] at hs
  · obtain ⟨p, h1, h2⟩ := replace_out (x := replace [((1 : Label), exBack)] 1 true 10) (states := [⟨none, [⟨5, 5, 1, 1⟩], 0, 0⟩, ⟨some 1, [], 0, 0⟩])
      (start := some 0) (b := .notTopSorted) (by decide +kernel)
    refine ⟨_, h1, h2, fun h => h ?_⟩
    intro s tr htr
    match s, htr with
    | 0, htr => simp [Fst.trsOf] at htr; subst htr; decide
    | 1, htr => simp [Fst.trsOf] at htr
    | n + 2, htr => simp [Fst.trsOf] at htr

/-- A final state with a loop. -/
def exLoop : Fst Nat := ⟨[⟨some 1, [⟨5, 5, 1, 0⟩], 0, 0⟩], some 0, Props.of [.cyclic, .accessible, .coaccessible]⟩

/-- Defect: `CYCLIC` (and likewise `WEIGHTED`, `EPSILONS`, …) is taken over from an FST of the list that is never called. -/
theorem C40_unused_defect : exLoop.Truthful ∧ (exTwo [⟨5, 5, 1, 1⟩] 1 [.accessible, .coaccessible]).Truthful ∧
    ∃ F, replace [((1 : Label), exTwo [⟨5, 5, 1, 1⟩] 1 [.accessible, .coaccessible]), (2, exLoop)] 1 true 10 = some (.ok F) ∧ F.props .cyclic = true ∧ ¬ F.Holds .cyclic := by
  refine ⟨?_, exTwo_truthful ⟨_, List.mem_cons_self .., rfl⟩ (by simp), ?_⟩
  · intro b hb
    have hb' : b = .cyclic ∨ b = .accessible ∨ b = .coaccessible := by simpa [exLoop, Props.of_apply] using hb
    rcases hb' with rfl | rfl | rfl
    · exact ⟨0, .single ⟨⟨5, 5, 1, 0⟩, by simp [exLoop, Fst.trsOf], rfl⟩⟩
    · intro s hs
      have : s = 0 := by simpa [exLoop, Fst.numStates] using hs
      subst this
      exact ⟨0, rfl, .refl⟩
    · intro s hs
      have : s = 0 := by simpa [exLoop, Fst.numStates] using hs
      subst this
      exact ⟨0, .refl, rfl⟩
  · obtain ⟨p, h1, h2⟩ := replace_out (x := replace [((1 : Label), exTwo [⟨5, 5, 1, 1⟩] 1 [.accessible, .coaccessible]), (2, exLoop)] 1 true 10)
      (states := [⟨none, [⟨5, 5, 1, 1⟩], 0, 0⟩, ⟨some 1, [], 0, 0⟩]) (start := some 0) (b := .cyclic) (by decide +kernel)
    refine ⟨_, h1, h2, ?_⟩
    refine not_exists.2 fun s hs => (Fst.acyclic_of_topSorted ?_) ⟨s, hs⟩
    intro s tr htr
    match s, htr with
    | 0, htr => simp [Fst.trsOf] at htr; subst htr; decide
    | 1, htr => simp [Fst.trsOf] at htr
    | n + 2, htr => simp [Fst.trsOf] at htr

/-- Defect: when calls read nothing, `I_LABEL_SORTED` is kept if all names are at most the number of FSTs. But names are output labels: here the input labels
`3, 5` become `3, 0`. -/
theorem C40_ilabel_sorted_defect : (exTwo [⟨3, 3, 1, 1⟩, ⟨5, 2, 1, 1⟩] 1 [.iLabelSorted]).Truthful ∧ (exTwo [⟨7, 7, 1, 1⟩] 1 [.iLabelSorted]).Truthful ∧
    ∃ F, replace [((1 : Label), exTwo [⟨3, 3, 1, 1⟩, ⟨5, 2, 1, 1⟩] 1 [.iLabelSorted]), (2, exTwo [⟨7, 7, 1, 1⟩] 1 [.iLabelSorted])] 1 true 10 = some (.ok F) ∧
      F.props .iLabelSorted = true ∧ ¬ F.Holds .iLabelSorted := by
  refine ⟨exTwo_truthful ⟨_, List.mem_cons_self .., rfl⟩ ?_, exTwo_truthful ⟨_, List.mem_cons_self .., rfl⟩ ?_, ?_⟩
  · intro b hb
    rw [List.mem_singleton] at hb
    subst hb
    refine .inr (.inr fun s => ?_)
    match s with
    | 0 => simp [exTwo, Fst.trsOf]
    | 1 => simp [exTwo, Fst.trsOf]
    | n + 2 => simp [exTwo, Fst.trsOf]
  · intro b hb
    rw [List.mem_singleton] at hb
    subst hb
    refine .inr (.inr fun s => ?_)
    match s with
    | 0 => simp [exTwo, Fst.trsOf]
    | 1 => simp [exTwo, Fst.trsOf]
    | n + 2 => simp [exTwo, Fst.trsOf]
  · obtain ⟨p, h1, h2⟩ := replace_out (x := replace [((1 : Label), exTwo [⟨3, 3, 1, 1⟩, ⟨5, 2, 1, 1⟩] 1 [.iLabelSorted]), (2, exTwo [⟨7, 7, 1, 1⟩] 1 [.iLabelSorted])] 1 true 10)
      (states := [⟨none, [⟨3, 3, 1, 1⟩, ⟨0, 0, 1, 2⟩], 1, 1⟩, ⟨some 1, [], 0, 0⟩, ⟨none, [⟨7, 7, 1, 3⟩], 0, 0⟩, ⟨none, [⟨0, 0, 1, 1⟩], 1, 1⟩])
      (start := some 0) (b := .iLabelSorted) (by decide +kernel)
    refine ⟨_, h1, h2, fun h => ?_⟩
    have := h 0
    simp [Fst.trsOf] at this

/-- Defect: the same with `O_LABEL_SORTED`, because a name used twice is counted twice: the output labels `1, 2` become `1, 0`. -/
theorem C40_olabel_sorted_defect : (exTwo [⟨1, 1, 1, 1⟩, ⟨2, 2, 1, 1⟩] 1 [.oLabelSorted]).Truthful ∧ (exTwo [⟨7, 7, 1, 1⟩] 1 [.oLabelSorted]).Truthful ∧
    ∃ F, replace [((3 : Label), exTwo [⟨7, 7, 1, 1⟩] 1 [.oLabelSorted]), (3, exTwo [⟨1, 1, 1, 1⟩, ⟨2, 2, 1, 1⟩] 1 [.oLabelSorted]),
        (2, exTwo [⟨7, 7, 1, 1⟩] 1 [.oLabelSorted])] 3 false 10 = some (.ok F) ∧
      F.props .oLabelSorted = true ∧ ¬ F.Holds .oLabelSorted := by
  refine ⟨exTwo_truthful ⟨_, List.mem_cons_self .., rfl⟩ ?_, exTwo_truthful ⟨_, List.mem_cons_self .., rfl⟩ ?_, ?_⟩
  · intro b hb
    rw [List.mem_singleton] at hb
    subst hb
    refine .inr (.inr fun s => ?_)
    match s with
    | 0 => simp [exTwo, Fst.trsOf]
    | 1 => simp [exTwo, Fst.trsOf]
    | n + 2 => simp [exTwo, Fst.trsOf]
  · intro b hb
    rw [List.mem_singleton] at hb
    subst hb
    refine .inr (.inr fun s => ?_)
    match s with
    | 0 => simp [exTwo, Fst.trsOf]
    | 1 => simp [exTwo, Fst.trsOf]
    | n + 2 => simp [exTwo, Fst.trsOf]
  · obtain ⟨p, h1, h2⟩ := replace_out (x := replace [((3 : Label), exTwo [⟨7, 7, 1, 1⟩] 1 [.oLabelSorted]), (3, exTwo [⟨1, 1, 1, 1⟩, ⟨2, 2, 1, 1⟩] 1 [.oLabelSorted]),
        (2, exTwo [⟨7, 7, 1, 1⟩] 1 [.oLabelSorted])] 3 false 10)
      (states := [⟨none, [⟨1, 1, 1, 1⟩, ⟨2, 0, 1, 2⟩], 0, 1⟩, ⟨some 1, [], 0, 0⟩, ⟨none, [⟨7, 7, 1, 3⟩], 0, 0⟩, ⟨none, [⟨0, 0, 1, 1⟩], 1, 1⟩])
      (start := some 0) (b := .oLabelSorted) (by decide +kernel)
    refine ⟨_, h1, h2, fun h => ?_⟩
    have := h 0
    simp [Fst.trsOf] at this

/-- Defect: `NOT_ACCEPTOR` is kept although the transition that is to blame is a call and reads and writes nothing in the result. -/
theorem C40_not_acceptor_defect : (exTwo [⟨0, 20, 1, 1⟩] 1 [.notAcceptor, .accessible, .coaccessible]).Truthful ∧ (exTwo [⟨7, 7, 1, 1⟩] 1 [.accessible, .coaccessible]).Truthful ∧
    ∃ F, replace [((10 : Label), exTwo [⟨0, 20, 1, 1⟩] 1 [.notAcceptor, .accessible, .coaccessible]), (20, exTwo [⟨7, 7, 1, 1⟩] 1 [.accessible, .coaccessible])] 10 false 10 = some (.ok F) ∧
      F.props .notAcceptor = true ∧ ¬ F.Holds .notAcceptor := by
  refine ⟨exTwo_truthful ⟨_, List.mem_cons_self .., rfl⟩ ?_, exTwo_truthful ⟨_, List.mem_cons_self .., rfl⟩ (by simp), ?_⟩
  · intro b hb
    simp only [List.mem_cons, List.not_mem_nil, or_false] at hb
    rcases hb with rfl | rfl | rfl
    · refine .inr (.inr fun h => ?_)
      have := h 0 ⟨0, 20, 1, 1⟩ (by simp [exTwo, Fst.trsOf])
      cases this
    · exact .inl rfl
    · exact .inr (.inl rfl)
  · obtain ⟨p, h1, h2⟩ := replace_out (x := replace [((10 : Label), exTwo [⟨0, 20, 1, 1⟩] 1 [.notAcceptor, .accessible, .coaccessible]), (20, exTwo [⟨7, 7, 1, 1⟩] 1 [.accessible, .coaccessible])] 10 false 10)
      (states := [⟨none, [⟨0, 0, 1, 1⟩], 1, 1⟩, ⟨none, [⟨7, 7, 1, 2⟩], 0, 0⟩, ⟨none, [⟨0, 0, 1, 3⟩], 1, 1⟩, ⟨some 1, [], 0, 0⟩])
      (start := some 0) (b := .notAcceptor) (by decide +kernel)
    refine ⟨_, h1, h2, fun h => h ?_⟩
    intro s tr htr
    match s, htr with
    | 0, htr => simp [Fst.trsOf] at htr; subst htr; rfl
    | 1, htr => simp [Fst.trsOf] at htr; subst htr; rfl
    | 2, htr => simp [Fst.trsOf] at htr; subst htr; rfl
    | 3, htr => simp [Fst.trsOf] at htr
    | n + 4, htr => simp [Fst.trsOf] at htr

/-- Defect: `NOT_I_DETERMINISTIC` is kept although one of the two transitions with the same input label is a call and loses that label. -/
theorem C40_not_deterministic_defect : (exTwo [⟨5, 20, 1, 1⟩, ⟨5, 6, 1, 1⟩] 1 [.notIDeterministic, .accessible, .coaccessible]).Truthful ∧
    (exTwo [⟨7, 7, 1, 1⟩] 1 [.accessible, .coaccessible]).Truthful ∧
    ∃ F, replace [((10 : Label), exTwo [⟨5, 20, 1, 1⟩, ⟨5, 6, 1, 1⟩] 1 [.notIDeterministic, .accessible, .coaccessible]),
        (20, exTwo [⟨7, 7, 1, 1⟩] 1 [.accessible, .coaccessible])] 10 true 10 = some (.ok F) ∧
      F.props .notIDeterministic = true ∧ ¬ F.Holds .notIDeterministic := by
  refine ⟨exTwo_truthful ⟨_, List.mem_cons_self .., rfl⟩ ?_, exTwo_truthful ⟨_, List.mem_cons_self .., rfl⟩ (by simp), ?_⟩
  · intro b hb
    simp only [List.mem_cons, List.not_mem_nil, or_false] at hb
    rcases hb with rfl | rfl | rfl
    · refine .inr (.inr fun h => ?_)
      have := h 0
      simp [exTwo, Fst.trsOf] at this
    · exact .inl rfl
    · exact .inr (.inl rfl)
  · obtain ⟨p, h1, h2⟩ := replace_out (x := replace [((10 : Label), exTwo [⟨5, 20, 1, 1⟩, ⟨5, 6, 1, 1⟩] 1 [.notIDeterministic, .accessible, .coaccessible]),
        (20, exTwo [⟨7, 7, 1, 1⟩] 1 [.accessible, .coaccessible])] 10 true 10)
      (states := [⟨none, [⟨0, 0, 1, 1⟩, ⟨5, 6, 1, 2⟩], 1, 1⟩, ⟨none, [⟨7, 7, 1, 3⟩], 0, 0⟩, ⟨some 1, [], 0, 0⟩, ⟨none, [⟨0, 0, 1, 2⟩], 1, 1⟩])
      (start := some 0) (b := .notIDeterministic) (by decide +kernel)
    refine ⟨_, h1, h2, fun h => h ?_⟩
    intro s
    match s with
    | 0 => simp [Fst.trsOf]
    | 1 => simp [Fst.trsOf]
    | 2 => simp [Fst.trsOf]
    | 3 => simp [Fst.trsOf]
    | n + 4 => simp [Fst.trsOf]

/-- Defect: `COACCESSIBLE` is kept although there is no return from a final state of weight zero. -/
theorem C40_coaccessible_defect : (exTwo [⟨5, 20, 1, 1⟩] 1 [.accessible, .coaccessible]).Truthful ∧ (exTwo [⟨7, 7, 1, 1⟩] 0 [.accessible, .coaccessible]).Truthful ∧
    ∃ F, replace [((10 : Label), exTwo [⟨5, 20, 1, 1⟩] 1 [.accessible, .coaccessible]), (20, exTwo [⟨7, 7, 1, 1⟩] 0 [.accessible, .coaccessible])] 10 true 10 = some (.ok F) ∧
      F.props .coaccessible = true ∧ ¬ F.Holds .coaccessible := by
  refine ⟨exTwo_truthful ⟨_, List.mem_cons_self .., rfl⟩ (by simp), exTwo_truthful ⟨_, List.mem_cons_self .., rfl⟩ (by simp), ?_⟩
  obtain ⟨p, h1, h2⟩ := replace_out (x := replace [((10 : Label), exTwo [⟨5, 20, 1, 1⟩] 1 [.accessible, .coaccessible]), (20, exTwo [⟨7, 7, 1, 1⟩] 0 [.accessible, .coaccessible])] 10 true 10)
    (states := [⟨none, [⟨0, 0, 1, 1⟩], 1, 1⟩, ⟨none, [⟨7, 7, 1, 2⟩], 0, 0⟩, ⟨none, [], 0, 0⟩]) (start := some 0) (b := .coaccessible) (by decide +kernel)
  refine ⟨_, h1, h2, fun h => ?_⟩
  obtain ⟨q, _, hq⟩ := h 0 (by simp [Fst.numStates])
  match q, hq with
  | 0, hq => simp [Fst.IsFinal, Fst.finOf] at hq
  | 1, hq => simp [Fst.IsFinal, Fst.finOf] at hq
  | 2, hq => simp [Fst.IsFinal, Fst.finOf] at hq
  | n + 3, hq => simp [Fst.IsFinal, Fst.finOf] at hq

end Verif
