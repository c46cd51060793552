import Verif.Lemmas.Reach
import Verif.Props.C53
import Mathlib.Data.Finset.Card

/-!
# `StateReachable`: what its tables contain
-/

namespace Verif
universe u
variable {W : Type u} [Zero W] [One W] [DecidableEq W]
open Dfs ReachV

/-- The tables are those of `n` states with final states `F` and reachability `R`: the final states are numbered `1 .. N`, the other
states are not numbered, and the set of a state contains the numbers of the final states it reaches. -/
structure StateReachable.Exact (r : StateReachable) (n : Nat) (F : StateId → Prop) (R : StateId → StateId → Prop) : Prop where
  nIsets : r.nIsets = n
  nIndex : r.nIndex = n
  norm : ∀ q, q < n → (r.isets q).Normalized
  mem : ∀ q, q < n → ∀ m, (r.isets q).Mem m ↔ ∃ x, F x ∧ R q x ∧ r.state2index x = m
  numbers : ∃ N, N ≤ n ∧ (∀ x, F x → 1 ≤ r.state2index x ∧ r.state2index x ≤ N) ∧ ∀ m, 1 ≤ m → m ≤ N → ∃ x, F x ∧ r.state2index x = m
  inj : ∀ x y, F x → F y → r.state2index x = r.state2index y → x = y
  rest : ∀ x, x < n → ¬ F x → r.state2index x = UNASSIGNED

theorem hasFinal_iff {f : Fst W} {s : StateId} : hasFinal f s = true ↔ ∃ w, f.finOf s = some w ∧ w ≠ 0 := by
  unfold hasFinal
  cases f.finOf s <;> simp

theorem hasFinal_lt {f : Fst W} {s : StateId} (h : hasFinal f s = true) : s < f.numStates := by
  obtain ⟨w, h1, -⟩ := hasFinal_iff.1 h
  exact f.lt_of_finOf h1

/-- `new_acyclic` on an acyclic FST. -/
theorem newAcyclic_spec {f : Fst W} (hw : f.WF) {i : StateId} (hi : f.start = some i) (ha : f.Holds .acyclic) :
    ∃ r, StateReachable.newAcyclic f = .ok r ∧ r.Exact f.numStates (fun x => hasFinal f x = true) f.Reach := by
  have ha' : ∀ q, ¬ Relation.TransGen (KEdge f keepAll) q q := fun q hq => ha ⟨q, Scan.onCycle_true.1 hq⟩
  obtain ⟨c, h, hb⟩ := visit_inv hw hi ha'
  have hnw : ∀ q, q < f.numStates → c q ≠ .white := fun q hq => by rw [hb q hq]; simp
  unfold StateReachable.newAcyclic
  rw [if_neg (by rw [Fst.targetsOk_of_wf hw]; simp)]
  simp only
  obtain ⟨v, hv⟩ : ∃ v, v = visit f (visitor f) (fun _ => true) ReachV.new := ⟨_, rfl⟩
  change RInv f c [] (visit f (visitor f) (fun _ => true) ReachV.new) at h
  rw [← hv] at h ⊢
  rw [h.ok]
  refine ⟨_, rfl, ?_⟩
  have hlen : v.nIsets = f.numStates ∧ v.nIndex = f.numStates := by
    have hil := hw.start_lt i hi
    have := h.len (f.numStates - 1) (hnw _ (by omega))
    have := h.len_le
    omega
  refine ⟨hlen.1, hlen.2, fun q hq => (h.black q (hb q hq)).1, fun q hq m => ?_, ⟨v.index - 1, ?_, ?_, ?_⟩, ?_, ?_⟩
  · rw [(h.black q (hb q hq)).2 m]
    rw [show (keepAll : Tr W → Bool) = fun _ => true from rfl, Scc.kEdge_true]
    rfl
  · have hs : ∀ n, n ∈ Finset.Ico 1 v.index → ∃ q, q < f.numStates ∧ v.state2index q = n := by
      intro n hn
      rw [Finset.mem_Ico] at hn
      obtain ⟨q, -, h2, h3⟩ := h.surj n hn.1 hn.2
      exact ⟨q, hasFinal_lt h2, h3⟩
    have := Finset.card_le_card_of_injOn (s := Finset.Ico 1 v.index) (t := Finset.range f.numStates)
      (fun n => if hn : n ∈ Finset.Ico 1 v.index then (hs n hn).choose else 0)
      (by
        intro n hn
        have hn : n ∈ Finset.Ico 1 v.index := hn
        simp only [dif_pos hn]
        have := (hs n hn).choose_spec.1
        simpa using this)
      (by
        intro n hn m hm he
        have hn : n ∈ Finset.Ico 1 v.index := hn
        have hm : m ∈ Finset.Ico 1 v.index := hm
        simp only [dif_pos hn, dif_pos hm] at he
        rw [← (hs n hn).choose_spec.2, ← (hs m hm).choose_spec.2, he])
    simpa using this
  · intro x hx
    have := h.range x (hnw x (hasFinal_lt hx)) hx
    simp only; omega
  · intro m h1 h2
    have := h.pos
    obtain ⟨q, -, h3, h4⟩ := h.surj m h1 (by omega)
    exact ⟨q, h3, h4⟩
  · intro x y hx hy he
    exact h.inj x y (hnw x (hasFinal_lt hx)) (hnw y (hasFinal_lt hy)) hx hy he
  · intro x _ hx
    exact h.unassigned x (.inr (by simpa using hx))

theorem sccSize_gt {n : Nat} {scc : Nat → Int} {c : Nat} : 1 < StateReachable.sccSize n scc c ↔
    ∃ x y, x < n ∧ y < n ∧ x ≠ y ∧ (scc x).toNat = c ∧ (scc y).toNat = c := by
  unfold StateReachable.sccSize
  have hnd : ((List.range n).filter fun s => decide ((scc s).toNat = c)).Nodup := List.nodup_range.filter _
  have hm : ∀ x, x ∈ (List.range n).filter (fun s => decide ((scc s).toNat = c)) ↔ x < n ∧ (scc x).toNat = c := by simp
  generalize (List.range n).filter (fun s => decide ((scc s).toNat = c)) = l at *
  constructor
  · intro h
    match l, h with
    | a :: b :: l, _ =>
      have ha := (hm a).1 (by simp)
      have hb := (hm b).1 (by simp)
      refine ⟨a, b, ha.1, hb.1, fun e => ?_, ha.2, hb.2⟩
      simp [e] at hnd
  · rintro ⟨x, y, hx, hy, hne, h1, h2⟩
    have hx' := (hm x).2 ⟨hx, h1⟩
    have hy' := (hm y).2 ⟨hy, h2⟩
    match l with
    | [] => cases hx'
    | [a] =>
      rw [List.mem_singleton] at hx' hy'
      exact absurd (hx'.trans hy'.symm) hne
    | a :: b :: l => simp

/-- `new_cyclic`: an error if some final state is on a cycle with another state, and the right tables otherwise. -/
theorem newCyclic_spec [Add W] {f : Fst W} (hw : f.WF) {i : StateId} (hi : f.start = some i) :
    ((∃ x y, x ≠ y ∧ f.IsFinal x ∧ f.Reach x y ∧ f.Reach y x) → StateReachable.newCyclic f = .error .err) ∧
    ((∀ x y, f.IsFinal x → f.Reach x y → f.Reach y x → x = y) →
      ∃ r, StateReachable.newCyclic f = .ok r ∧ r.Exact f.numStates (fun x => hasFinal f x = true) f.Reach) := by
  obtain ⟨scc, o, e, h1, h2, h3, h4, h5, h6, h7, h8⟩ := C53_condense f hw i hi
  have hil := hw.start_lt i hi
  have hcn : ∀ q, q < f.numStates → (scc q).toNat < o.numStates := fun q hq => by have := h2 q hq; omega
  have hce : ∀ q r, q < f.numStates → r < f.numStates → ((scc q).toNat = (scc r).toNat ↔ f.Reach q r ∧ f.Reach r q) := by
    intro q r hq hr
    rw [← h1 q r hq hr]
    have := h2 q hq
    have := h2 r hr
    omega
  have how : o.WF := by
    refine ⟨fun j hj => ?_, fun c t ht => (h6 c t ht).2⟩
    rw [h4] at hj; cases hj; exact hcn i hil
  obtain ⟨r, hr, hx⟩ := newAcyclic_spec how h4 h7
  have hfin : ∀ c, c < o.numStates → (o.isFinalUnchecked c = true ↔ ∃ x, x < f.numStates ∧ (scc x).toNat = c ∧ f.IsFinal x) := by
    intro c hc
    unfold Fst.isFinalUnchecked
    rw [(h5 c hc).2]
    have : (sumFin (finalWeights f (fun s => (scc s).toNat) f.numStates c)).isSome = true ↔ ∃ w, w ∈ finalWeights f (fun s => (scc s).toNat) f.numStates c := by
      cases finalWeights f (fun s => (scc s).toNat) f.numStates c with
      | nil => simp [sumFin]
      | cons a l => simp only [sumFin, Option.isSome_some, true_iff]; exact ⟨a, by simp⟩
    rw [this]
    unfold finalWeights Fst.IsFinal
    simp only [List.mem_filterMap, List.mem_filter, List.mem_range, decide_eq_true_eq, Option.isSome_iff_exists]
    constructor
    · rintro ⟨w, x, ⟨hx, hc⟩, hw⟩; exact ⟨x, hx, hc, w, hw⟩
    · rintro ⟨x, hx, hc, w, hw⟩; exact ⟨w, x, ⟨hx, hc⟩, hw⟩
  have e0 : StateReachable.newCyclic f = (if (List.range f.numStates).any (fun s =>
          o.isFinalUnchecked (scc s).toNat && decide (1 < StateReachable.sccSize f.numStates scc (scc s).toNat)) then .error .err
      else .ok ⟨fun s => r.isets (scc s).toNat, f.numStates, fun s => r.state2index (scc s).toNat, f.numStates⟩) := by
    unfold StateReachable.newCyclic
    rw [e]
    simp only
    rw [hr]
    simp only
    rw [if_neg]
    simp only [List.any_eq_true, List.mem_range, decide_eq_true_eq, not_exists, not_and, not_le]
    intro q hq
    rw [hx.nIsets]; exact hcn q hq
  rw [e0]
  have hlt : ∀ x, f.IsFinal x → x < f.numStates := fun x hx => by
    obtain ⟨w, hw⟩ := Option.isSome_iff_exists.1 hx
    exact f.lt_of_finOf hw
  have hrlt : ∀ x y, x < f.numStates → f.Reach x y → y < f.numStates := by
    intro x y hx hr
    induction hr with
    | refl => exact hx
    | tail _ he _ => obtain ⟨t, ht, rfl⟩ := he; exact hw.next_lt _ t ht
  constructor
  · rintro ⟨x, y, hne, hfx, hxy, hyx⟩
    have hxl := hlt x hfx
    have hyl := hrlt x y hxl hxy
    rw [if_pos]
    rw [List.any_eq_true]
    refine ⟨x, by simpa using hxl, ?_⟩
    rw [Bool.and_eq_true, hfin _ (hcn x hxl), decide_eq_true_eq, sccSize_gt]
    exact ⟨⟨x, hxl, rfl, hfx⟩, x, y, hxl, hyl, hne, rfl, ((hce x y hxl hyl).2 ⟨hxy, hyx⟩).symm⟩
  · intro hno
    rw [if_neg]
    swap
    · rw [List.any_eq_true]
      rintro ⟨s, hs, h⟩
      rw [List.mem_range] at hs
      rw [Bool.and_eq_true, hfin _ (hcn s hs), decide_eq_true_eq, sccSize_gt] at h
      obtain ⟨⟨z, hz, hzc, hzf⟩, x, y, hxl, hyl, hne, hx, hy⟩ := h
      have hzx := (hce z x hz hxl).1 (hzc.trans hx.symm)
      have hzy := (hce z y hz hyl).1 (hzc.trans hy.symm)
      exact hne ((hno z x hzf hzx.1 hzx.2).symm.trans (hno z y hzf hzy.1 hzy.2))
    refine ⟨_, rfl, ?_⟩
    -- final weights are those of the input
    have hfo : ∀ q, q < f.numStates → o.finOf (scc q).toNat = f.finOf q := by
      intro q hq
      rw [(h5 _ (hcn q hq)).2]
      by_cases hne : ∃ x, x < f.numStates ∧ (scc x).toNat = (scc q).toNat ∧ f.IsFinal x
      · obtain ⟨x, hxl, hxc, hxf⟩ := hne
        have hxq := (hce x q hxl hq).1 hxc
        obtain rfl := hno x q hxf hxq.1 hxq.2
        have hlist : (List.range f.numStates).filter (fun s => decide ((scc s).toNat = (scc x).toNat)) = [x] := by
          refine List.perm_singleton.1 ((List.perm_ext_iff_of_nodup (List.nodup_range.filter _) (by simp)).2 fun y => ?_)
          simp only [List.mem_filter, List.mem_range, decide_eq_true_eq, List.mem_singleton]
          constructor
          · rintro ⟨hyl, hyc⟩
            have := (hce y x hyl hxl).1 hyc
            exact (hno x y hxf this.2 this.1).symm
          · rintro rfl; exact ⟨hxl, rfl⟩
        unfold finalWeights
        rw [hlist]
        obtain ⟨w, hw'⟩ := Option.isSome_iff_exists.1 hxf
        simp [hw', sumFin]
      · have hnil : finalWeights f (fun s => (scc s).toNat) f.numStates (scc q).toNat = [] := by
          unfold finalWeights
          rw [List.filterMap_eq_nil_iff]
          intro x hx'
          simp only [List.mem_filter, List.mem_range, decide_eq_true_eq] at hx'
          by_contra hc
          exact hne ⟨x, hx'.1, hx'.2, Option.isSome_iff_ne_none.2 hc⟩
        rw [hnil]
        symm
        by_contra hc
        exact hne ⟨q, hq, rfl, Option.isSome_iff_ne_none.2 hc⟩
    have hff : ∀ q, q < f.numStates → (hasFinal o (scc q).toNat = true ↔ hasFinal f q = true) := fun q hq => by
      unfold hasFinal; rw [hfo q hq]
    have hss : ∀ x, hasFinal f x = true → ∀ y, y < f.numStates → (scc x).toNat = (scc y).toNat → x = y := by
      intro x hx' y hy hc
      have := (hce x y (hasFinal_lt hx') hy).1 hc
      obtain ⟨w, hw', -⟩ := hasFinal_iff.1 hx'
      exact hno x y (by unfold Fst.IsFinal; rw [hw']; rfl) this.1 this.2
    -- reachability
    have hedge : ∀ c d, o.Edge c d → ∃ x y, x < f.numStates ∧ y < f.numStates ∧ (scc x).toNat = c ∧ (scc y).toNat = d ∧ f.Edge x y := by
      rintro c d ⟨t, ht, rfl⟩
      have hc : c < o.numStates := Fst.lt_of_mem_trsOf ht
      rw [(h5 c hc).1] at ht
      simp only [leaving, List.mem_flatMap, List.mem_filter, List.mem_range, decide_eq_true_eq, List.mem_map] at ht
      obtain ⟨x, ⟨hx', hxc⟩, t', ⟨ht', -⟩, rfl⟩ := ht
      exact ⟨x, t'.nextstate, hx', hw.next_lt x t' ht', hxc, rfl, t', ht', rfl⟩
    have hr1 : ∀ c d, o.Reach c d → ∀ x y, x < f.numStates → y < f.numStates → (scc x).toNat = c → (scc y).toNat = d → f.Reach x y := by
      intro c d h
      induction h with
      | refl => intro x y hx' hy h1 h2; exact ((hce x y hx' hy).1 (h1.trans h2.symm)).1
      | tail _ he ih =>
        intro x y hx' hy h1 h2
        obtain ⟨a, b, ha, hb, e1, e2, hab⟩ := hedge _ _ he
        exact ((ih x a hx' ha h1 e1).tail hab).trans ((hce b y hb hy).1 (e2.trans h2.symm)).1
    have hr2 : ∀ x y, x < f.numStates → f.Reach x y → o.Reach (scc x).toNat (scc y).toNat := by
      intro x y hx' h
      induction h with
      | refl => exact .refl
      | @tail b y hb he ih =>
        obtain ⟨t, ht, rfl⟩ := he
        have hb' := hrlt x b hx' hb
        by_cases hc : (scc t.nextstate).toNat = (scc b).toNat
        · rw [hc]; exact ih
        · refine ih.tail ⟨{ t with nextstate := (scc t.nextstate).toNat }, ?_, rfl⟩
          rw [(h5 _ (hcn b hb')).1]
          simp only [leaving, List.mem_flatMap, List.mem_filter, List.mem_range, decide_eq_true_eq, List.mem_map]
          exact ⟨b, ⟨hb', rfl⟩, t, ⟨ht, hc⟩, rfl⟩
    have hsurj : ∀ c, hasFinal o c = true → ∃ x, x < f.numStates ∧ (scc x).toNat = c := fun c hc => by
      obtain ⟨x, hxl, hxc⟩ := h3 c (hasFinal_lt hc)
      exact ⟨x, hxl, by rw [hxc]; rfl⟩
    refine ⟨rfl, rfl, fun q hq => hx.norm _ (hcn q hq), fun q hq m => ?_, ?_, ?_, ?_⟩
    · simp only
      rw [hx.mem _ (hcn q hq)]
      constructor
      · rintro ⟨c, hc1, hc2, hc3⟩
        obtain ⟨x, hxl, rfl⟩ := hsurj c hc1
        exact ⟨x, (hff x hxl).1 hc1, hr1 _ _ hc2 q x hq hxl rfl rfl, hc3⟩
      · rintro ⟨x, hx1, hx2, hx3⟩
        exact ⟨(scc x).toNat, (hff x (hasFinal_lt hx1)).2 hx1, hr2 q x hq hx2, hx3⟩
    · obtain ⟨N, hN, hN1, hN2⟩ := hx.numbers
      have hle : o.numStates ≤ f.numStates := by
        have := Finset.card_le_card_of_surjOn (s := Finset.range f.numStates) (t := Finset.range o.numStates) (fun q => (scc q).toNat)
          (by
            intro c hc
            have hc : c < o.numStates := by simpa using hc
            obtain ⟨x, hxl, hxc⟩ := h3 c hc
            exact ⟨x, by simpa using hxl, by simp [hxc]⟩)
        simpa using this
      refine ⟨N, by omega, fun x hx' => hN1 _ ((hff x (hasFinal_lt hx')).2 hx'), fun m hm1 hm2 => ?_⟩
      obtain ⟨c, hc1, hc2⟩ := hN2 m hm1 hm2
      obtain ⟨x, hxl, rfl⟩ := hsurj c hc1
      exact ⟨x, (hff x hxl).1 hc1, hc2⟩
    · intro x y hx' hy he
      have hxl := hasFinal_lt hx'
      have hyl := hasFinal_lt hy
      exact hss x hx' y hyl (hx.inj _ _ ((hff x hxl).2 hx') ((hff y hyl).2 hy) he)
    · intro x hxl hx'
      exact hx.rest _ (hcn x hxl) (fun h => hx' ((hff x hxl).1 h))

/-- `new` when the flag for cycles is known and true. -/
theorem stateNew_spec [Add W] {f : Fst W} (hw : f.WF) {i : StateId} (hi : f.start = some i) (hk : f.props.knows (Props.of [.acyclic]) = true)
    (ht : f.props .acyclic = true → f.Holds .acyclic) (hno : ∀ x y, f.IsFinal x → f.Reach x y → f.Reach y x → x = y) :
    ∃ r, StateReachable.new f = .ok r ∧ r.Exact f.numStates (fun x => hasFinal f x = true) f.Reach := by
  unfold StateReachable.new Fst.propertiesCheck
  rw [if_pos hk]
  simp only
  split
  · exact newAcyclic_spec hw hi (ht (by assumption))
  · exact (newCyclic_spec hw hi).2 hno

/-- What `reach` answers. -/
theorem StateReachable.Exact.reach_iff {r : StateReachable} {n : Nat} {F : StateId → Prop} {R : StateId → StateId → Prop}
    (h : r.Exact n F R) (hn : n < UNASSIGNED) {q x : StateId} (hq : q < n) (hx : x < n) :
    ∃ b, r.reach q x = .ok b ∧ (b = true ↔ F x ∧ R q x) := by
  refine ⟨_, by unfold StateReachable.reach; rw [if_pos (by rw [h.nIndex]; exact hx), if_pos (by rw [h.nIsets]; exact hq)], ?_⟩
  rw [C44_member _ (h.norm q hq), h.mem q hq]
  obtain ⟨N, hN, hN1, -⟩ := h.numbers
  constructor
  · rintro ⟨y, hy, hr, he⟩
    by_cases hF : F x
    · rw [← h.inj y x hy hF he]; exact ⟨hy, hr⟩
    · rw [h.rest x hx hF] at he
      have := hN1 y hy
      omega
  · rintro ⟨h1, h2⟩; exact ⟨x, h1, h2, rfl⟩

end Verif
