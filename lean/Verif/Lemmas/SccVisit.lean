import Verif.Lemmas.Scc

/-!
# The result of a complete component visit
-/

namespace Verif
universe u
variable {W : Type u}
namespace Scc
open Tarjan Dfs

variable {f : Fst W} {keep : Tr W → Bool} {i : StateId}

/-- The invariant, on the whole state of the visit. -/
def VInv (f : Fst W) (keep : Tr W → Bool) (start root : Nat) (c0 : Nat → Color) (st : DfsSt W SccV) : Prop :=
  st.dfs = true ∧ TInv f keep start root st.color st.stack st.vis ∧ ∀ q, c0 q ≠ .white → st.color q ≠ .white

theorem VInv.step (hw : ∀ s, ∀ t ∈ f.trsOf s, t.nextstate < f.numStates) (hi : f.start = some i) {root : Nat} {c0 : Nat → Color}
    (st : DfsSt W SccV) (h : VInv f keep i root c0 st) (hne : st.stack ≠ []) :
    VInv f keep i root c0 (Dfs.step f f.sccVisitor keep root st) := by
  obtain ⟨c, k, v, d⟩ := st
  obtain ⟨hd, hT, hm⟩ := h
  simp only at hd hT hm hne
  subst hd
  have hgd : f.start.getD NO_STATE_ID = i := by rw [hi]; rfl
  cases k with
  | nil => exact absurd rfl hne
  | cons e k =>
    obtain ⟨s, ts⟩ := e
    cases ts with
    | nil =>
      have := hT.finish
      have hc : ∀ q, c0 q ≠ .white → upd c s .black q ≠ .white := by
        intro q hq; simp only [upd]; split
        · simp
        · exact hm q hq
      cases k with
      | nil => exact ⟨rfl, this, hc⟩
      | cons e k => exact ⟨rfl, this, hc⟩
    | cons t rest =>
      simp only [Dfs.step, followTr, if_true]
      by_cases hk : keep t = true
      · rw [if_pos hk]
        cases hc : c t.nextstate with
        | white =>
          have he : t ∈ f.trsOf s := by
            obtain ⟨pre, h1, -⟩ := hT.col.pre (s, t :: rest) (by simp)
            simp only at h1; rw [h1]; simp
          refine ⟨rfl, ?_, ?_⟩
          · simp only [Fst.sccVisitor, if_true, hgd]
            exact hT.push hc (hw s t he) (by simp [hk]) (by simp)
          · intro q hq
            simp only [Fst.sccVisitor, if_true, upd]; split
            · simp
            · exact hm q hq
        | grey =>
          refine ⟨rfl, ?_, hm⟩
          simp only [Fst.sccVisitor, hgd]
          exact hT.back hk hc
        | black =>
          refine ⟨rfl, ?_, hm⟩
          simp only [Fst.sccVisitor]
          exact hT.cross hk hc
      · rw [if_neg hk]
        exact ⟨rfl, hT.skip (by simpa using hk), hm⟩

/-- One complete tree. -/
theorem visitRoot_scc (hw : ∀ s, ∀ t ∈ f.trsOf s, t.nextstate < f.numStates) (hi : f.start = some i) {r : Nat}
    (hr : r < f.numStates) {c : Nat → Color} {v : SccV} (hT : TInv f keep i r c [] v) (hc : c r = .white) :
    ∃ c' v', visitRoot f f.sccVisitor keep r ⟨c, [], v, true⟩ = ⟨c', [], v', true⟩ ∧ TInv f keep i r c' [] v' ∧
      (∀ q, c q ≠ .white → c' q ≠ .white) ∧ c' r ≠ .white := by
  have hgd : f.start.getD NO_STATE_ID = i := by rw [hi]; rfl
  have key := visitRoot_induct (P := VInv f keep i r (upd c r .grey)) (vt := f.sccVisitor) (keep := keep) (root := r) hw hr
    ⟨c, [], v, true⟩ hc
    (by
      refine ⟨rfl, ?_, fun q hq => hq⟩
      simp only [Fst.sccVisitor, hgd]
      exact hT.push hc hr (by simp) (fun _ => rfl))
    (fun st h hne => h.step hw hi st hne)
  obtain ⟨⟨h1, h2, h3⟩, h4⟩ := key
  generalize hst : visitRoot f f.sccVisitor keep r ⟨c, [], v, true⟩ = st at h1 h2 h3 h4
  obtain ⟨c', k', v', d'⟩ := st
  simp only at h1 h2 h3 h4
  subst h1 h4
  refine ⟨c', v', rfl, h2, fun q hq => h3 q ?_, h3 r (by simp [upd])⟩
  simp only [upd]; split
  · simp
  · exact hq

/-- The whole visit. -/
theorem sccVisit_inv (hw : f.WF) (hi : f.start = some i) (keep : Tr W → Bool) :
    ∃ c r v, f.sccVisit keep = v.finishVisit ∧ TInv f keep i r c [] v ∧ ∀ q, q < f.numStates → c q ≠ .white := by
  have hin := hw.start_lt i hi
  obtain ⟨c1, v1, e1, h1, -, h3⟩ := visitRoot_scc hw.next_lt hi hin (TInv.init (f := f) (keep := keep) (start := i)) rfl
  have loop : ∀ m, m ≤ f.numStates → ∃ c r v, (List.range m).foldl (nextRoot f f.sccVisitor keep) ⟨c1, [], v1, true⟩ =
      ⟨c, [], v, true⟩ ∧ TInv f keep i r c [] v ∧ c i ≠ .white ∧ ∀ q, q < m → c q ≠ .white := by
    intro m
    induction m with
    | zero => intro _; exact ⟨c1, i, v1, rfl, h1, h3, by simp⟩
    | succ m ih =>
      intro hm
      obtain ⟨c, r, v, e, hT, hci, hq⟩ := ih (by omega)
      rw [List.range_succ, List.foldl_append, e]
      simp only [List.foldl_cons, List.foldl_nil, nextRoot, Bool.true_and, decide_eq_true_eq]
      by_cases hcm : c m = .white
      · rw [if_pos hcm]
        obtain ⟨c', v', e', hT', hmono, hcm'⟩ := visitRoot_scc hw.next_lt hi (by omega) (hT.reroot hci m) hcm
        refine ⟨c', m, v', e', hT', hmono _ hci, ?_⟩
        intro q hqm
        by_cases hqe : q = m
        · rw [hqe]; exact hcm'
        · exact hmono _ (hq q (by omega))
      · rw [if_neg hcm]
        refine ⟨c, r, v, rfl, hT, hci, ?_⟩
        intro q hqm
        by_cases hqe : q = m
        · rw [hqe]; exact hcm
        · exact hq q (by omega)
  obtain ⟨c, r, v, e, hT, -, hq⟩ := loop f.numStates (le_refl _)
  refine ⟨c, r, v, ?_, hT, hq⟩
  unfold Fst.sccVisit visit
  rw [hi]
  simp only [if_pos hin]
  have e1' : visitRoot f f.sccVisitor keep i { color := fun _ => .white, stack := [], vis := SccV.new, dfs := true } =
    ⟨c1, [], v1, true⟩ := e1
  rw [e1', e]
  rfl

/-- What the visit computes, for the graph of transitions kept by the filter. -/
structure Result (f : Fst W) (keep : Tr W → Bool) (i : StateId) (v : SccV) : Prop where
  visited : ∀ q, q < f.numStates → v.access q = true
  access : ∀ q, q < f.numStates → (v.accessC q = true ↔ Rch (KEdge f keep) i q)
  coaccess : ∀ q, q < f.numStates → (v.coaccess q = true ↔ CoAcc (KEdge f keep) f.IsFinal q)
  range : ∀ q, q < f.numStates → 0 ≤ v.scc q ∧ v.scc q < v.nscc
  same : ∀ q r, q < f.numStates → r < f.numStates →
    (v.scc q = v.scc r ↔ Rch (KEdge f keep) q r ∧ Rch (KEdge f keep) r q)
  order : ∀ q r, q < f.numStates → KEdge f keep q r → v.scc q ≤ v.scc r
  surj : ∀ k, 0 ≤ k → k < v.nscc → ∃ q, q < f.numStates ∧ v.scc q = k
  cyclic : v.props .cyclic = true ↔ ∃ q, Relation.TransGen (KEdge f keep) q q
  initialCyclic : v.props .initialCyclic = true ↔ Relation.TransGen (KEdge f keep) i i
  notAccessible : v.props .notAccessible = true ↔ ∃ q, q < f.numStates ∧ ¬ Rch (KEdge f keep) i q
  notCoaccessible : v.props .notCoaccessible = true ↔ ∃ q, q < f.numStates ∧ ¬ CoAcc (KEdge f keep) f.IsFinal q
  bits : ∀ b, v.props b = match b with
    | .acyclic => !v.props .cyclic
    | .initialAcyclic => !v.props .initialCyclic
    | .accessible => !v.props .notAccessible
    | .coaccessible => !v.props .notCoaccessible
    | .cyclic => v.props .cyclic
    | .initialCyclic => v.props .initialCyclic
    | .notAccessible => v.props .notAccessible
    | .notCoaccessible => v.props .notCoaccessible
    | _ => false

theorem trsOf_lt {q : StateId} {t : Tr W} (h : t ∈ f.trsOf q) : q < f.numStates := by
  by_contra hq
  simp only [Fst.numStates] at hq
  have : f.states[q]? = none := by simp; omega
  simp [Fst.trsOf, this] at h

theorem sccVisit_spec (hw : f.WF) (hi : f.start = some i) (keep : Tr W → Bool) : Result f keep i (f.sccVisit keep) := by
  obtain ⟨c, r, v, e, h, hall⟩ := sccVisit_inv hw hi keep
  rw [e]
  have hS : v.sccStack = [] := h.idle
  have hC : ∀ q, Closed c v q ↔ q < f.numStates := by
    intro q
    unfold Closed
    rw [hS]
    simp only [List.not_mem_nil, not_false_iff, and_true]
    exact ⟨h.col.lt q, hall q⟩
  have hin := hw.start_lt i hi
  have hblack : ∀ q, q < f.numStates → c q = .black := by
    intro q hq
    have h1 := hall q hq
    have h2 : c q ≠ .grey := by rw [Ne, h.col.grey]; simp
    cases hcq : c q <;> simp_all
  have hmono : ∀ q r, Rch (KEdge f keep) q r → q < f.numStates → v.scc r ≤ v.scc q ∧ r < f.numStates := by
    intro q r hr hq
    induction hr with
    | refl => exact ⟨Int.le_refl _, hq⟩
    | tail _ e ih =>
      have h1 := h.num.mono _ _ ((hC _).2 ih.2) e
      obtain ⟨t, ht, -, rfl⟩ := e
      exact ⟨Int.le_trans h1 ih.1, hw.next_lt _ t ht⟩
  have hexall : ∀ a b, KEdge f keep a b → Ex f keep c [] a b := by
    rintro a b ⟨t, ht, hk, hb⟩
    exact ⟨t, ⟨ht, .inl (hblack a (trsOf_lt ht))⟩, hk, hb⟩
  constructor
  · intro q hq; exact (h.access q).2 (hall q hq)
  · intro q hq; exact h.acc.access q (.inr ((hC q).2 hq))
  · intro q hq; exact ⟨h.co.sound q, h.co.compl q ((hC q).2 hq)⟩
  · intro q hq
    have := h.num.bound q ((hC q).2 hq)
    simp only [SccV.finishVisit]; omega
  · intro q r hq hr
    simp only [SccV.finishVisit]
    constructor
    · intro he
      exact ⟨h.num.same _ _ ((hC q).2 hq) ((hC r).2 hr) (by omega), h.num.same _ _ ((hC r).2 hr) ((hC q).2 hq) (by omega)⟩
    · rintro ⟨h1, h2⟩
      have := (hmono _ _ h1 hq).1
      have := (hmono _ _ h2 hr).1
      omega
  · intro q r hq he
    have := h.num.mono q r ((hC q).2 hq) he
    simp only [SccV.finishVisit]; omega
  · intro k hk1 hk2
    simp only [SccV.finishVisit] at hk2 ⊢
    obtain ⟨q, h1, h2⟩ := h.num.surj (v.nscc - 1 - k) (by omega) (by omega)
    exact ⟨q, (hC q).1 h1, by omega⟩
  · constructor
    · exact h.cyc.cycle
    · rintro ⟨q, hq⟩
      by_contra hf
      have hf : v.props .cyclic = false := by simpa [SccV.finishVisit] using hf
      have key : ∀ a b, Relation.TransGen (KEdge f keep) a b → v.scc b < v.scc a := by
        intro a b hab
        induction hab with
        | single e =>
          obtain ⟨t, ht, -⟩ := id e
          exact h.cyc.strict hf _ _ ((hC _).2 (trsOf_lt ht)) e
        | tail _ e ih =>
          obtain ⟨t, ht, -⟩ := id e
          have := h.cyc.strict hf _ _ ((hC _).2 (trsOf_lt ht)) e
          omega
      have := key q q hq
      omega
  · constructor
    · exact h.cyc.iniCycle
    · intro hq
      by_contra hf
      have hf : v.props .initialCyclic = false := by simpa [SccV.finishVisit] using hf
      obtain ⟨w, h1, h2⟩ := Relation.TransGen.tail'_iff.1 hq
      exact h.cyc.noIni hf w (hexall _ _ h2) h1
  · rw [show (v.finishVisit).props = v.props from rfl, h.acc.flag]
    refine exists_congr fun q => and_congr_left fun _ => ?_
    rw [hS, hC]; simp
  · rw [show (v.finishVisit).props = v.props from rfl, h.co.flag]
    refine exists_congr fun q => ?_
    rw [hC]
    refine and_congr_right fun hq => ?_
    have := h.co.compl q ((hC q).2 hq)
    have := h.co.sound q
    cases hcq : v.coaccess q <;> simp_all
  · exact h.bits

/-- Without a filter the kept edges are all edges. -/
theorem kEdge_true : KEdge f (fun _ => true) = f.Edge := by
  funext a b
  simp [KEdge, Fst.Edge]

theorem rch_true {a b} : Rch (KEdge f (fun _ => true)) a b ↔ f.Reach a b := by
  rw [kEdge_true]; rfl

theorem coAcc_true {q} : CoAcc (KEdge f (fun _ => true)) f.IsFinal q ↔ f.Coaccessible q := by
  unfold CoAcc Fst.Coaccessible; simp only [rch_true]

end Scc
end Verif
