import Verif.Lemmas.Lazy2
import Verif.Props.C35

/-!
# Delayed removal of epsilon transitions: the rows and the flags
-/

namespace Verif
universe u
set_option linter.unusedSectionVars false
open Fst Dfs RmEps

variable {W : Type u} [Semiring W] [DecidableEq W] {f : Fst W}

/-- What a row stands for, and where its transitions come from. -/
structure EpsRow (f : Fst W) (s : StateId) (row : List (Tr W) × Option W) : Prop where
  ok : RowOk f s row
  orig : ∀ u ∈ row.1, ∃ q, Relation.ReflTransGen (KEdge f isEps) s q ∧ ∃ t ∈ f.trsOf q, isEps t = false ∧ u.elem = t.elem
  all : ∀ q, Relation.ReflTransGen (KEdge f isEps) s q → ∀ t ∈ f.trsOf q, isEps t = false → ∃ u ∈ row.1, u.elem = t.elem

theorem rmEpsOp_law (S : Solver f fifoOps) {eqv : W → W → Bool} (hex : ∀ a b, eqv a b = true ↔ b = a) {sf : SemiringFlags}
    (hsf : sf.right = true) (hw : f.WF) (hp : f.EpsPositive) {i : StateId} (hi : f.start = some i) :
    Op2Law (rmEpsOp eqv sf f) f.numStates f.start (f.props.rmepsilon true) (EpsRow f) (Rest S ⟨fifoOps, eqv, isEps, true⟩) where
  start o ho := ⟨o, ho, fun _ => rfl⟩
  row o ho s hs := by
    obtain ⟨N, trs, w, r', d', h1, h2, h3⟩ := expand_spec S hex hsf hp hi (Below.refl hw) hs ho
    obtain ⟨d, hd⟩ := epsDist S hex hp hi (Below.refl hw) ho
    refine ⟨(trs.reverse, if w ≠ 0 then some w else none), r', N, fun m hm => ?_, ⟨rowOk_of_expansion hw hd hs h3, ?_, ?_⟩, h2⟩
    · simp only [rmEpsOp, RmEps.computeTrs, h1 m hm]
    · intro u hu
      exact h3.orig u (List.mem_reverse.1 hu)
    · intro q hq t ht hk
      obtain ⟨u, hu, e⟩ := h3.all q hq t ht hk
      exact ⟨u, List.mem_reverse.2 hu, e⟩
  props _ := rfl
  start_lt j hj := hw.start_lt j hj
  next_lt s x hx t ht := (hx.ok.non t ht).2

omit [Semiring W] [DecidableEq W] in
theorem rmepsilon_delayed_cases (p : Props) (b : PropBit) (hb : (p.rmepsilon true) b = true) : b = .noEpsilons ∨
    (b = .acceptor ∧ p .acceptor = true) ∨ (b = .acyclic ∧ p .acyclic = true) ∨ (b = .initialAcyclic ∧ p .initialAcyclic = true) ∨
    (p .acceptor = true ∧ (b = .noIEpsilons ∨ b = .noOEpsilons)) ∨ (b = .notAcceptor ∧ p .accessible = true ∧ p .notAcceptor = true) := by
  revert hb
  cases ha : p .acceptor <;> cases hx : p .accessible <;> cases b <;>
    simp [Props.rmepsilon, Props.of, Props.or, Props.keep, Props.and, Props.orIf, Props.has, ha, hx]

/-- The flags of the delayed FST are true of every FST whose rows, on a closed set of states, are such rows. -/
theorem delayed_rmepsilon_flags {F : Fst W} (D : StateId → Prop) (hst : F.start = f.start)
    (horig : ∀ s, ∀ u ∈ F.trsOf s, ∃ q, Relation.ReflTransGen (KEdge f isEps) s q ∧ ∃ t ∈ f.trsOf q, isEps t = false ∧ u.elem = t.elem)
    (hall : ∀ s, D s → ∀ q, Relation.ReflTransGen (KEdge f isEps) s q → ∀ t ∈ f.trsOf q, isEps t = false → ∃ u ∈ F.trsOf s, u.elem = t.elem)
    (hcl : ∀ s, D s → ∀ u ∈ F.trsOf s, D u.nextstate) (h0 : ∀ i, f.start = some i → D i) (ht : f.Truthful)
    (hP : F.props = f.props.rmepsilon true) : F.Truthful := by
  have hedge : ∀ a b, F.Edge a b → Relation.TransGen f.Edge a b := by
    rintro a b ⟨u, hu, rfl⟩
    obtain ⟨q, hq, t, htq, -, e⟩ := horig a u hu
    have hlast : f.Edge q u.nextstate := ⟨t, htq, by simp only [Tr.elem, Prod.mk.injEq] at e; exact e.2.2.symm⟩
    have : Relation.ReflTransGen f.Edge a q := by
      refine Relation.ReflTransGen.mono (fun x y => ?_) _ _ hq
      rintro ⟨v, hv, -, rfl⟩
      exact ⟨v, hv, rfl⟩
    exact Relation.TransGen.tail' this hlast
  have hcyc : ∀ a, F.OnCycle a → f.OnCycle a := by
    intro a ha
    unfold OnCycle at ha ⊢
    have : ∀ b, Relation.TransGen F.Edge a b → Relation.TransGen f.Edge a b := by
      intro b hb
      induction hb with
      | single h => exact hedge _ _ h
      | tail _ h ih => exact ih.trans (hedge _ _ h)
    exact this a ha
  have hne : ∀ s, ∀ u ∈ F.trsOf s, ¬ (u.ilabel = EPS ∧ u.olabel = EPS) := by
    rintro s u hu ⟨h1, h2⟩
    obtain ⟨q, -, t, -, hk, e⟩ := horig s u hu
    simp only [Tr.elem, Prod.mk.injEq] at e
    simp [isEps, ← e.1, ← e.2.1, h1, h2] at hk
  have hacc : f.props .acceptor = true → ∀ s, ∀ u ∈ F.trsOf s, u.ilabel = u.olabel := by
    intro ha s u hu
    obtain ⟨q, -, t, htq, -, e⟩ := horig s u hu
    simp only [Tr.elem, Prod.mk.injEq] at e
    rw [e.1, e.2.1]
    exact ht .acceptor ha q t htq
  have hreach : ∀ i, f.start = some i → ∀ s, f.Reach i s → ∃ p, D p ∧ Relation.ReflTransGen (KEdge f isEps) p s := by
    intro i hi s hs
    induction hs with
    | refl => exact ⟨i, h0 i hi, .refl⟩
    | @tail b c hb hbc ih =>
      obtain ⟨p, hp, hpb⟩ := ih
      obtain ⟨t, htb, rfl⟩ := hbc
      by_cases hk : isEps t = true
      · exact ⟨p, hp, hpb.tail ⟨t, htb, hk, rfl⟩⟩
      · obtain ⟨u, hu, e⟩ := hall p hp b hpb t htb (by simpa using hk)
        simp only [Tr.elem, Prod.mk.injEq] at e
        exact ⟨t.nextstate, e.2.2 ▸ hcl p hp u hu, .refl⟩
  intro b hb
  rw [hP] at hb
  rcases rmepsilon_delayed_cases f.props b hb with rfl | ⟨rfl, ha⟩ | ⟨rfl, ha⟩ | ⟨rfl, ha⟩ | ⟨ha, rfl | rfl⟩ | ⟨rfl, ha, hna⟩
  · exact fun ⟨s, t, hts, h⟩ => hne s t hts h
  · exact hacc ha
  · exact fun ⟨s, hs⟩ => ht .acyclic ha ⟨s, hcyc s hs⟩
  · exact fun ⟨j, hj, hs⟩ => ht .initialAcyclic ha ⟨j, hst ▸ hj, hcyc j hs⟩
  · exact fun ⟨s, t, hts, h⟩ => hne s t hts ⟨h, hacc ha s t hts ▸ h⟩
  · exact fun ⟨s, t, hts, h⟩ => hne s t hts ⟨(hacc ha s t hts).trans h, h⟩
  · intro hF
    refine ht .notAcceptor hna fun s t hts => ?_
    obtain ⟨i, hi, hr⟩ := ht .accessible ha s (lt_of_mem_trsOf hts)
    obtain ⟨p, hp, hps⟩ := hreach i hi s hr
    by_cases hk : isEps t = true
    · simp only [isEps, Bool.and_eq_true, beq_iff_eq] at hk
      rw [hk.1, hk.2]
    · obtain ⟨u, hu, e⟩ := hall p hp s hps t hts (by simpa using hk)
      simp only [Tr.elem, Prod.mk.injEq] at e
      rw [← e.1, ← e.2.1]
      exact hF p u hu

end Verif
