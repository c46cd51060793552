import Verif.Lemmas.Embed

/-! # Renumbered FSTs -/

namespace Verif
set_option linter.unusedSectionVars false
universe u
variable {W : Type u}
namespace Fst

/-- `g` is `f` with each state `s` renamed `σ s`; `σ` is a bijection of the states with inverse `τ`. -/
structure Renum (f g : Fst W) (σ τ : Nat → Nat) : Prop where
  num : g.numStates = f.numStates
  lt : ∀ s, s < f.numStates → σ s < f.numStates
  lt' : ∀ s, s < f.numStates → τ s < f.numStates
  left : ∀ s, s < f.numStates → τ (σ s) = s
  right : ∀ s, s < f.numStates → σ (τ s) = s
  trs : ∀ s, s < f.numStates → g.trsOf (σ s) = (f.trsOf s).map fun t => { t with nextstate := σ t.nextstate }
  fin : ∀ s, s < f.numStates → g.finOf (σ s) = f.finOf s
  start : g.start = f.start.map σ

variable {f g : Fst W} {σ τ : Nat → Nat}

theorem Renum.wf (r : Renum f g σ τ) (hf : f.WF) : g.WF where
  start_lt i hi := by
    rw [r.start] at hi
    obtain ⟨k, hk, rfl⟩ := Option.map_eq_some_iff.1 hi
    rw [r.num]; exact r.lt k (hf.start_lt k hk)
  next_lt s t ht := by
    have hs := lt_of_mem_trsOf ht
    rw [r.num] at hs
    rw [← r.right s hs, r.trs _ (r.lt' s hs)] at ht
    obtain ⟨t', ht', rfl⟩ := List.mem_map.1 ht
    rw [r.num]; exact r.lt _ (hf.next_lt _ t' ht')

theorem Renum.symm (r : Renum f g σ τ) (hf : f.WF) : Renum g f τ σ where
  num := r.num.symm
  lt s hs := by rw [r.num] at hs ⊢; exact r.lt' s hs
  lt' s hs := by rw [r.num] at hs ⊢; exact r.lt s hs
  left s hs := by rw [r.num] at hs; exact r.right s hs
  right s hs := by rw [r.num] at hs; exact r.left s hs
  trs s hs := by
    rw [r.num] at hs
    have := r.trs (τ s) (r.lt' s hs)
    rw [r.right s hs] at this
    rw [this, List.map_map]
    conv_lhs => rw [← List.map_id (f.trsOf (τ s))]
    apply List.map_congr_left
    intro t ht
    have := r.left _ (hf.next_lt _ t ht)
    simp [this]
  fin s hs := by
    rw [r.num] at hs
    rw [← r.fin (τ s) (r.lt' s hs), r.right s hs]
  start := by
    rw [r.start, Option.map_map]
    cases h : f.start with
    | none => rfl
    | some i => simp [r.left i (hf.start_lt i h)]

theorem Renum.accPaths [Mul W] (r : Renum f g σ τ) (hf : f.WF) (n) : g.accPaths n = f.accPaths n := by
  cases h : f.start with
  | none => rw [accPaths_none h, accPaths_none (by rw [r.start, h]; rfl)]
  | some i =>
    rw [accPaths_some h, accPaths_some (i := σ i) (by rw [r.start, h]; rfl)]
    exact pathsFrom_sub σ (fun s => s < f.numStates) r.trs (fun s _ t ht => hf.next_lt s t ht) r.fin n i (hf.start_lt i h)

theorem Renum.emb (r : Renum f g σ τ) : Emb f g σ where
  trs s hs := by rw [r.trs s hs]

variable [Zero W] [One W]

/-- One direction of the invariance of the flags under renumbering. -/
theorem Renum.holds_pos (r : Renum f g σ τ) (hf : f.WF) (b) (hb : existential b = true ∨ b = .weighted ∨
    b = .initialCyclic ∨ b = .accessible ∨ b = .coaccessible) (h : f.Holds b) : g.Holds b := by
  have e := r.emb
  rcases hb with hb | rfl | rfl | rfl | rfl
  · exact e.holds b hb h
  · intro hu
    refine h ⟨fun s t ht => by have := hu.1 _ _ (e.mem ht); exact this, fun s w hw => hu.2 (σ s) w ?_⟩
    rw [r.fin s (lt_of_finOf hw)]; exact hw
  · obtain ⟨i, hi, hc⟩ := h
    exact ⟨σ i, by rw [r.start, hi]; rfl, e.onCycle hc⟩
  · intro s hs
    rw [r.num] at hs
    obtain ⟨i, hi, hr⟩ := h (τ s) (r.lt' s hs)
    have := e.reach hr
    rw [r.right s hs] at this
    exact ⟨σ i, by rw [r.start, hi]; rfl, this⟩
  · intro s hs
    rw [r.num] at hs
    obtain ⟨q, hr, hq⟩ := h (τ s) (r.lt' s hs)
    have := e.reach hr
    rw [r.right s hs] at this
    obtain ⟨w, hw⟩ := Option.isSome_iff_exists.1 hq
    exact ⟨σ q, this, by rw [IsFinal, r.fin q (lt_of_finOf hw)]; exact hq⟩

/-- Flags invariant under renumbering. -/
theorem Renum.holds (r : Renum f g σ τ) (hf : f.WF) (b) (hb : Props.statesortMask b = true) (h : f.Holds b) : g.Holds b := by
  have p := r.holds_pos hf
  have q := (r.symm hf).holds_pos (r.wf hf)
  cases b <;> simp [Props.statesortMask, Props.of_apply] at hb
  case acceptor => by_contra hc; exact q .notAcceptor (Or.inl rfl) hc h
  case iDeterministic => by_contra hc; exact q .notIDeterministic (Or.inl rfl) hc h
  case oDeterministic => by_contra hc; exact q .notODeterministic (Or.inl rfl) hc h
  case noEpsilons => intro hc; exact h (q .epsilons (Or.inl rfl) hc)
  case noIEpsilons => intro hc; exact h (q .iEpsilons (Or.inl rfl) hc)
  case noOEpsilons => intro hc; exact h (q .oEpsilons (Or.inl rfl) hc)
  case iLabelSorted => by_contra hc; exact q .notILabelSorted (Or.inl rfl) hc h
  case oLabelSorted => by_contra hc; exact q .notOLabelSorted (Or.inl rfl) hc h
  case unweighted => by_contra hc; exact q .weighted (by simp) hc h
  case acyclic => intro hc; exact h (q .cyclic (Or.inl rfl) hc)
  case initialAcyclic => intro hc; exact h (q .initialCyclic (by simp) hc)
  case notAccessible => intro hc; exact h (q .accessible (by simp) hc)
  case notCoaccessible => intro hc; exact h (q .coaccessible (by simp) hc)
  case unweightedCycles => intro hc; exact h (q .weightedCycles (Or.inl rfl) hc)
  all_goals exact p _ (by simp [existential]) h

end Fst
end Verif
