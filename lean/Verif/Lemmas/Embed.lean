import Verif.Lemmas.Append

/-! # Flags of an FST that contains a copy of another one -/

namespace Verif
set_option linter.unusedSectionVars false
universe u
variable {W : Type u}
namespace Fst

/-- `h` contains a copy of `f` at the states `σ s`; the copied transitions come first. -/
structure Emb (f h : Fst W) (σ : Nat → Nat) : Prop where
  trs : ∀ s, s < f.numStates → ((f.trsOf s).map fun t => { t with nextstate := σ t.nextstate }) <+: h.trsOf (σ s)

variable {f h : Fst W} {σ : Nat → Nat}

theorem Emb.mem (e : Emb f h σ) {s} {t : Tr W} (ht : t ∈ f.trsOf s) :
    ({ t with nextstate := σ t.nextstate } : Tr W) ∈ h.trsOf (σ s) := by
  have hs : s < f.numStates := by
    by_contra hc
    rw [trsOf_of_ge (by omega)] at ht
    simp at ht
  exact (e.trs s hs).subset (List.mem_map.2 ⟨t, ht, rfl⟩)

theorem Emb.edge (e : Emb f h σ) {a b} (hab : f.Edge a b) : h.Edge (σ a) (σ b) := by
  obtain ⟨t, ht, rfl⟩ := hab
  exact ⟨_, e.mem ht, rfl⟩

theorem Emb.reach (e : Emb f h σ) {a b} (hab : f.Reach a b) : h.Reach (σ a) (σ b) :=
  Relation.ReflTransGen.lift σ (fun _ _ => e.edge) _ _ hab

theorem Emb.onCycle (e : Emb f h σ) {a} (ha : f.OnCycle a) : h.OnCycle (σ a) :=
  Relation.TransGen.lift σ (fun _ _ => e.edge) _ _ ha

theorem nodup_of_copy {f : Fst W} {l : List (Tr W)} {s} {lab : Tr W → Nat}
    (hl : ∀ t q, lab { t with nextstate := q } = lab t)
    (hp : ((f.trsOf s).map fun t => { t with nextstate := σ t.nextstate }) <+: l) :
    (f.trsOf s).map lab <+: l.map lab := by
  have := hp.map lab
  rw [List.map_map] at this
  have e : (lab ∘ fun t : Tr W => { t with nextstate := σ t.nextstate }) = lab := by funext t; exact hl t _
  rwa [e] at this

variable [Zero W] [One W]

/-- The flags which assert that something exists. -/
def existential : PropBit → Bool
  | .notAcceptor | .notIDeterministic | .notODeterministic | .epsilons | .iEpsilons | .oEpsilons | .notILabelSorted
  | .notOLabelSorted | .weightedCycles | .cyclic => true
  | _ => false

theorem forall_lt_of_nil {P : List (Tr W) → Prop} (h0 : P []) (f : Fst W) :
    (∀ s, P (f.trsOf s)) ↔ ∀ s, s < f.numStates → P (f.trsOf s) := by
  constructor
  · intro h s _; exact h s
  · intro h s
    by_cases hs : s < f.numStates
    · exact h s hs
    · rw [trsOf_of_ge (by omega)]; exact h0

theorem Emb.holds (e : Emb f h σ) (b) (hb : existential b = true) (hf : f.Holds b) : h.Holds b := by
  have hi : ∀ s, s < f.numStates → (f.trsOf s).map (·.ilabel) <+: (h.trsOf (σ s)).map (·.ilabel) := fun s hs =>
    nodup_of_copy (fun _ _ => rfl) (e.trs s hs)
  have ho : ∀ s, s < f.numStates → (f.trsOf s).map (·.olabel) <+: (h.trsOf (σ s)).map (·.olabel) := fun s hs =>
    nodup_of_copy (fun _ _ => rfl) (e.trs s hs)
  cases b <;> simp only [existential, Bool.false_eq_true] at hb
  case notAcceptor =>
    intro hc; exact hf fun s t ht => (hc (σ s) _ (e.mem ht) : _)
  case notIDeterministic =>
    intro hc
    exact hf ((forall_lt_of_nil (P := fun l => (l.map (·.ilabel)).Nodup) (by simp) f).2 fun s hs =>
      (hc (σ s)).sublist (hi s hs).sublist)
  case notODeterministic =>
    intro hc
    exact hf ((forall_lt_of_nil (P := fun l => (l.map (·.olabel)).Nodup) (by simp) f).2 fun s hs =>
      (hc (σ s)).sublist (ho s hs).sublist)
  case epsilons => obtain ⟨s, t, ht, h1⟩ := hf; exact ⟨σ s, _, e.mem ht, h1⟩
  case iEpsilons => obtain ⟨s, t, ht, h1⟩ := hf; exact ⟨σ s, _, e.mem ht, h1⟩
  case oEpsilons => obtain ⟨s, t, ht, h1⟩ := hf; exact ⟨σ s, _, e.mem ht, h1⟩
  case notILabelSorted =>
    intro hc
    exact hf ((forall_lt_of_nil (P := fun l => (l.map (·.ilabel)).Pairwise (· ≤ ·)) (by simp) f).2 fun s hs =>
      (hc (σ s)).sublist (hi s hs).sublist)
  case notOLabelSorted =>
    intro hc
    exact hf ((forall_lt_of_nil (P := fun l => (l.map (·.olabel)).Pairwise (· ≤ ·)) (by simp) f).2 fun s hs =>
      (hc (σ s)).sublist (ho s hs).sublist)
  case weightedCycles =>
    obtain ⟨s, t, ht, h1, h2⟩ := hf
    exact ⟨σ s, _, e.mem ht, h1, e.reach h2⟩
  case cyclic => obtain ⟨s, hs⟩ := hf; exact ⟨σ s, e.onCycle hs⟩

theorem Emb.notTopSorted (e : Emb f h σ) (hσ : ∀ a b, σ a < σ b → a < b) (hf : f.Holds .notTopSorted) :
    h.Holds .notTopSorted := by
  intro hc; exact hf fun s t ht => hσ _ _ (hc (σ s) _ (e.mem ht))

/-- `h` consists of `f` (states below `n1`), a copy of `g` (states from `n1` below `n1 + n2`) and possibly fresh states;
transitions may lead from `f` to `g` and from the fresh states anywhere below. -/
structure Split (f g h : Fst W) : Prop where
  hi : ∀ a b, f.numStates ≤ a → a < f.numStates + g.numStates → h.Edge a b →
    f.numStates ≤ b ∧ b < f.numStates + g.numStates ∧ g.Edge (a - f.numStates) (b - f.numStates)
  lo : ∀ a b, a < f.numStates → h.Edge a b → b < f.numStates → f.Edge a b
  below : ∀ a b, h.Edge a b → b < f.numStates + g.numStates

variable {g : Fst W}

theorem Split.reach_hi (sp : Split f g h) {a b} (ha : f.numStates ≤ a) (ha' : a < f.numStates + g.numStates)
    (hab : h.Reach a b) : f.numStates ≤ b ∧ b < f.numStates + g.numStates ∧
      g.Reach (a - f.numStates) (b - f.numStates) := by
  induction hab with
  | refl => exact ⟨ha, ha', .refl⟩
  | tail _ hbc ih =>
    obtain ⟨h1, h2, h3⟩ := ih
    obtain ⟨h4, h5, h6⟩ := sp.hi _ _ h1 h2 hbc
    exact ⟨h4, h5, h3.tail h6⟩

theorem Split.reach_lo (sp : Split f g h) {a b} (ha : a < f.numStates) (hb : b < f.numStates)
    (hab : h.Reach a b) : f.Reach a b := by
  induction hab using Relation.ReflTransGen.head_induction_on with
  | refl => exact .refl
  | @head a c hac hcb ih =>
    by_cases hc : c < f.numStates
    · exact .head (sp.lo _ _ ha hac hc) (ih hc)
    · have := (sp.reach_hi (by omega) (sp.below _ _ hac) hcb).1
      omega

theorem Split.cycle (sp : Split f g h) {a} (ha : h.OnCycle a) :
    (a < f.numStates ∧ f.OnCycle a) ∨
    (f.numStates ≤ a ∧ a < f.numStates + g.numStates ∧ g.OnCycle (a - f.numStates)) := by
  obtain ⟨b, hab, hba⟩ := Relation.TransGen.head'_iff.1 ha
  have hlt : a < f.numStates + g.numStates := by
    obtain ⟨c, _, hca⟩ := Relation.TransGen.tail'_iff.1 ha
    exact sp.below _ _ hca
  by_cases h1 : a < f.numStates
  · left
    refine ⟨h1, ?_⟩
    by_cases hb : b < f.numStates
    · exact Relation.TransGen.head' (sp.lo _ _ h1 hab hb) (sp.reach_lo hb h1 hba)
    · have := (sp.reach_hi (by omega) (sp.below _ _ hab) hba).1
      omega
  · right
    obtain ⟨h2, h3, h4⟩ := sp.hi _ _ (by omega) hlt hab
    exact ⟨by omega, hlt, Relation.TransGen.head' h4 (sp.reach_hi h2 h3 hba).2.2⟩

theorem Split.acyclic (sp : Split f g h) (hf : f.Holds .acyclic) (hg : g.Holds .acyclic) : h.Holds .acyclic := by
  rintro ⟨s, hs⟩
  rcases sp.cycle hs with ⟨_, h1⟩ | ⟨_, _, h1⟩
  · exact hf ⟨_, h1⟩
  · exact hg ⟨_, h1⟩

end Fst
end Verif
