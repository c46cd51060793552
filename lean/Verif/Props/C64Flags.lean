import Verif.Props.C64
import Verif.Props.C40Flags
import Verif.Lemmas.Truthful

/-! # C51 for the delayed union, concatenation and closure -/

namespace Verif
universe u
variable {W : Type u} [MonoidWithZero W] [DecidableEq W] {f g : Fst W}
open Fst

theorem unionRoot_truthful : (unionRoot : Fst W).Truthful :=
  truthful_addTr (truthful_addTr (truthful_setFinal (truthful_setStart (truthful_addStates truthful_new 2) 0) (Nat.lt_succ_self 1) _) (Nat.zero_lt_succ 1) _)
    (Nat.zero_lt_succ 1) _

theorem concatRoot_truthful : (concatRoot : Fst W).Truthful :=
  truthful_addTr (truthful_addTr (truthful_setFinal (truthful_setStart (truthful_addStates truthful_new 3) 0) (Nat.lt_succ_self 2) _) (Nat.zero_lt_succ 2) _)
    (show 1 < 3 by decide) _

theorem closureRoot_truthful (c : ClosureType) : (closureRoot c : Fst W).Truthful := by
  cases c with
  | star => exact truthful_addTr (truthful_setFinal (truthful_setStart (f := Fst.new.addState) (truthful_addStates truthful_new 1) 0) (Nat.zero_lt_succ 0) _) (Nat.zero_lt_succ 0) _
  | plus =>
    exact truthful_addTr (truthful_addTr (truthful_setFinal (truthful_setStart (truthful_addStates truthful_new 2) 0) (Nat.lt_succ_self 1) _) (Nat.zero_lt_succ 1) _)
      (Nat.lt_succ_self 1) _

/-- The flags of the FST that are claimed to be right. -/
def TrueFlags (operands : List (Fst W)) (F : Fst W) : Prop :=
  (∀ b ∈ [PropBit.accessible, .acceptor, .iDeterministic, .acyclic, .unweighted, .initialAcyclic, .noIEpsilons, .iLabelSorted], F.props b = true → F.Holds b) ∧
  ((∀ p ∈ operands, ∀ s, p.finOf s ≠ some 0) → ∀ b ∈ [PropBit.coaccessible, .initialCyclic], F.props b = true → F.Holds b)

/-- C51 for the delayed operations: for well-formed operands with right flags, whenever `compute` of a `UnionFst`, `ConcatFst` or `ClosureFst` returns an FST, its flags
`ACCESSIBLE`, `ACCEPTOR`, `I_DETERMINISTIC`, `ACYCLIC`, `UNWEIGHTED`, `INITIAL_ACYCLIC`, `NO_I_EPSILONS` and `I_LABEL_SORTED` are right; `COACCESSIBLE` and `INITIAL_CYCLIC`
if no final weight is zero. -/
theorem C64_flags_partial [Nontrivial W] (hf : f.WF) (hg : g.WF) (tf : f.Truthful) (tg : g.Truthful) {n : Nat} {F : Fst W} :
    (unionFst f g n = some (.ok F) → TrueFlags [f, g] F) ∧ (concatFst f g n = some (.ok F) → TrueFlags [f, g] F) ∧
    ∀ c, closureFst c f n = some (.ok F) → TrueFlags [f] F := by
  have key : ∀ (list : List (Label × Fst W)) (ops : List (Fst W)), (∀ p ∈ list, p.2.WF) → (∀ p ∈ list, p.2.Truthful) → namedBy list 0 = some 0 →
      (∀ p ∈ list, p.2 ∈ ops ∨ ∀ s, p.2.finOf s ≠ some 0) → replace list 0 false n = some (.ok F) → TrueFlags ops F := by
    intro list ops h1 h2 h3 h4 h5
    obtain ⟨a, b, c, -⟩ := C40_flags_partial h1 h2 h3 h5
    refine ⟨fun x hx hF => ?_, fun hz => b fun p hp s => ?_⟩
    · simp only [List.mem_cons, List.not_mem_nil, or_false] at hx
      rcases hx with rfl | rfl | rfl | rfl | rfl | rfl | rfl | rfl
      all_goals first | exact c rfl hF | exact a _ (by simp) hF
    · rcases h4 p hp with h | h
      · exact hz _ h s
      · exact h s
  have zr : ∀ (r : Fst W), (∀ s w, r.finOf s = some w → w = 1) → ∀ s, r.finOf s ≠ some 0 := fun r h s e => zero_ne_one (h s _ e)
  refine ⟨fun h => ?_, fun h => ?_, fun c h => ?_⟩
  · refine key _ _ (three_wf unionRoot_wf hf hg) ?_ (by rw [named_three]; rfl) ?_ h
    · intro p hp
      simp only [List.mem_cons, List.not_mem_nil, or_false] at hp
      rcases hp with rfl | rfl | rfl
      exacts [unionRoot_truthful, tf, tg]
    · intro p hp
      simp only [List.mem_cons, List.not_mem_nil, or_false] at hp
      rcases hp with rfl | rfl | rfl
      · refine .inr (zr _ fun s w e => ?_)
        match s, e with
        | 0, e => cases e
        | 1, e => cases e; rfl
        | s + 2, e => rw [finOf_of_ge (show 2 ≤ s + 2 by omega)] at e; cases e
      · exact .inl (by simp)
      · exact .inl (by simp)
  · refine key _ _ (three_wf concatRoot_wf hf hg) ?_ (by rw [named_three]; rfl) ?_ h
    · intro p hp
      simp only [List.mem_cons, List.not_mem_nil, or_false] at hp
      rcases hp with rfl | rfl | rfl
      exacts [concatRoot_truthful, tf, tg]
    · intro p hp
      simp only [List.mem_cons, List.not_mem_nil, or_false] at hp
      rcases hp with rfl | rfl | rfl
      · refine .inr (zr _ fun s w e => ?_)
        match s, e with
        | 0, e => cases e
        | 1, e => cases e
        | 2, e => cases e; rfl
        | s + 3, e => rw [finOf_of_ge (show 3 ≤ s + 3 by omega)] at e; cases e
      · exact .inl (by simp)
      · exact .inl (by simp)
  · refine key _ _ (two_wf (closureRoot_wf c) hf) ?_ (by rw [named_two]; rfl) ?_ h
    · intro p hp
      simp only [List.mem_cons, List.not_mem_nil, or_false] at hp
      rcases hp with rfl | rfl
      exacts [closureRoot_truthful c, tf]
    · intro p hp
      simp only [List.mem_cons, List.not_mem_nil, or_false] at hp
      rcases hp with rfl | rfl
      · refine .inr (zr _ fun s w e => ?_)
        cases c with
        | star =>
          match s, e with
          | 0, e => cases e; rfl
          | s + 1, e => rw [finOf_of_ge (show 1 ≤ s + 1 by omega)] at e; cases e
        | plus =>
          match s, e with
          | 0, e => cases e
          | 1, e => cases e; rfl
          | s + 2, e => rw [finOf_of_ge (show 2 ≤ s + 2 by omega)] at e; cases e
      · exact .inl (by simp)

/-- An acceptor of the string `1`. -/
def exOne : Fst Nat := (((Fst.new.addStates 2).setStart 0).setFinal 1 3).addTr 0 ⟨1, 1, 2, 1⟩

/-- The union of it with itself is flagged `ACYCLIC`, `INITIAL_ACYCLIC` and `I_LABEL_SORTED`, and it is. -/
example : ∃ F, unionFst exOne exOne 20 = some (.ok F) ∧ F.props .acyclic = true ∧ F.props .iLabelSorted = true ∧ F.Holds .acyclic ∧ F.Holds .iLabelSorted := by
  have ht : exOne.Truthful := truthful_addTr (truthful_setFinal (truthful_setStart (truthful_addStates truthful_new 2) 0) (by decide) _) (by decide) _
  have hw : exOne.WF := wf_of_wfB (by decide)
  have hk : (match unionFst exOne exOne 20 with | some (.ok F) => F.props .acyclic && F.props .iLabelSorted | _ => false) = true := by decide +kernel
  split at hk
  · next F hF =>
    rw [Bool.and_eq_true] at hk
    have h := ((C64_flags_partial hw hw ht ht).1 hF).1
    exact ⟨F, hF, hk.1, hk.2, h _ (by simp) hk.1, h _ (by simp) hk.2⟩
  · cases hk

end Verif
