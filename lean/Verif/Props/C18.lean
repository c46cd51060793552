import Verif.Lemmas.Trim
import Verif.Lemmas.DecHist
import Verif.Lemmas.Shape

/-! # C18: `connect` trims and preserves the language -/

namespace Verif
open Fst
universe u
variable {W : Type u} [Zero W] [One W] [DecidableEq W]

/-- C18: on every well-formed FST `connect` succeeds. The states it deletes (`ds`) are exactly those that are not both
accessible and coaccessible; the other states are kept in order with their final weights and their transitions to kept states;
the start state follows its state or is gone. -/
theorem C18_connect (f : Fst W) (hw : f.WF) : ∃ g ds, f.connect = .ok g ∧
    (∀ s, s ∈ ds ↔ s < f.numStates ∧ ¬ (f.Accessible s ∧ f.Coaccessible s)) ∧
    g.numStates = (survivors f.numStates ds).length ∧
    (∀ i s, (survivors f.numStates ds)[i]? = some s → g.finOf i = f.finOf s ∧ g.trsOf i = survivingTrs ds (f.trsOf s)) ∧
    g.start = f.start.bind (fun i => if i ∈ ds then none else some (newNumber ds i)) := by
  have hd : ∀ s ∈ f.useless, s < f.numStates := fun s hs => ((mem_useless hw s).1 hs).1
  have hok := delStates_ok f f.useless hd hw.start_lt (fun s _ _ => hw.next_lt s)
  generalize hg : (⟨_, _, _⟩ : Fst W) = g at hok
  have hcon : f.connect = .ok (g.setPropsMask (Props.of [.accessible, .coaccessible]) (Props.of [.accessible, .coaccessible])) := by
    unfold connect
    rw [if_neg (by simp [targetsOk_of_wf hw])]
    show (match f.delStates f.useless with | .error e => _ | .ok g => _) = _
    rw [hok]
  refine ⟨_, f.useless, hcon, mem_useless hw, ?_, ?_, ?_⟩
  · rw [setPropsMask_numStates, delStates_numStates hok, survivors_length]
  · intro i s hi
    exact ⟨delStates_finOf hok hi, delStates_trsOf hok hi⟩
  · rw [setPropsMask_start]; exact delStates_start hok

/-- C18: every accepting path is preserved, with its labels, weight and multiplicity. -/
theorem C18_paths [Mul W] (f g : Fst W) (hw : f.WF) (hg : f.connect = .ok g) (n : Nat) : g.accPaths n = f.accPaths n := by
  obtain ⟨g', ds, h1, h2, h3, h4, h5⟩ := C18_connect f hw
  rw [hg] at h1; cases h1
  exact Trimmed.accPaths hw ⟨h2, h3, h4, h5⟩ n

/-- C18: every state of the result lies on an accepting path. -/
theorem C18_trim (f g : Fst W) (hw : f.WF) (hg : f.connect = .ok g) (q : StateId) (hq : q < g.numStates) :
    g.Accessible q ∧ g.Coaccessible q := by
  obtain ⟨g', ds, h1, h2, h3, h4, h5⟩ := C18_connect f hw
  rw [hg] at h1; cases h1
  exact Trimmed.useful hw ⟨h2, h3, h4, h5⟩ hq

theorem connect_delStates {f g : Fst W} (hg : f.connect = .ok g) : ∃ ds h, f.delStates ds = .ok h ∧
    g = h.setPropsMask (Props.of [.accessible, .coaccessible]) (Props.of [.accessible, .coaccessible]) := by
  unfold connect at hg
  split at hg
  · cases hg
  · simp only at hg
    split at hg
    · cases hg
    · next h hh => cases hg; exact ⟨_, h, hh, rfl⟩

/-- C18: the result is well-formed and keeps its ε counters. -/
theorem C18_wf (f g : Fst W) (hg : f.connect = .ok g) : g.WF ∧ (f.AllCounters → g.AllCounters) := by
  obtain ⟨ds, h, hh, rfl⟩ := connect_delStates hg
  refine ⟨⟨?_, ?_⟩, fun hc => ?_⟩
  · have := startLt_delStates hh; exact this
  · exact (nextLt_iff h).1 (nextLt_delStates hh)
  · exact allCounters_setPropsMask (allCounters_delStates hc hh) _ _

/-- C51 for `connect`. -/
theorem C18_flags (f g : Fst W) (hw : f.WF) (tf : f.Truthful) (hg : f.connect = .ok g) : g.Truthful := by
  have hu := C18_trim f g hw hg
  obtain ⟨ds, h, hh, rfl⟩ := connect_delStates hg
  have th := truthful_delStates tf hh
  intro b hb
  by_cases h1 : b = .accessible
  · subst h1; exact fun s hs => (hu s hs).1
  · by_cases h2 : b = .coaccessible
    · subst h2; exact fun s hs => (hu s hs).2
    · have : (Props.of [.accessible, .coaccessible]) b = false := by simp [Props.of, h1, h2]
      simp only [setPropsMask, Props.or, Props.and, Props.not, this, Bool.not_false, Bool.and_true, Bool.and_false, Bool.or_false] at hb
      have := th b hb
      cases b <;> exact this

/-- A missing transition target makes `connect` panic. -/
theorem C18_panics : ∃ f : Fst Nat, f.start = some 0 ∧ f.connect = .error .panic :=
  ⟨(((Fst.new.addStates 1).setStart 0).addTr 0 ⟨1, 1, 1, 7⟩), rfl, rfl⟩

/-- A non-trivial instance: states 0, 1, 3 form two cycles; 2 is a dead end, 4 is unreachable. -/
def exTrim : Fst Nat :=
  ((((((((Fst.new.addStates 5).setStart 0).setFinal 3 7).addTr 0 ⟨1, 1, 2, 1⟩).addTr 1 ⟨2, 2, 3, 0⟩).addTr 1 ⟨3, 3, 1, 2⟩).addTr 1
    ⟨4, 4, 1, 3⟩).addTr 3 ⟨5, 5, 1, 0⟩).addTr 4 ⟨6, 6, 1, 0⟩
example : exTrim.WF := Fst.wf_of_wfB (by decide)
example : ∃ g, exTrim.connect = .ok g ∧ g.numStates = 3 ∧ g.start = some 0 ∧ g.trsOf 1 = [⟨2, 2, 3, 0⟩, ⟨4, 4, 1, 2⟩] ∧
    g.trsOf 2 = [⟨5, 5, 1, 0⟩] ∧ g.finOf 2 = some 7 := ⟨_, rfl, by decide⟩

end Verif
