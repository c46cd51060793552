import Verif.Lemmas.Wf
import Verif.Lemmas.DecHist

/-! # C01: histories of mutations keep an FST well formed; C02: ε counters are exact -/

namespace Verif
universe u
variable {W : Type u} [Zero W] [One W] [Add W] [DecidableEq W]

/-- C01, start state: whatever calls were made, the start state exists. -/
theorem C01_start_exists (ops : List (Op W)) (f : Fst W) (h : run ops = some f) :
    ∀ i, f.start = some i → i < f.numStates :=
  Fst.run_induct (P := Fst.StartLt) (fun _ _ _ _ hp hs => Fst.step_start hp hs) (by intro i hi; simp at hi) h

/-- C01, targets: if the calls were only given existing targets, then all targets exist, after deletions too. -/
theorem C01_well_formed (ops : List (Op W)) (f : Fst W) (ht : TargetsExist Fst.new ops) (h : run ops = some f) :
    f.WF where
  start_lt := C01_start_exists ops f h
  next_lt := (Fst.nextLt_iff f).1 (Fst.run_next (by intro s st hs; simp [Fst.new] at hs) ht h)

/-- A history with a loop, a deletion and a failed call. -/
def exampleOps : List (Op Nat) :=
  [.addStates 3, .setStart 1, .addTr 1 ⟨0, 2, 5, 2⟩, .addTr 2 ⟨3, 0, 1, 2⟩, .addTr 2 ⟨3, 0, 1, 0⟩, .addTr 9 ⟨0, 0, 0, 0⟩,
   .setFinal 2 7, .delStates [0], .setNextstate 1 0 0]

example : TargetsExist Fst.new exampleOps ∧
    ((run exampleOps).map fun f => (f.numStates, f.start, f.trsOf 0, f.trsOf 1)) =
      some (2, some 0, [⟨0, 2, 5, 1⟩], [⟨3, 0, 1, 0⟩]) := by
  exact ⟨by decide, by decide⟩

/-- C02: the counters returned by `num_input_epsilons` and `num_output_epsilons` are exact, for every history. -/
theorem C02_counters_exact (ops : List (Op W)) (f : Fst W) (h : run ops = some f) (s : StateId)
    (hs : s < f.numStates) :
    f.numIEpsR s = .ok ((f.trsOf s).filter (fun t => t.ilabel = EPS)).length ∧
    f.numOEpsR s = .ok ((f.trsOf s).filter (fun t => t.olabel = EPS)).length := by
  have hc : f.AllCounters :=
    Fst.run_induct (P := Fst.AllCounters) (fun _ _ _ _ hp hs => Fst.step_counters hp hs)
      (by intro s st hs; simp [Fst.new] at hs) h
  have hst : f.states[s]? = some (f.states[s]'hs) := List.getElem?_eq_getElem hs
  have := hc s _ hst
  simp only [Fst.numIEpsR, Fst.numOEpsR, Fst.trsOf, hst]
  exact ⟨congrArg _ this.1, congrArg _ this.2⟩

example : ((run exampleOps).map fun f => (f.numIEpsR 0, f.numOEpsR 0, f.numIEpsR 1, f.numOEpsR 1)) =
    some (.ok 1, .ok 0, .ok 0, .ok 1) := by decide

end Verif
