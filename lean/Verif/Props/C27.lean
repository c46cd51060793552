import Verif.Model.BinFst
import Verif.Props.C07
import Verif.Lemmas.Trim
import Verif.Lemmas.DecHist

/-!
# C27: `ConstFst` is the same FST
-/

namespace Verif
universe u
variable {W : Type u}

/-- The states of the loop, one by one. -/
theorem toConstLoop_get (l : List (State W)) : ∀ (pos s : Nat),
    (toConstLoop pos l).1[s]? =
      (l[s]?).map fun st => ⟨st.fin, pos + ((l.take s).map fun q => q.trs.length).sum, st.trs.length, st.niepsilons,
        st.noepsilons⟩ := by
  induction l with
  | nil => intro pos s; simp [toConstLoop]
  | cons a l ih =>
    intro pos s
    cases s with
    | zero => simp [toConstLoop]
    | succ s =>
      simp only [toConstLoop, List.getElem?_cons_succ, ih, List.take_succ_cons, List.map_cons, List.sum_cons]
      cases l[s]? <;> simp <;> omega

/-- The slice of a state in the concatenation is its list of transitions. -/
theorem slice_loop (l : List (State W)) : ∀ (pos s : Nat) (st : State W), l[s]? = some st →
    ConstFst.slice (toConstLoop pos l).2 ((l.take s).map fun q => q.trs.length).sum st.trs.length = .ok st.trs := by
  induction l with
  | nil => intro pos s st h; simp at h
  | cons a l ih =>
    intro pos s st h
    cases s with
    | zero =>
      simp only [List.getElem?_cons_zero, Option.some.injEq] at h
      subst h
      simp [toConstLoop, ConstFst.slice]
    | succ s =>
      simp only [List.getElem?_cons_succ] at h
      have := ih (pos + a.trs.length) s st h
      unfold ConstFst.slice at this ⊢
      simp only [toConstLoop, List.take_succ_cons, List.map_cons, List.sum_cons, List.length_append]
      split at this
      · next hl =>
        rw [if_pos (by omega)]
        rw [Except.ok.injEq] at this ⊢
        rw [← List.drop_drop, List.drop_left]
        exact this
      · cases this

variable [Zero W] [One W] [DecidableEq W]

/-- What `toConst` builds. -/
theorem toConst_eq {x : SFst W} {c : ConstFst W} (h : toConst x = .ok c) :
    ∃ p, c = ⟨(toConstLoop 0 x.fst.states).1, (toConstLoop 0 x.fst.states).2, x.fst.start, x.isymt, x.osymt, p⟩ ∧
      ∃ g, x.fst.computeAndUpdate Props.allMask = .ok (g, p) := by
  unfold toConst at h
  split at h
  · next f p hf =>
    cases h
    refine ⟨p, ?_, f, hf⟩
    unfold Fst.computeAndUpdate at hf
    split at hf
    · cases hf
    · cases hf; rfl
  · cases h

/-- **C27.** A `ConstFst` built from a `VectorFst` answers every query of the `Fst` trait as the `VectorFst` does, for all
states, existing or not. -/
theorem C27_same (x : SFst W) (c : ConstFst W) (h : toConst x = .ok c) :
    c.numStates = x.fst.numStates ∧ c.start = x.fst.start ∧ c.isymt = x.isymt ∧ c.osymt = x.osymt ∧
    ∀ s : StateId, c.getTrsR s = x.fst.getTrsR s ∧ c.finalWeightR s = x.fst.finalWeightR s ∧
      c.numTrsR s = x.fst.numTrsR s ∧ c.numIEpsR s = x.fst.numIEpsR s ∧ c.numOEpsR s = x.fst.numOEpsR s := by
  obtain ⟨p, rfl, -⟩ := toConst_eq h
  have hlen : ∀ (l : List (State W)) (pos : Nat), (toConstLoop pos l).1.length = l.length := by
    intro l
    induction l with
    | nil => intro pos; rfl
    | cons a l ih => intro pos; simp [toConstLoop, ih]
  refine ⟨hlen _ _, rfl, rfl, rfl, fun s => ?_⟩
  have hs := toConstLoop_get x.fst.states 0 s
  simp only [ConstFst.getTrsR, ConstFst.finalWeightR, ConstFst.numTrsR, ConstFst.numIEpsR, ConstFst.numOEpsR, hs,
    Fst.getTrsR, Fst.finalWeightR, Fst.numTrsR, Fst.numIEpsR, Fst.numOEpsR]
  cases he : x.fst.states[s]? with
  | none => simp
  | some st =>
    have := slice_loop x.fst.states 0 s st he
    simp only [Option.map_some, Nat.zero_add, this, and_self]

/-- The conversion of a well-formed FST succeeds. -/
theorem C27_total (x : SFst W) (hw : x.fst.WF) : ∃ c, toConst x = .ok c := by
  have : ∃ r, x.fst.computeProps Props.allMask true = .ok r := by
    unfold Fst.computeProps
    rw [Fst.targetsOk_of_wf hw]
    split
    · exact ⟨_, rfl⟩
    · exact ⟨_, rfl⟩
  obtain ⟨r, hr⟩ := this
  unfold toConst Fst.computeAndUpdate
  rw [hr]
  exact ⟨_, rfl⟩

/-- The flags of the `ConstFst` are exactly the true ones. -/
theorem C27_flags (x : SFst W) (c : ConstFst W) (h : toConst x = .ok c) (hw : x.fst.WF) (tf : x.fst.Truthful)
    (hs : x.fst.start ≠ none ∨ x.fst.numStates = 0) (hz : ∀ s, x.fst.finOf s ≠ some 0) (b : PropBit) :
    c.props b = true ↔ x.fst.Holds b := by
  obtain ⟨p, rfl, g, hg⟩ := toConst_eq h
  obtain ⟨g', p', h1, h2, -⟩ := C07_update x.fst hw tf hs Props.allMask (fun _ => hz)
  rw [h1] at hg
  cases hg
  rw [h2 b]
  exact ⟨fun h => h.2, fun h => ⟨rfl, h⟩⟩

/-- An FST with three states, transitions on two of them and a final state. -/
def exConst : SFst Nat :=
  ⟨(((((Fst.new.addStates 3).setStart 1).addTr 0 ⟨1, 2, 3, 1⟩).addTr 1 ⟨0, 2, 3, 2⟩).addTr 1 ⟨4, 0, 1, 0⟩).setFinal 2 5,
    some SymTable.new, none⟩

/-- The hypotheses of `C27_same`, `C27_total` and `C27_flags` hold of a concrete FST. -/
example : ∃ c, toConst exConst = .ok c ∧ exConst.fst.WF ∧ c.getTrsR 1 = .ok [⟨0, 2, 3, 2⟩, ⟨4, 0, 1, 0⟩] ∧
    c.numOEpsR 1 = .ok 1 ∧ c.finalWeightR 2 = .ok (some 5) ∧ c.getTrsR 3 = .error .err := by
  have hw : exConst.fst.WF := Fst.wf_of_wfB (by decide)
  obtain ⟨c, hc⟩ := C27_total exConst hw
  obtain ⟨-, -, -, -, h⟩ := C27_same exConst c hc
  exact ⟨c, hc, hw, by rw [(h 1).1]; rfl, by rw [(h 1).2.2.2.2]; rfl, by rw [(h 2).2.1]; rfl, by rw [(h 3).1]; rfl⟩

/-- **C27 (defect).** `get_trs(s).to_trs_vec()` of a `ConstFst` is not the list of transitions of `s`: it is the list of the
transitions of all states (trs.rs 79-81). -/
theorem C27_to_trs_vec_defect : ∃ (x : SFst Nat) (c : ConstFst Nat), x.fst.WF ∧ toConst x = .ok c ∧
    c.toTrsVecR 0 ≠ c.getTrsR 0 ∧ c.toTrsVecR 2 ≠ c.getTrsR 2 := by
  have hw : exConst.fst.WF := Fst.wf_of_wfB (by decide)
  obtain ⟨c, hc⟩ := C27_total exConst hw
  refine ⟨exConst, c, hw, hc, ?_⟩
  obtain ⟨-, -, -, -, h⟩ := C27_same exConst c hc
  obtain ⟨p, rfl, -⟩ := toConst_eq hc
  rw [(h 0).1, (h 2).1]
  exact ⟨(by decide : (Except.ok (toConstLoop 0 exConst.fst.states).2 : R (List (Tr Nat))) ≠ exConst.fst.getTrsR 0),
    (by decide : (Except.ok (toConstLoop 0 exConst.fst.states).2 : R (List (Tr Nat))) ≠ exConst.fst.getTrsR 2)⟩

end Verif
