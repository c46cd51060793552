import Verif.Lemmas.Relabel
import Verif.Lemmas.Mid

/-! # Shape of the reversed FST -/

namespace Verif
set_option linter.unusedSectionVars false
universe u v
variable {W : Type u} {V : Type v}
variable [Zero V] [One V] [DecidableEq V]
namespace Fst

/-- The reversed transition. -/
def revTr (rev : W → V) (is : StateId) (t : Tr W) : Tr V := ⟨t.ilabel, t.olabel, rev t.weight, is + 1⟩

/-- Transitions of state `q + 1` of the reversal, from the first `k` states of `f`. -/
def revList (rev : W → V) (f : Fst W) (k q : Nat) : List (Tr V) :=
  (List.range k).flatMap fun is => ((f.trsOf is).filter (fun t => t.nextstate = q)).map (revTr rev is)

/-- Transitions of the new start state, from the first `k` states of `f`. -/
def revFinals (rev : W → V) (f : Fst W) (k : Nat) : List (Tr V) :=
  (List.range k).flatMap fun is => match f.finOf is with
    | some w => [⟨EPS, EPS, rev w, is + 1⟩]
    | none => []

theorem revPush_fold (rev : W → V) (is : Nat) (ts : List (Tr W)) (bs : List (List (Tr V))) :
    (ts.foldl (revPush rev is) bs).length = bs.length ∧
    (ts.foldl (revPush rev is) bs)[0]? = bs[0]? ∧
    ∀ q, (ts.foldl (revPush rev is) bs)[q + 1]? =
      bs[q + 1]?.map (· ++ (ts.filter (fun t => t.nextstate = q)).map (revTr rev is)) := by
  induction ts generalizing bs with
  | nil => refine ⟨rfl, rfl, fun q => ?_⟩; cases h : bs[q + 1]? <;> simp [h]
  | cons t ts ih =>
    rw [List.foldl_cons]
    obtain ⟨h1, h2, h3⟩ := ih (revPush rev is bs t)
    refine ⟨by rw [h1]; simp [revPush], ?_, fun q => ?_⟩
    · rw [h2, revPush, List.getElem?_modify]; simp
    · rw [h3, revPush, List.getElem?_modify]
      by_cases hq : t.nextstate = q
      · subst hq
        cases h : bs[t.nextstate + 1]? <;> simp [h, revTr]
      · cases h : bs[q + 1]? <;> simp [h, hq]

theorem setTrs_fold (ts : List (List (Tr V))) (k : Nat) (o : Fst V) :
    let r := (ts.zipIdx k).foldl (fun o (p : List (Tr V) × Nat) => o.setTrs p.2 p.1) o
    (∀ q, q < o.numStates → r.trsOf q = if k ≤ q then (ts[q - k]?).getD (o.trsOf q) else o.trsOf q) ∧
    (∀ q, r.finOf q = o.finOf q) ∧ r.numStates = o.numStates ∧ r.start = o.start ∧ (o.AllCounters → r.AllCounters) := by
  induction ts generalizing k o with
  | nil => simp
  | cons t ts ih =>
    simp only [List.zipIdx_cons, List.foldl_cons]
    obtain ⟨a, b, c, d, e⟩ := ih (k + 1) (o.setTrs k t)
    refine ⟨?_, fun q => by rw [b]; simp, by rw [c]; simp, by rw [d]; simp, fun h => e (allCounters_setTrs h _ _)⟩
    intro q hq
    rw [a q (by simpa using hq)]
    simp only [setTrs_trsOf]
    by_cases h1 : k + 1 ≤ q
    · have h2 : ¬ (q = k ∧ k < o.numStates) := by omega
      rw [if_pos h1, if_pos (show k ≤ q by omega), show q - k = (q - (k + 1)) + 1 from by omega, List.getElem?_cons_succ,
        if_neg h2]
    · rw [if_neg h1]
      by_cases h2 : q = k
      · subst h2; simp [hq]
      · have h3 : ¬ (q = k ∧ k < o.numStates) := by omega
        rw [if_neg h3, if_neg (by omega)]

/-- The state of loop 55-72 of `reverse` after `k` steps. -/
structure RevInv (rev : W → V) (f : Fst W) (k : Nat) (a : Fst V × List (List (Tr V))) : Prop where
  num : a.1.numStates = f.numStates + 1
  start : a.1.start = none
  trs : ∀ q, a.1.trsOf q = []
  fin : ∀ q, a.1.finOf q = if f.start = some (q - 1) ∧ 0 < q ∧ q - 1 < k then some 1 else none
  cnt : a.1.AllCounters
  len : a.2.length = f.numStates + 1
  zero : a.2[0]? = some (revFinals rev f k)
  succ : ∀ q, q < f.numStates → a.2[q + 1]? = some (revList rev f k q)

theorem revState_inv (rev : W → V) (f : Fst W) {k : Nat} (hk : k < f.numStates) {a} (h : RevInv rev f k a) :
    RevInv rev f (k + 1) (revState rev f a k) := by
  obtain ⟨o, bs⟩ := a
  obtain ⟨h1, h2, h3, h4, h5, h6, h7, h8⟩ := h
  simp only at *
  -- the buckets before the transitions are pushed
  obtain ⟨bs', hbs', e1, e2, e3⟩ : ∃ bs', bs' = (match f.finOf k with
      | some w => bs.modify 0 (· ++ [(⟨EPS, EPS, rev w, k + 1⟩ : Tr V)])
      | none => bs) ∧ bs'.length = bs.length ∧ bs'[0]? = some (revFinals rev f (k + 1)) ∧ ∀ q, bs'[q + 1]? = bs[q + 1]? := by
    have hr : revFinals rev f (k + 1) = revFinals rev f k ++ (match f.finOf k with
      | some w => [⟨EPS, EPS, rev w, k + 1⟩]
      | none => []) := by
      simp only [revFinals, List.range_succ, List.flatMap_append, List.flatMap_cons, List.flatMap_nil, List.append_nil]
    refine ⟨_, rfl, ?_, ?_, ?_⟩
    · split <;> simp
    · rw [hr]
      split
      · rw [List.getElem?_modify, h7]; simp
      · rw [h7]; simp
    · intro q
      split
      · rw [List.getElem?_modify]; simp
      · rfl
  obtain ⟨p1, p2, p3⟩ := revPush_fold rev k (f.trsOf k) bs'
  have hst : revState rev f (o, bs) k =
      ((if f.start = some k then o.setFinal (k + 1) 1 else o), (f.trsOf k).foldl (revPush rev k) bs') := by
    rw [hbs']; unfold revState; cases f.finOf k <;> rfl
  rw [hst]
  refine ⟨?_, ?_, ?_, ?_, ?_, ?_, ?_, ?_⟩
  · split <;> simp [h1]
  · split <;> simp [h2]
  · intro q; split <;> simp [h3]
  · intro q
    have hq : (if f.start = some k then o.setFinal (k + 1) 1 else o).finOf q =
        if f.start = some k ∧ q = k + 1 then some 1 else o.finOf q := by
      by_cases hs : f.start = some k
      · rw [if_pos hs, setFinal_finOf, h1]
        by_cases hq : q = k + 1
        · simp [hq, hs, hk]
        · simp [hq]
      · simp [hs]
    show (if f.start = some k then o.setFinal (k + 1) 1 else o).finOf q = _
    rw [hq, h4]
    by_cases hq : q = k + 1
    · subst hq; simp
    · have : (0 < q ∧ q - 1 < k + 1) ↔ (0 < q ∧ q - 1 < k) := by omega
      simp [hq, this]
  · show (if f.start = some k then o.setFinal (k + 1) 1 else o).AllCounters
    split
    · exact allCounters_setFinal h5 _ _
    · exact h5
  · show ((f.trsOf k).foldl (revPush rev k) bs').length = _
    rw [p1, e1, h6]
  · show ((f.trsOf k).foldl (revPush rev k) bs')[0]? = _
    rw [p2, e2]
  · intro q hq
    show ((f.trsOf k).foldl (revPush rev k) bs')[q + 1]? = _
    rw [p3, e3, h8 q hq]
    simp [revList, List.range_succ]

/-- Shape of the reversal. -/
theorem reverse_spec (rev : W → V) (f : Fst W) (hw : ∀ s, ∀ t ∈ f.trsOf s, t.nextstate < f.numStates) :
    ∃ o, f.reverse rev = .ok o ∧ o.numStates = f.numStates + 1 ∧ o.start = some 0 ∧
      o.trsOf 0 = revFinals rev f f.numStates ∧
      (∀ q, q < f.numStates → o.trsOf (q + 1) = revList rev f f.numStates q) ∧
      o.finOf 0 = none ∧ (∀ q, q < f.numStates → o.finOf (q + 1) = if f.start = some q then some 1 else none) ∧
      o.AllCounters := by
  have hall : f.states.all (fun st => st.trs.all fun t => t.nextstate < f.numStates) = true := by
    rw [List.all_eq_true]
    intro st hst
    obtain ⟨s, hs⟩ := List.mem_iff_getElem?.1 hst
    rw [List.all_eq_true]
    intro t ht
    simpa using hw s t (by rw [trsOf_eq_of_get hs]; exact ht)
  unfold reverse
  rw [if_pos hall]
  obtain ⟨h1, h2, h3, h4, h5, h6, h7, h8⟩ := foldl_range_induct (fun k a => RevInv rev f k a) (revState rev f)
    f.numStates ((((Fst.new : Fst V).addState).addStates f.numStates), List.replicate (f.numStates + 1) [])
    ⟨by simp [Nat.add_comm], by simp, by simp, by simp, allCounters_addStates (allCounters_addStates allCounters_new 1) _,
      by simp, by simp [revFinals], fun q hq => by simp [hq, revList]⟩
    (fun k a hk h => revState_inv rev f hk h)
  simp only
  generalize hr : List.foldl (revState rev f) ((((Fst.new : Fst V).addState).addStates f.numStates),
    List.replicate (f.numStates + 1) []) (List.range f.numStates) = r at *
  obtain ⟨a, b, c, d, e⟩ := setTrs_fold r.2 0 r.1
  refine ⟨_, rfl, ?_, ?_, ?_, ?_, ?_, ?_, ?_⟩
  · simp [c, h1]
  · simp
  · simp only [setPropsMask_trsOf, setStart_trsOf]
    rw [a 0 (by omega)]
    simp [h7]
  · intro q hq
    simp only [setPropsMask_trsOf, setStart_trsOf]
    rw [a (q + 1) (by omega)]
    simp [h8 q hq]
  · simp [b, h4]
  · intro q hq
    simp [b, h4, hq]
  · exact allCounters_states (allCounters_setStart (e h5) 0) rfl

end Fst
end Verif
