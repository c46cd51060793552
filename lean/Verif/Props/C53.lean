import Verif.Model.FinalOps
import Verif.Lemmas.ComputeProps
import Verif.Lemmas.Append
import Verif.Lemmas.DecHist

/-! # C53: `condense` -/

namespace Verif
open Fst
set_option linter.unusedSectionVars false
universe u

section
variable {W : Type u}

/-- The transitions of component `c` of `f` that lead to another component, in the order of the states; `comp` gives the component
of a state. -/
def leaving (f : Fst W) (comp : StateId → Nat) (n : Nat) (c : Nat) : List (Tr W) :=
  ((List.range n).filter fun s => comp s = c).flatMap fun s =>
    ((f.trsOf s).filter fun t => comp t.nextstate ≠ c).map fun t => { t with nextstate := comp t.nextstate }

/-- The final weights of component `c`. -/
def finalWeights (f : Fst W) (comp : StateId → Nat) (n : Nat) (c : Nat) : List W :=
  ((List.range n).filter fun s => comp s = c).filterMap fun s => f.finOf s

theorem leaving_succ (f : Fst W) (comp : StateId → Nat) (n c : Nat) : leaving f comp (n + 1) c = leaving f comp n c ++
    if comp n = c then ((f.trsOf n).filter fun t => comp t.nextstate ≠ c).map fun t => { t with nextstate := comp t.nextstate }
    else [] := by
  unfold leaving
  rw [List.range_succ, List.filter_append, List.flatMap_append]
  by_cases h : comp n = c <;> simp [h]

theorem finalWeights_succ (f : Fst W) (comp : StateId → Nat) (n c : Nat) : finalWeights f comp (n + 1) c =
    finalWeights f comp n c ++ if comp n = c then (f.finOf n).toList else [] := by
  unfold finalWeights
  rw [List.range_succ, List.filter_append, List.filterMap_append]
  by_cases h : comp n = c
  · cases hw : f.finOf n <;> simp [h, hw]
  · simp [h]
end

/-- The sum of the weights of a list, in order; `none` for the empty list. -/
def sumFin {W : Type u} [Add W] : List W → Option W
  | [] => none
  | w :: ws => some (ws.foldl (· + ·) w)

theorem sumFin_append {W : Type u} [Add W] (l : List W) (w : W) : sumFin (l ++ [w]) = some (plusFin (sumFin l) w) := by
  cases l with
  | nil => rfl
  | cons a l => simp [sumFin, plusFin, List.foldl_append]

variable {W : Type u} [Zero W] [One W] [DecidableEq W]

theorem condenseTrs_spec (scc : Nat → Int) (c : StateId) (ts : List (Tr W)) : ∀ (o : Fst W), c < o.numStates →
    (∀ q, (ts.foldl (condenseTr scc c) o).trsOf q = o.trsOf q ++ if q = c then
      ((ts.filter fun t => (scc t.nextstate).toNat ≠ c).map fun t => { t with nextstate := (scc t.nextstate).toNat }) else []) ∧
    (∀ q, (ts.foldl (condenseTr scc c) o).finOf q = o.finOf q) ∧
    (ts.foldl (condenseTr scc c) o).numStates = o.numStates ∧ (ts.foldl (condenseTr scc c) o).start = o.start ∧
    (o.Truthful → (ts.foldl (condenseTr scc c) o).Truthful) := by
  induction ts with
  | nil => intro o _; simp
  | cons t ts ih =>
    intro o hc
    have h1 : c < (condenseTr scc c o t).numStates := by unfold condenseTr; split <;> simpa using hc
    obtain ⟨a, b, d, e, g⟩ := ih _ h1
    rw [List.foldl_cons]
    by_cases hn : (scc t.nextstate).toNat = c
    · have : condenseTr scc c o t = o := by unfold condenseTr; rw [if_neg (by simpa using hn)]
      rw [this] at a b d e g ⊢
      refine ⟨fun q => ?_, b, d, e, g⟩
      rw [a]; simp [hn]
    · have : condenseTr scc c o t = o.addTr c { t with nextstate := (scc t.nextstate).toNat } := by
        unfold condenseTr; rw [if_pos hn]
      rw [this] at a b d e g ⊢
      refine ⟨fun q => ?_, fun q => by rw [b]; simp, by rw [d]; simp, by rw [e]; simp, fun ht => g (truthful_addTr ht hc _)⟩
      rw [a, addTr_trsOf]
      by_cases hq : q = c
      · subst hq; simp [hc, hn]
      · simp [hq]

/-- C53: for every well-formed FST with a start state, `condense` succeeds. Two states get the same number exactly when each can be
reached from the other; the numbers are `0 .. k-1` where `k` is the number of states of the result. The result starts in the component
of the start state, keeps exactly the transitions between different components, gives each component the sum of the final weights of
its states, is acyclic (every transition leads to a larger number) and carries true flags. -/
theorem C53_condense [Add W] (f : Fst W) (hw : f.WF) (i : StateId) (hi : f.start = some i) : ∃ scc o, f.condense = .ok (scc, o) ∧
    (∀ q r, q < f.numStates → r < f.numStates → (scc q = scc r ↔ f.Reach q r ∧ f.Reach r q)) ∧
    (∀ q, q < f.numStates → 0 ≤ scc q ∧ scc q < o.numStates) ∧
    (∀ c : Nat, c < o.numStates → ∃ q, q < f.numStates ∧ scc q = c) ∧
    o.start = some (scc i).toNat ∧
    (∀ c, c < o.numStates → o.trsOf c = leaving f (fun s => (scc s).toNat) f.numStates c ∧
      o.finOf c = sumFin (finalWeights f (fun s => (scc s).toNat) f.numStates c)) ∧
    (∀ c t, t ∈ o.trsOf c → c < t.nextstate ∧ t.nextstate < o.numStates) ∧ o.Holds .acyclic ∧ o.Truthful := by
  have R := Scc.sccVisit_spec hw hi (fun _ => true)
  have hil := hw.start_lt i hi
  obtain ⟨scc, hscc⟩ : ∃ scc, scc = (f.sccVisit fun _ => true).scc := ⟨_, rfl⟩
  obtain ⟨N, hN⟩ : ∃ N, N = ((List.range f.numStates).map fun s => (scc s).toNat).foldl max 0 + 1 := ⟨_, rfl⟩
  have hmax : ∀ (l : List Nat) (a : Nat), (∀ x ∈ l, x ≤ l.foldl max a) ∧ a ≤ l.foldl max a ∧ (l.foldl max a = a ∨ l.foldl max a ∈ l) := by
    intro l
    induction l with
    | nil => intro a; simp
    | cons b l ih =>
      intro a
      obtain ⟨h1, h2, h3⟩ := ih (max a b)
      rw [List.foldl_cons]
      refine ⟨?_, by omega, ?_⟩
      · intro x hx
        rcases List.mem_cons.1 hx with h | h
        · subst h; omega
        · exact h1 x h
      · rcases h3 with h3 | h3
        · rcases Nat.le_total a b with h | h
          · right; rw [h3, Nat.max_eq_right h]; exact List.mem_cons_self
          · left; rw [h3, Nat.max_eq_left h]
        · right; exact List.mem_cons_of_mem _ h3
  have hlt : ∀ q, q < f.numStates → (scc q).toNat < N := by
    intro q hq
    have := (hmax ((List.range f.numStates).map fun s => (scc s).toNat) 0).1 _ (List.mem_map.2 ⟨q, List.mem_range.2 hq, rfl⟩)
    omega
  have hpos : ∀ q, q < f.numStates → 0 ≤ scc q := by intro q hq; rw [hscc]; exact (R.range q hq).1
  have hsurj : ∀ c, c < N → ∃ q, q < f.numStates ∧ (scc q).toNat = c := by
    intro c hc
    -- the largest number is reached by some state, hence is below `nscc`, and all smaller numbers are used
    have : ∃ q, q < f.numStates ∧ c ≤ (scc q).toNat := by
      rcases (hmax ((List.range f.numStates).map fun s => (scc s).toNat) 0).2.2 with h | h
      · exact ⟨i, hil, by omega⟩
      · obtain ⟨q, hq, e⟩ := List.mem_map.1 h
        exact ⟨q, List.mem_range.1 hq, by omega⟩
    obtain ⟨q, hq, hcq⟩ := this
    have h1 := R.range q hq
    rw [← hscc] at h1
    obtain ⟨r, hr, e⟩ := R.surj (c : Int) (by omega) (by omega)
    rw [← hscc] at e
    exact ⟨r, hr, by omega⟩
  obtain ⟨o, ho⟩ : ∃ o, o = (List.range f.numStates).foldl (f.condenseStep scc) (new.addStates N) := ⟨_, rfl⟩
  have hrun : f.condense = .ok (scc, o) := by
    unfold condense
    rw [if_neg (by omega), if_neg (by rw [hi]; simp), if_neg (by rw [targetsOk_of_wf hw]; simp), ho, hN, hscc]
  obtain ⟨h1, h2, h3, h4⟩ := foldl_range_induct (fun n (o : Fst W) =>
      (∀ c, c < N → o.trsOf c = leaving f (fun s => (scc s).toNat) n c ∧
        o.finOf c = sumFin (finalWeights f (fun s => (scc s).toNat) n c)) ∧ o.numStates = N ∧
      o.start = (if i < n then some (scc i).toNat else none) ∧ o.Truthful)
    (f.condenseStep scc) f.numStates (new.addStates N)
    ⟨by intro c _; simp [leaving, finalWeights, sumFin], by simp, by simp, truthful_addStates truthful_new _⟩
    (by
      rintro j o hj ⟨a, b, c, d⟩
      have hcj := hlt j hj
      unfold condenseStep
      -- start state and final weight
      obtain ⟨o1, ho1⟩ : ∃ o1, o1 = (if f.start = some j then o.setStart (scc j).toNat else o) := ⟨_, rfl⟩
      have e1 : (∀ q, o1.trsOf q = o.trsOf q) ∧ (∀ q, o1.finOf q = o.finOf q) ∧ o1.numStates = N ∧ o1.Truthful ∧
          o1.start = (if i < j + 1 then some (scc i).toNat else none) := by
        rw [ho1, hi]
        by_cases hij : i = j
        · subst hij
          rw [if_pos rfl]
          exact ⟨fun _ => rfl, fun _ => rfl, by simpa using b, truthful_setStart d _, by simp⟩
        · rw [if_neg (by simpa using hij)]
          refine ⟨fun _ => rfl, fun _ => rfl, b, d, ?_⟩
          have : i < j + 1 ↔ i < j := by omega
          rw [c]; simp [this]
      obtain ⟨o2, ho2⟩ : ∃ o2, o2 = f.condenseSt scc o j := ⟨_, rfl⟩
      have e2 : (∀ q, o2.trsOf q = o.trsOf q) ∧ (∀ q, q < N → o2.finOf q = sumFin (finalWeights f (fun s => (scc s).toNat) (j + 1) q)) ∧
          o2.numStates = N ∧ o2.Truthful ∧ o2.start = (if i < j + 1 then some (scc i).toNat else none) := by
        rw [ho2]
        unfold condenseSt
        rw [← ho1]
        obtain ⟨x1, x2, x3, x4, x5⟩ := e1
        cases hfin : f.finOf j with
        | none =>
          refine ⟨x1, fun q hq => ?_, x3, x4, x5⟩
          rw [x2, (a q hq).2, finalWeights_succ, hfin]; simp
        | some w =>
          simp only
          refine ⟨fun q => by rw [setFinal_trsOf, x1], fun q hq => ?_, by simpa using x3, truthful_setFinal x4 (by omega) _, by simpa using x5⟩
          rw [setFinal_finOf, x2, (a _ hcj).2, x2]
          by_cases hq' : q = (scc j).toNat
          · subst hq'
            rw [if_pos ⟨rfl, by omega⟩, finalWeights_succ, if_pos rfl, hfin, Option.toList_some, sumFin_append]
          · rw [if_neg (fun h => hq' h.1), finalWeights_succ, if_neg (fun h => hq' h.symm), List.append_nil]
            exact (a q hq).2
      rw [← ho2]
      obtain ⟨y1, y2, y3, y4, y5⟩ := e2
      obtain ⟨z1, z2, z3, z4, z5⟩ := condenseTrs_spec scc (scc j).toNat (f.trsOf j) o2 (by omega)
      refine ⟨fun q hq => ⟨?_, by rw [z2, y2 q hq]⟩, by rw [z3, y3], by rw [z4, y5], z5 y4⟩
      rw [z1, y1, (a q hq).1, leaving_succ]
      by_cases hq' : q = (scc j).toNat
      · subst hq'; simp
      · rw [if_neg hq', if_neg (fun h => hq' h.symm)])
  rw [← ho] at h1 h2 h3 h4
  have hmem : ∀ c t, t ∈ o.trsOf c → c < t.nextstate ∧ t.nextstate < o.numStates := by
    intro c t ht
    have hc : c < N := h2 ▸ lt_of_mem_trsOf ht
    rw [(h1 c hc).1] at ht
    unfold leaving at ht
    obtain ⟨s, hs, ht⟩ := List.mem_flatMap.1 ht
    obtain ⟨t0, ht0, rfl⟩ := List.mem_map.1 ht
    obtain ⟨hs1, hs2⟩ := List.mem_filter.1 hs
    obtain ⟨ht1, ht2⟩ := List.mem_filter.1 ht0
    have hs3 := List.mem_range.1 hs1
    have hnx := hw.next_lt s t0 ht1
    have hord := R.order s t0.nextstate hs3 ⟨t0, ht1, rfl, rfl⟩
    rw [← hscc] at hord
    have p1 := hpos s hs3
    have p2 := hpos _ hnx
    have p3 := hlt _ hnx
    simp only [decide_eq_true_eq, ne_eq, decide_not, Bool.not_eq_true', decide_eq_false_iff_not] at hs2 ht2
    refine ⟨?_, show (scc t0.nextstate).toNat < _ by omega⟩
    show c < (scc t0.nextstate).toNat
    omega
  refine ⟨scc, o, hrun, ?_, ?_, ?_, ?_, ?_, hmem, ?_, h4⟩
  · intro q r hq hr
    have := R.same q r hq hr
    rw [← hscc, Scc.rch_true, Scc.rch_true] at this
    exact this
  · intro q hq
    have := hlt q hq; have := hpos q hq
    omega
  · intro c hc
    obtain ⟨q, hq, e⟩ := hsurj c (by omega)
    have := hpos q hq
    exact ⟨q, hq, by omega⟩
  · rw [h3, if_pos hil]
  · intro c hc; exact h1 c (by omega)
  · rintro ⟨s, hs⟩
    have : ∀ a b, Relation.TransGen o.Edge a b → a < b := by
      intro a b hab
      induction hab with
      | single h => obtain ⟨t, ht, rfl⟩ := h; exact (hmem _ t ht).1
      | tail _ h ih => obtain ⟨t, ht, rfl⟩ := h; exact Nat.lt_trans ih (hmem _ t ht).1
    exact absurd (this s s hs) (Nat.lt_irrefl _)

/-- The empty FST is condensed to the empty FST. -/
theorem C53_empty [Add W] (f : Fst W) (h : f.numStates = 0) : ∃ scc, f.condense = .ok (scc, Fst.new) := by
  unfold condense; rw [if_pos h]; exact ⟨_, rfl⟩

/-- Defect: an FST that has states but no start state makes `condense` panic. -/
theorem C53_no_start_panics [Add W] (f : Fst W) (h : f.numStates ≠ 0) (hs : f.start = none) : f.condense = .error .panic := by
  unfold condense; rw [if_neg h, if_pos hs]

/-- Instance: `{0, 1}` is a component with two final weights, `2` is another, `3` is unreachable. -/
def exCondense : Fst Nat :=
  ((((((((Fst.new.addStates 4).setStart 0).setFinal 0 3).setFinal 1 4).addTr 0 ⟨1, 1, 2, 1⟩).addTr 1 ⟨2, 2, 5, 0⟩).addTr 1 ⟨3, 3, 6, 2⟩).addTr 3 ⟨4, 4, 7, 2⟩)
example : exCondense.WF ∧ exCondense.start = some 0 := ⟨Fst.wf_of_wfB (by decide), rfl⟩
example : (exCondense.condense.toOption.map fun r => (r.2.states.map (·.trs), r.2.states.map (·.fin), r.2.start)) =
    some ([[⟨4, 4, 7, 2⟩], [⟨3, 3, 6, 2⟩], []], [none, some 7, none], some 1) := by decide

end Verif
