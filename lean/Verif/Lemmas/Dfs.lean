import Verif.Model.Dfs
import Verif.Lemmas.Access
import Verif.Lemmas.Shape
import Mathlib.Data.List.Chain
import Mathlib.Tactic.Common

/-!
# Depth-first visits: termination and the colour invariant (any visitor)
-/

namespace Verif
universe u v
variable {W : Type u} {V : Type v}
namespace Dfs

open Fst

/-! ## The number of iterations -/

/-- Work left: white states count all their transitions, stacked states those not passed. -/
def whiteWork (f : Fst W) (c : Nat → Color) (n : Nat) : Nat :=
  ((List.range n).map fun q => if c q = .white then (f.trsOf q).length + 2 else 0).sum

def stackWork (k : List (StateId × List (Tr W))) : Nat := (k.map fun e => e.2.length + 1).sum

def work (f : Fst W) (st : DfsSt W V) : Nat := whiteWork f st.color f.numStates + stackWork st.stack

theorem whiteWork_upd_le (f : Fst W) (c : Nat → Color) (q : Nat) (x : Color) (hx : x ≠ .white) (n : Nat) :
    whiteWork f (upd c q x) n ≤ whiteWork f c n := by
  unfold whiteWork
  induction n with
  | zero => simp
  | succ n ih =>
    simp only [List.range_succ, List.map_append, List.map_cons, List.map_nil, List.sum_append, List.sum_cons, List.sum_nil]
    by_cases h : n = q
    · simp only [upd, h, if_true, hx, if_false] at *; omega
    · have : (if upd c q x n = .white then (f.trsOf n).length + 2 else 0) = (if c n = .white then (f.trsOf n).length + 2 else 0) := by
        simp [upd, h]
      omega

theorem whiteWork_upd (f : Fst W) (c : Nat → Color) (q : Nat) (x : Color) (hx : x ≠ .white) (hq : c q = .white) (n : Nat) (hn : q < n) :
    whiteWork f (upd c q x) n + ((f.trsOf q).length + 2) ≤ whiteWork f c n := by
  induction n with
  | zero => omega
  | succ n ih =>
    unfold whiteWork at *
    simp only [List.range_succ, List.map_append, List.map_cons, List.map_nil, List.sum_append, List.sum_cons, List.sum_nil]
    by_cases h : n = q
    · subst h
      have := whiteWork_upd_le f c n x hx n
      unfold whiteWork at this
      have e1 : (if upd c n x n = .white then (f.trsOf n).length + 2 else 0) = 0 := by simp [upd, hx]
      have e2 : (if c n = .white then (f.trsOf n).length + 2 else 0) = (f.trsOf n).length + 2 := by simp [hq]
      omega
    · have : (if upd c q x n = .white then (f.trsOf n).length + 2 else 0) = (if c n = .white then (f.trsOf n).length + 2 else 0) := by
        simp [upd, h]
      have := ih (by omega)
      omega

theorem stackWork_cons (e : StateId × List (Tr W)) (k) : stackWork (e :: k) = e.2.length + 1 + stackWork k := by
  simp [stackWork]

theorem finishTop_work (f : Fst W) (vt : Visitor W V) (st : DfsSt W V) (s ts k) (hk : st.stack = (s, ts) :: k) :
    work f (finishTop vt st s k) < work f st := by
  unfold work
  rw [hk, stackWork_cons]
  have := whiteWork_upd_le f st.color s .black (by simp) f.numStates
  cases k with
  | nil => simp only [finishTop]; omega
  | cons e k =>
    obtain ⟨p, rest⟩ := e
    simp only [finishTop, stackWork_cons, List.length_tail]
    omega

theorem step_work (f : Fst W) (vt : Visitor W V) (keep : Tr W → Bool) (root : StateId) (st : DfsSt W V)
    (hw : ∀ s, ∀ t ∈ f.trsOf s, t.nextstate < f.numStates) (hs : ∀ e ∈ st.stack, ∀ t ∈ e.2, t ∈ f.trsOf e.1)
    (hk : st.stack ≠ []) : work f (step f vt keep root st) < work f st := by
  unfold step
  cases hst : st.stack with
  | nil => exact absurd hst hk
  | cons e k =>
    obtain ⟨s, ts⟩ := e
    simp only
    by_cases hd : st.dfs = true
    · rw [if_pos hd]
      cases ts with
      | nil => exact finishTop_work f vt st s [] k hst
      | cons t rest =>
        have htl : t.nextstate < f.numStates := hw s t (hs (s, t :: rest) (by rw [hst]; simp) t (by simp))
        simp only [followTr]
        by_cases hkp : keep t = true
        · rw [if_pos hkp]
          cases hc : st.color t.nextstate with
          | white =>
            simp only
            by_cases hd2 : (vt.treeTr st.vis s t).2 = true
            · rw [if_pos hd2]
              have := whiteWork_upd f st.color t.nextstate .grey (by simp) hc f.numStates htl
              simp only [work, hst, stackWork_cons, List.length_cons]
              omega
            · rw [if_neg hd2]
              have e0 : stackWork ([] : List (StateId × List (Tr W))) = 0 := rfl
              simp only [work, hst, stackWork_cons, List.length_cons, e0]
              omega
          | grey => simp only [work, hst, stackWork_cons, List.length_cons]; omega
          | black => simp only [work, hst, stackWork_cons, List.length_cons]; omega
        · rw [if_neg hkp]
          simp only [work, hst, stackWork_cons, List.length_cons]; omega
    · rw [if_neg hd]
      exact finishTop_work f vt st s ts k hst

theorem step_stack_sub (f : Fst W) (vt : Visitor W V) (keep : Tr W → Bool) (root : StateId) (st : DfsSt W V)
    (hs : ∀ e ∈ st.stack, ∀ t ∈ e.2, t ∈ f.trsOf e.1) :
    ∀ e ∈ (step f vt keep root st).stack, ∀ t ∈ e.2, t ∈ f.trsOf e.1 := by
  unfold step
  cases hst : st.stack with
  | nil => simp only; rw [hst]; simp
  | cons e k =>
    obtain ⟨s, ts⟩ := e
    rw [hst] at hs
    have hfin : ∀ e ∈ (finishTop vt st s k).stack, ∀ t ∈ e.2, t ∈ f.trsOf e.1 := by
      intro e he t ht
      cases k with
      | nil => simp [finishTop] at he
      | cons x k =>
        obtain ⟨p, rest⟩ := x
        simp only [finishTop, List.mem_cons] at he
        rcases he with rfl | he
        · exact hs (p, rest) (by simp) t (List.mem_of_mem_tail ht)
        · exact hs e (by simp [he]) t ht
    have hrest : ∀ (t0 : Tr W) rest, ts = t0 :: rest → ∀ e ∈ (s, rest) :: k, ∀ t ∈ e.2, t ∈ f.trsOf e.1 := by
      intro t0 rest e0 e he t ht
      simp only [List.mem_cons] at he
      rcases he with rfl | he
      · exact hs (s, ts) (by simp) t (by rw [e0]; exact List.mem_cons_of_mem _ ht)
      · exact hs e (by simp [he]) t ht
    simp only
    by_cases hd : st.dfs = true
    · rw [if_pos hd]
      cases ts with
      | nil => exact hfin
      | cons t0 rest =>
        simp only [followTr]
        by_cases hkp : keep t0 = true
        · rw [if_pos hkp]
          cases hc : st.color t0.nextstate with
          | white =>
            simp only
            by_cases hd2 : (vt.treeTr st.vis s t0).2 = true
            · rw [if_pos hd2]
              intro e he t ht
              simp only [List.mem_cons] at he
              rcases he with rfl | rfl | he
              · exact ht
              · exact hs (s, t0 :: rest) (by simp) t ht
              · exact hs e (by simp [he]) t ht
            · rw [if_neg hd2]; simp
          | grey => exact hrest t0 rest rfl
          | black => exact hrest t0 rest rfl
        · rw [if_neg hkp]; exact hrest t0 rest rfl
    · rw [if_neg hd]; exact hfin

theorem steps_nil (f : Fst W) (vt : Visitor W V) (keep : Tr W → Bool) (root : StateId) (n : Nat) (st : DfsSt W V)
    (h : st.stack = []) : steps f vt keep root n st = st := by
  induction n generalizing st with
  | zero => rfl
  | succ n ih =>
    have : step f vt keep root st = st := by unfold step; rw [h]
    rw [steps, this, ih st h]

/-- With at least `work` iterations the stack is empty at the end. -/
theorem steps_empty (f : Fst W) (vt : Visitor W V) (keep : Tr W → Bool) (root : StateId)
    (hw : ∀ s, ∀ t ∈ f.trsOf s, t.nextstate < f.numStates) (n : Nat) (st : DfsSt W V)
    (hs : ∀ e ∈ st.stack, ∀ t ∈ e.2, t ∈ f.trsOf e.1) (hn : work f st ≤ n) : (steps f vt keep root n st).stack = [] := by
  induction n generalizing st with
  | zero =>
    rw [steps]
    cases hst : st.stack with
    | nil => rfl
    | cons e k => unfold work at hn; rw [hst, stackWork_cons] at hn; omega
  | succ n ih =>
    by_cases h : st.stack = []
    · rw [steps_nil _ _ _ _ _ _ h]; exact h
    · rw [steps]
      refine ih _ (step_stack_sub f vt keep root st hs) ?_
      have := step_work f vt keep root st hw hs h
      omega

theorem steps_induct {P : DfsSt W V → Prop} {f : Fst W} {vt : Visitor W V} {keep : Tr W → Bool} {root : StateId}
    (hstep : ∀ st, P st → st.stack ≠ [] → P (step f vt keep root st)) (n : Nat) (st : DfsSt W V) (h : P st) :
    P (steps f vt keep root n st) := by
  induction n generalizing st with
  | zero => exact h
  | succ n ih =>
    by_cases hst : st.stack = []
    · rw [steps_nil _ _ _ _ _ _ hst]; exact h
    · exact ih _ (hstep st h hst)

theorem whiteWork_le (f : Fst W) (c : Nat → Color) (n : Nat) :
    whiteWork f c n ≤ ((List.range n).map fun q => (f.trsOf q).length + 2).sum := by
  induction n with
  | zero => simp [whiteWork]
  | succ n ih =>
    unfold whiteWork at *
    simp only [List.range_succ, List.map_append, List.map_cons, List.map_nil, List.sum_append, List.sum_cons, List.sum_nil]
    split <;> omega

theorem fuel_eq (f : Fst W) : fuel f = ((List.range f.numStates).map fun q => (f.trsOf q).length + 2).sum + 1 := by
  unfold fuel
  congr 2
  apply List.ext_getElem
  · simp [numStates]
  · intro i h1 h2
    simp only [List.getElem_map, List.getElem_range]
    have : i < f.states.length := by simpa using h1
    simp [trsOf, List.getElem?_eq_getElem this]

/-- A whole tree: the invariant holds afterwards and the stack is empty. -/
theorem visitRoot_induct {P : DfsSt W V → Prop} {f : Fst W} {vt : Visitor W V} {keep : Tr W → Bool} {root : StateId}
    (hw : ∀ s, ∀ t ∈ f.trsOf s, t.nextstate < f.numStates) (hr : root < f.numStates) (st : DfsSt W V)
    (hc : st.color root = .white)
    (h0 : P ⟨upd st.color root .grey, [(root, f.trsOf root)], (vt.initState st.vis root root).1,
      (vt.initState st.vis root root).2⟩)
    (hstep : ∀ st, P st → st.stack ≠ [] → P (step f vt keep root st)) :
    P (visitRoot f vt keep root st) ∧ (visitRoot f vt keep root st).stack = [] := by
  unfold visitRoot
  refine ⟨steps_induct hstep _ _ h0, steps_empty f vt keep root hw _ _ (by simp) ?_⟩
  have h1 := whiteWork_upd f st.color root .grey (by simp) hc f.numStates hr
  have h2 := whiteWork_le f st.color f.numStates
  rw [fuel_eq]
  simp only [work, stackWork, List.map_cons, List.map_nil, List.sum_cons, List.sum_nil]
  omega

/-! ## Colours and stack -/

/-- Invariant of colours and stack while the visit goes on. -/
structure CInv (f : Fst W) (keep : Tr W → Bool) (c : Nat → Color) (k : List (StateId × List (Tr W))) : Prop where
  grey : ∀ q, c q = .grey ↔ q ∈ k.map Prod.fst
  nodup : (k.map Prod.fst).Nodup
  lt : ∀ q, c q ≠ .white → q < f.numStates
  pre : ∀ e ∈ k, ∃ pre, f.trsOf e.1 = pre ++ e.2 ∧ ∀ t ∈ pre, keep t = true → c t.nextstate ≠ .white
  black : ∀ q, c q = .black → ∀ t ∈ f.trsOf q, keep t = true → c t.nextstate ≠ .white
  chain : k.IsChain fun a b => ∃ t rest, b.2 = t :: rest ∧ keep t = true ∧ t.nextstate = a.1

/-- The transition `t` of `q` has been passed. -/
def Passed (f : Fst W) (c : Nat → Color) (k : List (StateId × List (Tr W))) (q : StateId) (t : Tr W) : Prop :=
  t ∈ f.trsOf q ∧ (c q = .black ∨ ∃ pre rest, (q, rest) ∈ k ∧ f.trsOf q = pre ++ rest ∧ t ∈ pre)

/-- A kept edge from `q` to `w` has been passed. -/
def Ex (f : Fst W) (keep : Tr W → Bool) (c : Nat → Color) (k : List (StateId × List (Tr W))) (q w : StateId) : Prop :=
  ∃ t, Passed f c k q t ∧ keep t = true ∧ t.nextstate = w

/-- Edges kept by the filter. -/
def KEdge (f : Fst W) (keep : Tr W → Bool) (a b : StateId) : Prop := ∃ t ∈ f.trsOf a, keep t = true ∧ t.nextstate = b

variable {f : Fst W} {keep : Tr W → Bool} {c : Nat → Color} {k : List (StateId × List (Tr W))}

theorem CInv.start : CInv f keep (fun _ => .white) [] where
  grey := by simp
  nodup := by simp
  lt := by simp
  pre := by simp
  black := by simp
  chain := by simp

theorem Ex.start (a b) : ¬ Ex f keep (fun _ => .white) [] a b := by
  rintro ⟨t, ⟨_, h | ⟨_, _, h, _⟩⟩, _⟩
  · cases h
  · simp at h

/-- Discovery of `s`: from the root loop (`k = []`) or along the current transition of the top state. -/
theorem CInv.push (h : CInv f keep c k) {s : StateId} (hs : c s = .white) (hn : s < f.numStates)
    (hc : ∀ e ∈ k.head?, ∃ t rest, e.2 = t :: rest ∧ keep t = true ∧ t.nextstate = s) :
    CInv f keep (upd c s .grey) ((s, f.trsOf s) :: k) where
  grey := by
    intro q
    simp only [upd, List.map_cons, List.mem_cons]
    by_cases hq : q = s
    · simp [hq]
    · simp only [hq, if_false, false_or]; exact h.grey q
  nodup := by
    simp only [List.map_cons, List.nodup_cons]
    refine ⟨fun h' => ?_, h.nodup⟩
    rw [← h.grey, hs] at h'; cases h'
  lt := by
    intro q hq
    by_cases hqs : q = s
    · rw [hqs]; exact hn
    · exact h.lt q (by simpa [upd, hqs] using hq)
  pre := by
    intro e he
    simp only [List.mem_cons] at he
    rcases he with rfl | he
    · exact ⟨[], by simp⟩
    · obtain ⟨pre, h1, h2⟩ := h.pre e he
      refine ⟨pre, h1, fun t ht hk => ?_⟩
      simp only [upd]; split
      · simp
      · exact h2 t ht hk
  black := by
    intro q hq t ht hk
    have hqs : q ≠ s := by rintro rfl; simp [upd] at hq
    simp only [upd, hqs, if_false] at hq
    simp only [upd]; split
    · simp
    · exact h.black q hq t ht hk
  chain := by
    rw [List.isChain_cons]
    exact ⟨hc, h.chain⟩

theorem Ex.push (h : CInv f keep c k) {s : StateId} (hs : c s = .white) (a b) :
    Ex f keep (upd c s .grey) ((s, f.trsOf s) :: k) a b ↔ Ex f keep c k a b := by
  unfold Ex Passed
  refine exists_congr fun t => and_congr_left fun _ => and_congr_right fun ht => ?_
  constructor
  · rintro (h' | ⟨pre, rest, hm, e, hp⟩)
    · by_cases ha : a = s
      · simp [upd, ha] at h'
      · simp only [upd, ha, if_false] at h'; exact .inl h'
    · simp only [List.mem_cons, Prod.mk.injEq] at hm
      rcases hm with ⟨rfl, rfl⟩ | hm
      · have : pre = [] := by
          have := congrArg List.length e; simp at this; exact List.eq_nil_of_length_eq_zero (by simpa using this)
        rw [this] at hp; simp at hp
      · exact .inr ⟨pre, rest, hm, e, hp⟩
  · rintro (h' | ⟨pre, rest, hm, e, hp⟩)
    · left
      have ha : a ≠ s := by rintro rfl; rw [hs] at h'; cases h'
      simp only [upd, ha, if_false]; exact h'
    · exact .inr ⟨pre, rest, List.mem_cons_of_mem _ hm, e, hp⟩

theorem CInv.advance {s : StateId} {t : Tr W} {rest : List (Tr W)} (h : CInv f keep c ((s, t :: rest) :: k))
    (hc : keep t = true → c t.nextstate ≠ .white) : CInv f keep c ((s, rest) :: k) where
  grey := by simpa using h.grey
  nodup := by simpa using h.nodup
  lt := h.lt
  pre := by
    intro e he
    simp only [List.mem_cons] at he
    rcases he with rfl | he
    · obtain ⟨pre, h1, h2⟩ := h.pre (s, t :: rest) (by simp)
      refine ⟨pre ++ [t], by simpa using h1, fun t' ht' hk => ?_⟩
      simp only [List.mem_append, List.mem_singleton] at ht'
      rcases ht' with h' | rfl
      · exact h2 t' h' hk
      · exact hc hk
    · exact h.pre e (List.mem_cons_of_mem _ he)
  black := h.black
  chain := by
    have := h.chain
    rw [List.isChain_cons] at this ⊢
    exact ⟨fun e he => this.1 e he, this.2⟩

theorem Ex.advance {s : StateId} {t : Tr W} {rest : List (Tr W)} (h : CInv f keep c ((s, t :: rest) :: k)) (a b) :
    Ex f keep c ((s, rest) :: k) a b ↔ Ex f keep c ((s, t :: rest) :: k) a b ∨ (a = s ∧ keep t = true ∧ b = t.nextstate) := by
  obtain ⟨pre0, e0, -⟩ := h.pre (s, t :: rest) (by simp)
  simp only at e0
  have hns : ∀ r, (s, r) ∉ k := by
    intro r hr
    have := h.nodup
    simp only [List.map_cons, List.nodup_cons] at this
    exact this.1 (List.mem_map.2 ⟨_, hr, rfl⟩)
  constructor
  · rintro ⟨t', ⟨ht', h'⟩, hk, rfl⟩
    rcases h' with h' | ⟨pre, r, hm, e, hp⟩
    · exact .inl ⟨t', ⟨ht', .inl h'⟩, hk, rfl⟩
    · simp only [List.mem_cons, Prod.mk.injEq] at hm
      rcases hm with ⟨rfl, rfl⟩ | hm
      · have hpe : pre = pre0 ++ [t] := by
          have : pre ++ r = (pre0 ++ [t]) ++ r := by rw [← e, e0]; simp
          exact List.append_cancel_right this
        rw [hpe, List.mem_append, List.mem_singleton] at hp
        rcases hp with hp | rfl
        · exact .inl ⟨t', ⟨ht', .inr ⟨pre0, t :: r, by simp, e0, hp⟩⟩, hk, rfl⟩
        · exact .inr ⟨rfl, hk, rfl⟩
      · exact .inl ⟨t', ⟨ht', .inr ⟨pre, r, List.mem_cons_of_mem _ hm, e, hp⟩⟩, hk, rfl⟩
  · rintro (⟨t', ⟨ht', h'⟩, hk, rfl⟩ | ⟨rfl, hk, rfl⟩)
    · refine ⟨t', ⟨ht', ?_⟩, hk, rfl⟩
      rcases h' with h' | ⟨pre, r, hm, e, hp⟩
      · exact .inl h'
      · simp only [List.mem_cons, Prod.mk.injEq] at hm
        rcases hm with ⟨rfl, rfl⟩ | hm
        · refine .inr ⟨pre ++ [t], rest, by simp, by simpa using e, by simp [hp]⟩
        · exact .inr ⟨pre, r, List.mem_cons_of_mem _ hm, e, hp⟩
    · refine ⟨t, ⟨by rw [e0]; simp, .inr ⟨pre0 ++ [t], rest, by simp, by simpa using e0, by simp⟩⟩, hk, rfl⟩

/-- The stack after the top state is finished. -/
def popStack (k : List (StateId × List (Tr W))) : List (StateId × List (Tr W)) :=
  match k with
  | [] => []
  | (p, rest) :: k => (p, rest.tail) :: k

@[simp] theorem popStack_fst (k : List (StateId × List (Tr W))) : (popStack k).map Prod.fst = k.map Prod.fst := by
  cases k <;> simp [popStack]

/-- All kept transitions of the finished state lead to visited states. -/
theorem CInv.top_done {s : StateId} (h : CInv f keep c ((s, []) :: k)) : ∀ t ∈ f.trsOf s, keep t = true → c t.nextstate ≠ .white := by
  obtain ⟨pre, e, hp⟩ := h.pre (s, []) (by simp)
  simp only [List.append_nil] at e
  rw [e]; exact hp

theorem CInv.finish {s : StateId} (h : CInv f keep c ((s, []) :: k)) : CInv f keep (upd c s .black) (popStack k) := by
  have hsn : s ∉ k.map Prod.fst := by
    have := h.nodup
    simp only [List.map_cons, List.nodup_cons] at this; exact this.1
  have hsg : c s = .grey := by rw [h.grey]; simp
  have nw : ∀ q, c q ≠ .white → upd c s .black q ≠ .white := by
    intro q hq; simp only [upd]; split
    · simp
    · exact hq
  constructor
  · intro q
    rw [popStack_fst]
    by_cases hq : q = s
    · subst hq; simp only [upd, if_true]
      constructor
      · intro h'; cases h'
      · intro h'; exact absurd h' hsn
    · simp only [upd, hq, if_false]; rw [h.grey]; simp [hq]
  · rw [popStack_fst]
    have := h.nodup
    simp only [List.map_cons, List.nodup_cons] at this; exact this.2
  · intro q hq
    by_cases hqs : q = s
    · subst hqs; exact h.lt q (by rw [hsg]; simp)
    · exact h.lt q (by simpa [upd, hqs] using hq)
  · intro e he
    cases k with
    | nil => simp [popStack] at he
    | cons x k =>
      obtain ⟨p, prest⟩ := x
      simp only [popStack, List.mem_cons] at he
      rcases he with rfl | he
      · have hch := h.chain
        rw [List.isChain_cons] at hch
        obtain ⟨t, rest, e1, e2, e3⟩ := hch.1 (p, prest) (by simp)
        simp only at e1 e3
        obtain ⟨pre, h1, h2⟩ := h.pre (p, prest) (by simp)
        simp only at h1
        refine ⟨pre ++ [t], by simp [h1, e1], fun t' ht' hk => ?_⟩
        simp only [List.mem_append, List.mem_singleton] at ht'
        rcases ht' with h' | rfl
        · exact nw _ (h2 t' h' hk)
        · rw [e3]; simp [upd]
      · obtain ⟨pre, h1, h2⟩ := h.pre e (by simp [he])
        exact ⟨pre, h1, fun t ht hk => nw _ (h2 t ht hk)⟩
  · intro q hq t ht hk
    by_cases hqs : q = s
    · subst hqs; exact nw _ (h.top_done t ht hk)
    · exact nw _ (h.black q (by simpa [upd, hqs] using hq) t ht hk)
  · have hch := h.chain
    cases k with
    | nil => simp [popStack]
    | cons x k =>
      obtain ⟨p, prest⟩ := x
      simp only [popStack]
      rw [List.isChain_cons] at hch
      have := hch.2
      rw [List.isChain_cons] at this ⊢
      exact ⟨fun e he => this.1 e he, this.2⟩

theorem Ex.finish {s : StateId} (h : CInv f keep c ((s, []) :: k)) (a b) :
    Ex f keep (upd c s .black) (popStack k) a b ↔
      Ex f keep c ((s, []) :: k) a b ∨ (k.head?.map Prod.fst = some a ∧ b = s) := by
  have hsn : ∀ r, (s, r) ∉ k := by
    intro r hr
    have := h.nodup
    simp only [List.map_cons, List.nodup_cons] at this
    exact this.1 (List.mem_map.2 ⟨_, hr, rfl⟩)
  obtain ⟨pre0, e0, -⟩ := h.pre (s, []) (by simp)
  simp only [List.append_nil] at e0
  have hsg : c s = .grey := by rw [h.grey]; simp
  have key : ∀ t, (Passed f (upd c s .black) (popStack k) a t ∧ keep t = true ∧ t.nextstate = b) →
      Ex f keep c ((s, []) :: k) a b ∨ (k.head?.map Prod.fst = some a ∧ b = s) := by
    rintro t ⟨⟨ht, h'⟩, hk, rfl⟩
    rcases h' with h' | ⟨pre, r, hm, e, hp⟩
    · left
      refine ⟨t, ⟨ht, ?_⟩, hk, rfl⟩
      by_cases ha : a = s
      · subst ha; exact .inr ⟨pre0, [], by simp, by simpa using e0, by rw [← e0]; exact ht⟩
      · simp only [upd, ha, if_false] at h'; exact .inl h'
    · cases k with
      | nil => simp [popStack] at hm
      | cons x k =>
        obtain ⟨p, prest⟩ := x
        simp only [popStack, List.mem_cons, Prod.mk.injEq] at hm
        rcases hm with ⟨rfl, rfl⟩ | hm
        · have hch := h.chain
          rw [List.isChain_cons] at hch
          obtain ⟨t1, rest, e1, e2, e3⟩ := hch.1 (a, prest) (by simp)
          simp only at e1 e3
          subst e1
          obtain ⟨pre1, h1, -⟩ := h.pre (a, t1 :: rest) (by simp)
          simp only at h1
          have hpe : pre = pre1 ++ [t1] := by
            have : pre ++ rest = (pre1 ++ [t1]) ++ rest := by
              have := e.symm.trans h1
              simpa using this
            exact List.append_cancel_right this
          rw [hpe, List.mem_append, List.mem_singleton] at hp
          rcases hp with hp | rfl
          · exact .inl ⟨t, ⟨ht, .inr ⟨pre1, t1 :: rest, by simp, h1, hp⟩⟩, hk, rfl⟩
          · exact .inr ⟨by simp, e3⟩
        · exact .inl ⟨t, ⟨ht, .inr ⟨pre, r, by simp [hm], e, hp⟩⟩, hk, rfl⟩
  constructor
  · rintro ⟨t, h'⟩; exact key t h'
  · rintro (⟨t, ⟨ht, h'⟩, hk, rfl⟩ | ⟨ha, rfl⟩)
    · refine ⟨t, ⟨ht, ?_⟩, hk, rfl⟩
      rcases h' with h' | ⟨pre, r, hm, e, hp⟩
      · left
        have : a ≠ s := by rintro rfl; rw [hsg] at h'; cases h'
        simp only [upd, this, if_false]; exact h'
      · simp only [List.mem_cons, Prod.mk.injEq] at hm
        rcases hm with ⟨rfl, rfl⟩ | hm
        · exact .inl (by simp [upd])
        · right
          cases k with
          | nil => simp at hm
          | cons x k =>
            obtain ⟨p, prest⟩ := x
            simp only [List.mem_cons, Prod.mk.injEq] at hm
            rcases hm with ⟨rfl, rfl⟩ | hm
            · have hch := h.chain
              rw [List.isChain_cons] at hch
              obtain ⟨t1, rest, e1, e2, e3⟩ := hch.1 (a, r) (by simp)
              simp only at e1 e3
              subst e1
              exact ⟨pre ++ [t1], rest, by simp [popStack], by simpa using e, by simp [hp]⟩
            · exact ⟨pre, r, by simp [popStack, hm], e, hp⟩
    · cases k with
      | nil => simp at ha
      | cons x k =>
        obtain ⟨p, prest⟩ := x
        simp only [List.head?_cons, Option.map_some, Option.some.injEq] at ha
        subst ha
        have hch := h.chain
        rw [List.isChain_cons] at hch
        obtain ⟨t1, rest, e1, e2, e3⟩ := hch.1 (p, prest) (by simp)
        simp only at e1 e3
        subst e1
        obtain ⟨pre1, h1, -⟩ := h.pre (p, t1 :: rest) (by simp)
        simp only at h1
        exact ⟨t1, ⟨by rw [h1]; simp, .inr ⟨pre1 ++ [t1], rest, by simp [popStack], by simpa using h1, by simp⟩⟩, e2, e3⟩

end Dfs
end Verif
