import Verif.Model.LazyRational
import Verif.Spec.Replace
import Verif.Lemmas.Continue
import Verif.Lemmas.Mid
import Verif.Lemmas.Access
import Verif.Lemmas.DecHist
import Verif.Lemmas.ReplaceNew

/-! # The networks of the delayed rational operations -/

namespace Verif
set_option linter.unusedSectionVars false
universe u
variable {W : Type u} [MonoidWithZero W] [DecidableEq W]

/-- The empty path only. -/
def unitPaths (n : Nat) : Multiset (PathT W) := if n = 0 then {([], [], 1)} else 0

theorem seqPaths_unit (A : Nat → Multiset (PathT W)) (n : Nat) : seqPaths A unitPaths n = delay 1 A n := by
  unfold seqPaths delay unitPaths
  cases n with
  | zero => simp
  | succ n =>
    rw [Finset.sum_range_succ, Finset.sum_eq_zero]
    · rw [if_neg (show ¬ n + 1 < 1 by omega), if_pos (show n + 1 - 1 - n = 0 by omega), Fst.catAll_one_right, zero_add]
      rfl
    · intro k hk
      rw [Finset.mem_range] at hk
      rw [if_neg (by omega), catAll_zero_right]

theorem seqPaths_delay_right (A B : Nat → Multiset (PathT W)) (d n : Nat) : seqPaths A (delay d B) n = delay d (seqPaths A B) n := by
  unfold seqPaths delay
  by_cases h : n < d
  · rw [if_pos h]
    refine Finset.sum_eq_zero fun k hk => ?_
    rw [Finset.mem_range] at hk
    rw [if_pos (by omega), catAll_zero_right]
  · rw [if_neg h]
    obtain ⟨m, rfl⟩ : ∃ m, n = m + d := ⟨n - d, by omega⟩
    rw [Nat.add_sub_cancel, Finset.sum_range_add, Finset.sum_eq_zero (s := Finset.range d), add_zero]
    · refine Finset.sum_congr rfl fun k hk => ?_
      rw [Finset.mem_range] at hk
      rw [if_neg (by omega)]
      congr 2
      omega
    · intro k hk
      rw [Finset.mem_range] at hk
      rw [if_pos (by omega), catAll_zero_right]

theorem seqPaths_delay_left (A B : Nat → Multiset (PathT W)) (d n : Nat) : seqPaths (delay d A) B n = delay d (seqPaths A B) n := by
  unfold seqPaths delay
  by_cases h : n < d
  · rw [if_pos h]
    refine Finset.sum_eq_zero fun k hk => ?_
    rw [Finset.mem_range] at hk
    rw [if_pos (by omega), catAll_zero_left]
  · rw [if_neg h]
    obtain ⟨m, rfl⟩ : ∃ m, n = d + m := ⟨n - d, by omega⟩
    rw [Nat.add_sub_cancel_left, Finset.sum_range_add, Finset.sum_eq_zero (s := Finset.range d), zero_add]
    · refine Finset.sum_congr rfl fun k hk => ?_
      rw [Finset.mem_range] at hk
      rw [if_neg (by omega)]
      congr 2 <;> omega
    · intro k hk
      rw [Finset.mem_range] at hk
      rw [if_pos hk, catAll_zero_left]

theorem seqPaths_add_right (A B C : Nat → Multiset (PathT W)) (n : Nat) :
    seqPaths A (fun m => B m + C m) n = seqPaths A B n + seqPaths A C n := by
  unfold seqPaths
  rw [← Finset.sum_add_distrib]
  exact Finset.sum_congr rfl fun k _ => catAll_add_right _ _ _

namespace Rtn
variable (N : Rtn W)

/-- An FST without calls. -/
theorem expand_leaf {i : Nat} (hc : ∀ s, ∀ t ∈ (N.fst i).trsOf s, N.callee t = none) (n : Nat) (s : StateId) :
    N.expand n i s = (N.fst i).pathsFrom n s := by
  induction n generalizing s with
  | zero => rw [Rtn.expand]; rfl
  | succ n ih =>
    rw [Rtn.expand]
    show _ = ((N.fst i).trsOf s : Multiset (Tr W)).bind _
    refine Multiset.bind_congr fun t ht => ?_
    rw [hc s t (by simpa using ht)]
    simp only [catAll_singleton, ih]

theorem paths_leaf {i : Nat} (hc : ∀ s, ∀ t ∈ (N.fst i).trsOf s, N.callee t = none) (n : Nat) :
    N.paths i n = (N.fst i).accPaths n := by
  unfold Rtn.paths Fst.accPaths
  cases (N.fst i).start with
  | none => rfl
  | some s => exact N.expand_leaf hc n s

/-- What one transition of `i` adds, when calls and returns read nothing and cost nothing. -/
def via (i : Nat) (tr : Tr W) (n : Nat) : Multiset (PathT W) :=
  match N.callee tr with
  | none => catAll {tr.asPath} (N.expand n i tr.nextstate)
  | some j => seqPaths (N.paths j) (fun m => N.expand m i tr.nextstate) n

theorem expand_via {i : Nat} {s : StateId} (hc : ∀ t ∈ (N.fst i).trsOf s, N.callee t ≠ none → N.call t = ([], [], 1)) (hr : N.ret = ([], [], 1)) (n : Nat) :
    N.expand (n + 1) i s = ((N.fst i).trsOf s : Multiset (Tr W)).bind fun tr => N.via i tr n := by
  rw [Rtn.expand]
  refine Multiset.bind_congr fun t ht => ?_
  unfold via
  cases h : N.callee t with
  | none => rfl
  | some j =>
    simp only
    rw [hc t (by simpa using ht) (by rw [h]; simp), hr]
    cases hs : (N.fst j).start with
    | none =>
      simp only
      unfold seqPaths Rtn.paths
      rw [hs]
      simp
    | some q =>
      simp only [Fst.catAll_one_left]
      unfold seqPaths Rtn.paths
      rw [hs, Finset.sum_range]

end Rtn

/-- The label is not one of the names that the delayed operations use. -/
def Fst.NoNames (f : Fst W) (names : List Label) : Prop := ∀ s, ∀ t ∈ f.trsOf s, t.olabel ∉ names

theorem named_three (r f g : Fst W) (l : Label) : namedBy [(0, r), (NO_LABEL, f), (NO_LABEL - 1, g)] l =
    if NO_LABEL - 1 = l then some 2 else if NO_LABEL = l then some 1 else if 0 = l then some 0 else none := by
  rw [show [((0 : Label), r), (NO_LABEL, f), (NO_LABEL - 1, g)] = (([] ++ [(0, r)]) ++ [(NO_LABEL, f)]) ++ [(NO_LABEL - 1, g)] from rfl,
    namedBy_snoc, namedBy_snoc, namedBy_snoc]
  rfl

theorem named_two (r f : Fst W) (l : Label) : namedBy [(0, r), (NO_LABEL, f)] l =
    if NO_LABEL = l then some 1 else if 0 = l then some 0 else none := by
  rw [show [((0 : Label), r), (NO_LABEL, f)] = ([] ++ [(0, r)]) ++ [(NO_LABEL, f)] from rfl, namedBy_snoc, namedBy_snoc]
  rfl

section three
variable {r f g : Fst W}

theorem three_wf (hr : r.WF) (hf : f.WF) (hg : g.WF) : ∀ p ∈ [((0 : Label), r), (NO_LABEL, f), (NO_LABEL - 1, g)], p.2.WF := by
  intro p hp
  simp only [List.mem_cons, List.not_mem_nil, or_false] at hp
  rcases hp with rfl | rfl | rfl <;> assumption

theorem two_wf (hr : r.WF) (hf : f.WF) : ∀ p ∈ [((0 : Label), r), (NO_LABEL, f)], p.2.WF := by
  intro p hp
  simp only [List.mem_cons, List.not_mem_nil, or_false] at hp
  rcases hp with rfl | rfl <;> assumption

/-- The networks with operands `f` and `g`. -/
abbrev net3 (r f g : Fst W) : Rtn W := rtnOf [(0, r), (NO_LABEL, f), (NO_LABEL - 1, g)] false

/-- The network with operand `f`. -/
abbrev net2 (r f : Fst W) : Rtn W := rtnOf [(0, r), (NO_LABEL, f)] false

theorem callee3 (t : Tr W) : (net3 r f g).callee t =
    if t.olabel = EPS then none else if NO_LABEL - 1 = t.olabel then some 2 else if NO_LABEL = t.olabel then some 1 else none := by
  show (if t.olabel = EPS then none else namedBy _ t.olabel) = _
  rw [named_three]
  by_cases h : t.olabel = EPS
  · rw [if_pos h, if_pos h]
  · rw [if_neg h, if_neg h, if_neg (c := 0 = t.olabel) (fun e => h e.symm)]

theorem callee2 (t : Tr W) : (net2 r f).callee t = if t.olabel = EPS then none else if NO_LABEL = t.olabel then some 1 else none := by
  show (if t.olabel = EPS then none else namedBy _ t.olabel) = _
  rw [named_two]
  by_cases h : t.olabel = EPS
  · rw [if_pos h, if_pos h]
  · rw [if_neg h, if_neg h, if_neg (c := 0 = t.olabel) (fun e => h e.symm)]

theorem leaf3 {h : Fst W} (hn : h.NoNames [NO_LABEL, NO_LABEL - 1]) : ∀ s, ∀ t ∈ h.trsOf s, (net3 r f g).callee t = none := by
  intro s t ht
  have := hn s t ht
  simp only [List.mem_cons, List.not_mem_nil, or_false, not_or] at this
  rw [callee3, if_neg (c := NO_LABEL = t.olabel) (fun e => this.1 e.symm), if_neg (c := NO_LABEL - 1 = t.olabel) (fun e => this.2 e.symm)]
  split <;> rfl

theorem leaf2 {h : Fst W} (hn : h.NoNames [NO_LABEL]) : ∀ s, ∀ t ∈ h.trsOf s, (net2 r f).callee t = none := by
  intro s t ht
  have := hn s t ht
  simp only [List.mem_cons, List.not_mem_nil, or_false] at this
  rw [callee2, if_neg (c := NO_LABEL = t.olabel) (fun e => this e.symm)]
  split <;> rfl

theorem paths3 (hf : f.NoNames [NO_LABEL, NO_LABEL - 1]) (hg : g.NoNames [NO_LABEL, NO_LABEL - 1]) :
    (net3 r f g).paths 1 = f.accPaths ∧ (net3 r f g).paths 2 = g.accPaths :=
  ⟨funext fun n => (net3 r f g).paths_leaf (i := 1) (leaf3 (h := f) hf) n, funext fun n => (net3 r f g).paths_leaf (i := 2) (leaf3 (h := g) hg) n⟩

theorem paths2 (hf : f.NoNames [NO_LABEL]) : (net2 r f).paths 1 = f.accPaths :=
  funext fun n => (net2 r f).paths_leaf (i := 1) (leaf2 (h := f) hf) n

end three

/-- The rank of the root is 1, that of the operands 0. -/
theorem not_recursive3 {r f g : Fst W} (hf : f.NoNames [NO_LABEL, NO_LABEL - 1]) (hg : g.NoNames [NO_LABEL, NO_LABEL - 1]) :
    ∀ i s, ∀ tr ∈ ((net3 r f g).fst i).trsOf s, ∀ j, (net3 r f g).callee tr = some j → (if j = 0 then 1 else 0) < (if i = 0 then 1 else 0) := by
  intro i s tr htr j hj
  match i, htr with
  | 0, _ =>
    rw [callee3] at hj
    split at hj
    · cases hj
    · split at hj
      · cases hj; simp
      · split at hj
        · cases hj; simp
        · cases hj
  | 1, h => rw [leaf3 hf s tr h] at hj; cases hj
  | 2, h => rw [leaf3 hg s tr h] at hj; cases hj
  | n + 3, h => simp [rtnOf, Fst.trsOf] at h

theorem not_recursive2 {r f : Fst W} (hf : f.NoNames [NO_LABEL]) :
    ∀ i s, ∀ tr ∈ ((net2 r f).fst i).trsOf s, ∀ j, (net2 r f).callee tr = some j → (if j = 0 then 1 else 0) < (if i = 0 then 1 else 0) := by
  intro i s tr htr j hj
  match i, htr with
  | 0, _ =>
    rw [callee2] at hj
    split at hj
    · cases hj
    · split at hj
      · cases hj; simp
      · cases hj
  | 1, h => rw [leaf2 hf s tr h] at hj; cases hj
  | n + 2, h => simp [rtnOf, Fst.trsOf] at h

theorem via_call1 {r f g : Fst W} (q : StateId) (n : Nat) : (net3 r f g).via 0 ⟨EPS, NO_LABEL, 1, q⟩ n =
    seqPaths ((net3 r f g).paths 1) (fun m => (net3 r f g).expand m 0 q) n := by
  unfold Rtn.via
  rw [callee3, if_neg (show ¬ NO_LABEL = 0 by decide), if_neg (show ¬ NO_LABEL - 1 = NO_LABEL by decide), if_pos rfl]

theorem via_call2 {r f g : Fst W} (q : StateId) (n : Nat) : (net3 r f g).via 0 ⟨EPS, NO_LABEL - 1, 1, q⟩ n =
    seqPaths ((net3 r f g).paths 2) (fun m => (net3 r f g).expand m 0 q) n := by
  unfold Rtn.via
  rw [callee3, if_neg (show ¬ NO_LABEL - 1 = 0 by decide), if_pos rfl]

theorem via_call {r f : Fst W} (q : StateId) (n : Nat) : (net2 r f).via 0 ⟨EPS, NO_LABEL, 1, q⟩ n =
    seqPaths ((net2 r f).paths 1) (fun m => (net2 r f).expand m 0 q) n := by
  unfold Rtn.via
  rw [callee2, if_neg (show ¬ NO_LABEL = 0 by decide), if_pos rfl]

theorem via_eps {r f : Fst W} (q : StateId) (n : Nat) : (net2 r f).via 0 ⟨EPS, EPS, 1, q⟩ n = (net2 r f).expand n 0 q := by
  unfold Rtn.via
  rw [callee2, if_pos rfl]
  exact Fst.catAll_one_left _

/-- The last state of a root. -/
theorem expand_end {N : Rtn W} {q : StateId} (h1 : (N.fst 0).finOf q = some 1) (h2 : (N.fst 0).trsOf q = []) (n : Nat) :
    N.expand n 0 q = unitPaths n := by
  cases n with
  | zero => rw [Rtn.expand, h1]; rfl
  | succ n => rw [Rtn.expand, h2]; rfl

theorem unionRoot_wf : (unionRoot : Fst W).WF := by
  refine ⟨fun i hi => ?_, fun s t ht => ?_⟩
  · cases hi; exact Nat.zero_lt_succ 1
  · match s, ht with
    | 0, h =>
      have : t ∈ ([⟨EPS, NO_LABEL, 1, 1⟩, ⟨EPS, NO_LABEL - 1, 1, 1⟩] : List (Tr W)) := h
      simp only [List.mem_cons, List.not_mem_nil, or_false] at this
      rcases this with rfl | rfl <;> exact Nat.lt_succ_self 1
    | 1, h => exact absurd (show t ∈ ([] : List (Tr W)) from h) List.not_mem_nil
    | n + 2, h => exact absurd (show t ∈ ([] : List (Tr W)) from h) List.not_mem_nil

theorem concatRoot_wf : (concatRoot : Fst W).WF := by
  refine ⟨fun i hi => ?_, fun s t ht => ?_⟩
  · cases hi; exact Nat.zero_lt_succ 2
  · match s, ht with
    | 0, h => obtain rfl := List.mem_singleton.1 (show t ∈ ([⟨EPS, NO_LABEL, 1, 1⟩] : List (Tr W)) from h); exact Nat.lt_of_sub_eq_succ (show 3 - 1 = 2 from rfl)
    | 1, h => obtain rfl := List.mem_singleton.1 (show t ∈ ([⟨EPS, NO_LABEL - 1, 1, 2⟩] : List (Tr W)) from h); exact Nat.lt_succ_self 2
    | 2, h => exact absurd (show t ∈ ([] : List (Tr W)) from h) List.not_mem_nil
    | n + 3, h => exact absurd (show t ∈ ([] : List (Tr W)) from h) List.not_mem_nil

theorem closureRoot_wf (c : Fst.ClosureType) : (closureRoot c : Fst W).WF := by
  cases c with
  | star =>
    refine ⟨fun i hi => ?_, fun s t ht => ?_⟩
    · cases hi; exact Nat.zero_lt_succ 0
    · match s, ht with
      | 0, h => obtain rfl := List.mem_singleton.1 (show t ∈ ([⟨EPS, NO_LABEL, 1, 0⟩] : List (Tr W)) from h); exact Nat.zero_lt_succ 0
      | n + 1, h => exact absurd (show t ∈ ([] : List (Tr W)) from h) List.not_mem_nil
  | plus =>
    refine ⟨fun i hi => ?_, fun s t ht => ?_⟩
    · cases hi; exact Nat.zero_lt_succ 1
    · match s, ht with
      | 0, h => obtain rfl := List.mem_singleton.1 (show t ∈ ([⟨EPS, NO_LABEL, 1, 1⟩] : List (Tr W)) from h); exact Nat.lt_succ_self 1
      | 1, h => obtain rfl := List.mem_singleton.1 (show t ∈ ([⟨EPS, EPS, 1, 0⟩] : List (Tr W)) from h); exact Nat.zero_lt_succ 1
      | n + 2, h => exact absurd (show t ∈ ([] : List (Tr W)) from h) List.not_mem_nil

theorem union_net {f g : Fst W} (hf : f.NoNames [NO_LABEL, NO_LABEL - 1]) (hg : g.NoNames [NO_LABEL, NO_LABEL - 1]) (n : Nat) :
    (rtnOf (unionTuples f g) false).paths 0 n = delay 2 (fun m => f.accPaths m + g.accPaths m) n := by
  obtain ⟨p1, p2⟩ := paths3 (r := unionRoot) hf hg
  show (net3 unionRoot f g).expand n 0 0 = _
  have h1 : (fun m => (net3 unionRoot f g).expand m 0 1) = unitPaths := funext (expand_end rfl rfl)
  cases n with
  | zero => rw [Rtn.expand]; rfl
  | succ n =>
    rw [Rtn.expand_via _ (fun t ht _ => ?_) rfl]
    · show (([⟨EPS, NO_LABEL, 1, 1⟩, ⟨EPS, NO_LABEL - 1, 1, 1⟩] : List (Tr W)) : Multiset (Tr W)).bind _ = _
      rw [← Multiset.cons_coe, Multiset.cons_bind, ← Multiset.cons_coe, Multiset.cons_bind, via_call1, via_call2, h1, p1, p2, seqPaths_unit, seqPaths_unit]
      unfold delay
      cases n with
      | zero => simp
      | succ n => simp
    · have : t ∈ ([⟨EPS, NO_LABEL, 1, 1⟩, ⟨EPS, NO_LABEL - 1, 1, 1⟩] : List (Tr W)) := ht
      simp only [List.mem_cons, List.not_mem_nil, or_false] at this
      rcases this with rfl | rfl <;> rfl

theorem concat_net {f g : Fst W} (hf : f.NoNames [NO_LABEL, NO_LABEL - 1]) (hg : g.NoNames [NO_LABEL, NO_LABEL - 1]) (n : Nat) :
    (rtnOf (concatTuples f g) false).paths 0 n = delay 3 (seqPaths f.accPaths g.accPaths) n := by
  obtain ⟨p1, p2⟩ := paths3 (r := concatRoot) hf hg
  show (net3 concatRoot f g).expand n 0 0 = _
  have h2 : (fun m => (net3 concatRoot f g).expand m 0 2) = unitPaths := funext (expand_end rfl rfl)
  have h1 : (fun m => (net3 concatRoot f g).expand m 0 1) = delay 2 g.accPaths := by
    funext m
    cases m with
    | zero => rw [Rtn.expand]; rfl
    | succ m =>
      rw [Rtn.expand_via _ (fun t ht _ => ?_) rfl]
      · show (([⟨EPS, NO_LABEL - 1, 1, 2⟩] : List (Tr W)) : Multiset (Tr W)).bind _ = _
        rw [← Multiset.cons_coe, Multiset.cons_bind, via_call2, h2, p2, seqPaths_unit]
        unfold delay
        cases m <;> simp
      · have : t ∈ ([⟨EPS, NO_LABEL - 1, 1, 2⟩] : List (Tr W)) := ht
        simp only [List.mem_cons, List.not_mem_nil, or_false] at this
        rcases this with rfl; rfl
  cases n with
  | zero => rw [Rtn.expand]; rfl
  | succ n =>
    rw [Rtn.expand_via _ (fun t ht _ => ?_) rfl]
    · show (([⟨EPS, NO_LABEL, 1, 1⟩] : List (Tr W)) : Multiset (Tr W)).bind _ = _
      rw [← Multiset.cons_coe, Multiset.cons_bind, via_call1, h1, p1, seqPaths_delay_right]
      unfold delay
      rcases n with - | - | n <;> simp
    · have : t ∈ ([⟨EPS, NO_LABEL, 1, 1⟩] : List (Tr W)) := ht
      simp only [List.mem_cons, List.not_mem_nil, or_false] at this
      rcases this with rfl; rfl

theorem star_net {f : Fst W} (hf : f.NoNames [NO_LABEL]) (n : Nat) :
    (rtnOf (closureTuples .star f) false).paths 0 n =
      unitPaths n + delay 1 (fun m => ∑ k ∈ Finset.range (m + 1), repeatPaths (delay 1 f.accPaths) k m) n := by
  have p1 := paths2 (r := closureRoot .star) hf
  show (net2 (closureRoot .star) f).expand n 0 0 = _
  have hs : ∀ n, (net2 (closureRoot .star) f).expand (n + 1) 0 0 = seqPaths f.accPaths (fun m => (net2 (closureRoot .star) f).expand m 0 0) n := by
    intro n
    rw [Rtn.expand_via _ (fun t ht _ => ?_) rfl]
    · show (([⟨EPS, NO_LABEL, 1, 0⟩] : List (Tr W)) : Multiset (Tr W)).bind _ = _
      rw [← Multiset.cons_coe, Multiset.cons_bind, via_call, p1]
      simp
    · have : t ∈ ([⟨EPS, NO_LABEL, 1, 0⟩] : List (Tr W)) := ht
      simp only [List.mem_cons, List.not_mem_nil, or_false] at this
      rcases this with rfl; rfl
  have h0 : (net2 (closureRoot .star) f).expand 0 0 0 = unitPaths 0 := by rw [Rtn.expand]; rfl
  have hu : (fun m => (net2 (closureRoot .star) f).expand m 0 0) =
      fun m => unitPaths m + delay 1 (fun m => (net2 (closureRoot .star) f).expand (m + 1) 0 0) m := by
    funext m
    cases m with
    | zero => rw [h0]; simp [delay]
    | succ m => simp [delay, unitPaths]
  have hg := iterate_eq (L := delay 1 f.accPaths) (H := fun m => (net2 (closureRoot .star) f).expand (m + 1) 0 0) (fun m => by
    rw [hs, hu, seqPaths_add_right, seqPaths_unit, seqPaths_delay_right, seqPaths_delay_left])
  cases n with
  | zero => rw [h0]; simp [delay]
  | succ n =>
    rw [hg n]
    simp [delay, unitPaths]

theorem plus_net {f : Fst W} (hf : f.NoNames [NO_LABEL]) (n : Nat) :
    (rtnOf (closureTuples .plus f) false).paths 0 n = ∑ k ∈ Finset.range (n + 1), repeatPaths (delay 2 f.accPaths) k n := by
  have p1 := paths2 (r := closureRoot .plus) hf
  show (net2 (closureRoot .plus) f).expand n 0 0 = _
  have hs : ∀ n, (net2 (closureRoot .plus) f).expand (n + 1) 0 0 = seqPaths f.accPaths (fun m => (net2 (closureRoot .plus) f).expand m 0 1) n := by
    intro n
    rw [Rtn.expand_via _ (fun t ht _ => ?_) rfl]
    · show (([⟨EPS, NO_LABEL, 1, 1⟩] : List (Tr W)) : Multiset (Tr W)).bind _ = _
      rw [← Multiset.cons_coe, Multiset.cons_bind, via_call, p1]
      simp
    · have : t ∈ ([⟨EPS, NO_LABEL, 1, 1⟩] : List (Tr W)) := ht
      simp only [List.mem_cons, List.not_mem_nil, or_false] at this
      rcases this with rfl; rfl
  have hl : (fun m => (net2 (closureRoot .plus) f).expand m 0 1) =
      fun m => unitPaths m + delay 1 (fun m => (net2 (closureRoot .plus) f).expand m 0 0) m := by
    funext m
    cases m with
    | zero => rw [Rtn.expand]; simp only [delay]; rfl
    | succ m =>
      rw [Rtn.expand_via _ (fun t ht h => ?_) rfl]
      · show (([⟨EPS, EPS, 1, 0⟩] : List (Tr W)) : Multiset (Tr W)).bind _ = _
        rw [← Multiset.cons_coe, Multiset.cons_bind, via_eps]
        simp [delay, unitPaths]
      · have : t ∈ ([⟨EPS, EPS, 1, 0⟩] : List (Tr W)) := ht
        simp only [List.mem_cons, List.not_mem_nil, or_false] at this
        rcases this with rfl; rfl
  refine iterate_eq (L := delay 2 f.accPaths) (H := fun m => (net2 (closureRoot .plus) f).expand m 0 0) (fun m => ?_) n
  rw [seqPaths_delay_left]
  cases m with
  | zero => rw [Rtn.expand]; rfl
  | succ m =>
    rw [hs, hl, seqPaths_add_right, seqPaths_unit, seqPaths_delay_right]
    simp only [delay]
    cases m <;> simp

end Verif
