import Verif.Props.C47
import Verif.Lemmas.Truthful

/-!
# C48: linear FSTs
-/

namespace Verif
universe u
variable {W : Type u}
open Fst

/-- `f` is a chain of transitions with the given pairs of labels. -/
structure IsChain [One W] (f : Fst W) (l : List (Label × Label)) : Prop where
  num : f.numStates = l.length + 1
  start : f.start = some 0
  trs : ∀ s, f.trsOf s = match l[s]? with
    | none => []
    | some io => [⟨io.1, io.2, 1, s + 1⟩]
  fin : ∀ s, f.finOf s = none

section
variable [Zero W] [One W] [DecidableEq W]

theorem isChain_fold (l : List (Label × Label)) :
    IsChain ((l.foldl addLinear ((((Fst.new : Fst W).addState).setStart 0), 0)).1) l ∧
      (l.foldl addLinear ((((Fst.new : Fst W).addState).setStart 0), 0)).2 = l.length := by
  induction l using List.reverseRecOn with
  | nil =>
    refine ⟨⟨rfl, rfl, fun s => ?_, fun s => ?_⟩, rfl⟩
    · simp only [List.foldl_nil, setStart_trsOf, addState_trsOf]; rfl
    · simp only [List.foldl_nil, setStart_finOf, addState_finOf]; rfl
  | append_singleton l io ih =>
    rw [List.foldl_append]
    simp only [List.foldl_cons, List.foldl_nil]
    obtain ⟨hc, h2⟩ := ih
    obtain ⟨a, ha⟩ : ∃ a, a = l.foldl addLinear ((((Fst.new : Fst W).addState).setStart 0), 0) := ⟨_, rfl⟩
    rw [← ha] at hc h2 ⊢
    refine ⟨⟨?_, hc.start, fun s => ?_, fun s => ?_⟩, ?_⟩
    · simp [addLinear, hc.num]
    · simp only [addLinear, addTr_trsOf, addState_trsOf, addState_numStates, hc.num, h2, hc.trs]
      by_cases h : s = l.length
      · subst h
        simp
        omega
      · rcases Nat.lt_or_gt_of_ne h with h' | h'
        · simp [h, List.getElem?_append_left h']
        · have h1 : l[s]? = none := List.getElem?_eq_none (by omega)
          have h2 : (l ++ [io])[s]? = none := List.getElem?_eq_none (by simp; omega)
          simp [h, h1, h2]
    · simp [addLinear, hc.fin]
    · simp [addLinear, hc.num]
end

section
variable [Monoid W]

/-- The labels of a side, without ε. -/
def chainLabels (g : Label × Label → Label) (l : List (Label × Label)) : List Label := l.flatMap fun io => strip (g io)

theorem chain_paths {f : Fst W} {l : List (Label × Label)} (w : W) (htrs : ∀ s, f.trsOf s = match l[s]? with
      | none => []
      | some io => [⟨io.1, io.2, 1, s + 1⟩])
    (hfin : ∀ s, f.finOf s = if s = l.length then some w else none) (n s : Nat) (hs : s ≤ l.length) :
    f.pathsFrom n s = if s + n = l.length then {(chainLabels Prod.fst (l.drop s), chainLabels Prod.snd (l.drop s), w)} else 0 := by
  induction n generalizing s with
  | zero =>
    rw [pathsFrom_zero, hfin]
    by_cases h : s = l.length <;> simp [h, chainLabels]
  | succ n ih =>
    rw [pathsFrom_succ, htrs]
    rcases Nat.lt_or_ge s l.length with h | h
    · rw [List.getElem?_eq_getElem h]
      simp only [Multiset.coe_singleton, Multiset.singleton_bind]
      rw [ih (s + 1) (by omega), show s + 1 + n = s + (n + 1) by omega]
      split
      · rw [Multiset.map_singleton]
        unfold chainLabels
        rw [List.drop_eq_getElem_cons h, List.flatMap_cons, List.flatMap_cons]
        simp [Tr.asPath, PathT.cat]
      · rfl
    · rw [List.getElem?_eq_none h, if_neg (by omega)]
      rfl

theorem strip_filter (l : List Label) : l.flatMap strip = l.filter fun a => decide (a ≠ EPS) := by
  induction l with
  | nil => rfl
  | cons a l ih =>
    rw [List.flatMap_cons, List.filter_cons, ih]
    unfold strip
    by_cases h : a = EPS <;> simp [h]

theorem pad_labels (l : List Label) (m : Nat) (h : l.length ≤ m) :
    ((List.range m).flatMap fun k => strip (l[k]?.getD 0)) = l.filter fun a => decide (a ≠ EPS) := by
  rw [← strip_filter]
  induction l generalizing m with
  | nil =>
    simp only [List.getElem?_nil, Option.getD_none, List.flatMap_nil]
    induction m with
    | zero => rfl
    | succ m ih => rw [List.range_succ, List.flatMap_append, ih (by simp)]; rfl
  | cons a l ih =>
    obtain ⟨m, rfl⟩ : ∃ k, m = k + 1 := ⟨m - 1, by simp at h; omega⟩
    rw [List.range_succ_eq_map, List.flatMap_cons, List.flatMap_map, List.flatMap_cons, ← ih m (by simpa using h)]
    rfl

/-- The decoder returns the only path of an FST whose accessible part has no cycle. -/
theorem decode_of_paths {f : Fst W} (hw : f.WF) (hac : ∀ s, f.Accessible s → ¬ f.OnCycle s) (p : FstPath W) {m : Nat}
    (hm : m < f.numStates) (h : ∀ n, f.accPaths n = if n = m then {(p.ilabels, p.olabels, p.weight)} else 0) :
    EndsWith f.decodeLinear (.ok p) := by
  obtain ⟨ps, h1, h2, -⟩ := C47_paths_iter hw hac
  have hsum : ∑ n ∈ Finset.range f.numStates, f.accPaths n = {(p.ilabels, p.olabels, p.weight)} := by
    rw [Finset.sum_eq_single m (fun n _ hn => by rw [h n, if_neg hn]) (fun hn => absurd (Finset.mem_range.2 hm) hn), h m, if_pos rfl]
  rw [hsum] at h2
  have hps : ps = [p] := by
    have h3 : (ps : Multiset (FstPath W)).map FstPath.toT = ({p} : Multiset (FstPath W)).map FstPath.toT := h2
    have h4 := Multiset.map_injective FstPath.toT_injective h3
    exact List.perm_singleton.1 (Multiset.coe_eq_coe.1 (by simpa using h4))
  subst hps
  obtain ⟨N, hN⟩ := h1 1
  refine ⟨N, fun n hn => ?_⟩
  have h5 := hN n hn
  simp only [List.length_singleton, nextPaths, List.map_cons, List.map_nil, List.replicate_one, List.singleton_append] at h5
  unfold decodeLinear
  cases h6 : f.nextPath n f.pathsIter with
  | none => rw [h6] at h5; simp at h5
  | some a =>
    obtain ⟨a, q⟩ := a
    simp only [h6] at h5 ⊢
    cases h7 : f.nextPath n q with
    | none => rw [h7] at h5; simp at h5
    | some b =>
      obtain ⟨b, q'⟩ := b
      simp only [h7, Option.map_some, Option.some.injEq, List.cons.injEq, and_true] at h5
      obtain ⟨rfl, rfl⟩ := h5
      rfl
end

section
variable [MonoidWithZero W] [DecidableEq W]

/-- A chain ending in a final state. -/
theorem chain_spec {f : Fst W} {l : List (Label × Label)} (hc : IsChain f l) (w : W) :
    (f.setFinal l.length w).WF ∧
    (∀ n, (f.setFinal l.length w).accPaths n = if n = l.length then {(chainLabels Prod.fst l, chainLabels Prod.snd l, w)} else 0) ∧
    EndsWith (f.setFinal l.length w).decodeLinear (.ok ⟨chainLabels Prod.fst l, chainLabels Prod.snd l, w⟩) := by
  obtain ⟨g, hg⟩ : ∃ g, g = f.setFinal l.length w := ⟨_, rfl⟩
  rw [← hg]
  have htrs : ∀ s, g.trsOf s = match l[s]? with
      | none => []
      | some io => [⟨io.1, io.2, 1, s + 1⟩] := by
    intro s; rw [hg, setFinal_trsOf, hc.trs]
  have hfin : ∀ s, g.finOf s = if s = l.length then some w else none := by
    intro s
    rw [hg, setFinal_finOf, hc.num, hc.fin]
    by_cases h : s = l.length
    · simp [h]
    · have : l.length ≠ s := fun e => h e.symm
      simp [h, this]
  have hst : g.start = some 0 := by rw [hg]; exact hc.start
  have hnum : g.numStates = l.length + 1 := by rw [hg, setFinal_numStates, hc.num]
  have hnext : ∀ s, ∀ t ∈ g.trsOf s, s < l.length ∧ t.nextstate = s + 1 := by
    intro s t ht
    rw [htrs] at ht
    rcases Nat.lt_or_ge s l.length with h | h
    · rw [List.getElem?_eq_getElem h] at ht
      simp only [List.mem_singleton] at ht
      exact ⟨h, by rw [ht]⟩
    · rw [List.getElem?_eq_none h] at ht
      cases ht
  have hwf : g.WF := ⟨fun i hi => by rw [hst] at hi; injection hi with hi; omega, fun s t ht => by have := hnext s t ht; omega⟩
  have hacc : ∀ n, g.accPaths n = if n = l.length then {(chainLabels Prod.fst l, chainLabels Prod.snd l, w)} else 0 := by
    intro n
    rw [accPaths_some hst, chain_paths w htrs hfin n 0 (by omega)]
    simp
  refine ⟨hwf, hacc, decode_of_paths hwf ?_ ⟨_, _, w⟩ (m := l.length) (by omega) hacc⟩
  intro s _ hcyc
  have : ∀ a b, Relation.TransGen g.Edge a b → a < b := by
    intro a b h
    induction h with
    | single h => obtain ⟨t, ht, rfl⟩ := h; have := hnext _ t ht; omega
    | tail _ h ih => obtain ⟨t, ht, rfl⟩ := h; have := hnext _ t ht; omega
  exact lt_irrefl s (this s s hcyc)

/-- C48: `transducer` builds an FST with exactly one accepting path, and the decoder returns it. Labels that are ε leave no trace. -/
theorem C48_transducer (li lo : List Label) (w : W) :
    (transducer li lo w).WF ∧
    (∀ n, (transducer li lo w).accPaths n =
      if n = max li.length lo.length then {(li.filter fun a => decide (a ≠ EPS), lo.filter fun a => decide (a ≠ EPS), w)} else 0) ∧
    EndsWith (transducer li lo w).decodeLinear (.ok ⟨li.filter fun a => decide (a ≠ EPS), lo.filter fun a => decide (a ≠ EPS), w⟩) := by
  have h := isChain_fold (W := W) ((List.range (max li.length lo.length)).map fun k => (li[k]?.getD 0, lo[k]?.getD 0))
  have h1 := chain_spec h.1 w
  unfold chainLabels at h1
  rw [List.flatMap_map, List.flatMap_map, pad_labels li _ (le_max_left _ _), pad_labels lo _ (le_max_right _ _)] at h1
  simp only [List.length_map, List.length_range] at h1
  unfold transducer
  simp only [h.2, List.length_map, List.length_range]
  exact h1

/-- C48: for labels other than ε, the path carries exactly the given labels and weight, and the decoder returns them. -/
theorem C48_transducer_roundtrip (li lo : List Label) (w : W) (hi : EPS ∉ li) (ho : EPS ∉ lo) :
    (∀ n, (transducer li lo w).accPaths n = if n = max li.length lo.length then {(li, lo, w)} else 0) ∧
    EndsWith (transducer li lo w).decodeLinear (.ok ⟨li, lo, w⟩) := by
  have h := C48_transducer li lo w
  rw [List.filter_eq_self.2 fun a ha => by simpa using fun e : a = EPS => hi (e ▸ ha),
    List.filter_eq_self.2 fun a ha => by simpa using fun e : a = EPS => ho (e ▸ ha)] at h
  exact h.2

/-- C48: the same for `acceptor`. -/
theorem C48_acceptor (l : List Label) (w : W) :
    (acceptor l w).WF ∧
    (∀ n, (acceptor l w).accPaths n =
      if n = l.length then {(l.filter fun a => decide (a ≠ EPS), l.filter fun a => decide (a ≠ EPS), w)} else 0) ∧
    EndsWith (acceptor l w).decodeLinear (.ok ⟨l.filter fun a => decide (a ≠ EPS), l.filter fun a => decide (a ≠ EPS), w⟩) := by
  have h := isChain_fold (W := W) (l.map fun x => (x, x))
  have h1 := chain_spec h.1 w
  unfold chainLabels at h1
  rw [List.flatMap_map, List.flatMap_map] at h1
  simp only [List.length_map] at h1
  rw [show (fun a : Label => strip a) = strip from rfl, strip_filter] at h1
  unfold acceptor
  simp only [h.2, List.length_map]
  exact h1

theorem C48_acceptor_roundtrip (l : List Label) (w : W) (hl : EPS ∉ l) :
    (∀ n, (acceptor l w).accPaths n = if n = l.length then {(l, l, w)} else 0) ∧ EndsWith (acceptor l w).decodeLinear (.ok ⟨l, l, w⟩) := by
  have h := C48_acceptor l w
  rw [List.filter_eq_self.2 fun a ha => by simpa using fun e : a = EPS => hl (e ▸ ha)] at h
  exact h.2

/-- C48: `epsilon_machine` accepts the empty string with weight one. -/
theorem C48_epsilon_machine : (epsilonMachine : Fst W).WF ∧ (∀ n, (epsilonMachine : Fst W).accPaths n = if n = 0 then {([], [], 1)} else 0) ∧
    EndsWith (epsilonMachine : Fst W).decodeLinear (.ok ⟨[], [], 1⟩) := chain_spec (isChain_fold (W := W) []).1 1
end

/-- The decoder, on any FST without accessible cycle: the only path; an error when there are several; the empty path with weight one when
there is none. -/
theorem C48_decode [Monoid W] {f : Fst W} (hw : f.WF) (hac : ∀ s, f.Accessible s → ¬ f.OnCycle s) :
    ∃ r, EndsWith f.decodeLinear r ∧
      match r with
      | .ok p => ∑ n ∈ Finset.range f.numStates, f.accPaths n = {(p.ilabels, p.olabels, p.weight)} ∨
          ∑ n ∈ Finset.range f.numStates, f.accPaths n = 0 ∧ p = FstPath.default
      | .error x => x = .err ∧ 2 ≤ (∑ n ∈ Finset.range f.numStates, f.accPaths n).card := by
  obtain ⟨ps, h1, h2, -⟩ := C47_paths_iter hw hac
  rw [← h2]
  match ps, h1 with
  | [], h1 =>
    obtain ⟨N, hN⟩ := h1 2
    refine ⟨.ok FstPath.default, ⟨N, fun n hn => ?_⟩, .inr ⟨rfl, rfl⟩⟩
    have h5 := hN n hn
    simp only [List.length_nil, Nat.zero_add, nextPaths, List.map_nil, List.replicate_succ, List.replicate_zero, List.nil_append] at h5
    unfold decodeLinear
    cases h6 : f.nextPath n f.pathsIter with
    | none => rw [h6] at h5; simp at h5
    | some a =>
      obtain ⟨a, q⟩ := a
      simp only [h6] at h5 ⊢
      cases h7 : f.nextPath n q with
      | none => rw [h7] at h5; simp at h5
      | some b =>
        obtain ⟨b, q'⟩ := b
        simp only [h7, Option.map_some, Option.some.injEq, List.cons.injEq, and_true] at h5
        obtain ⟨rfl, rfl⟩ := h5
        rfl
  | [p], h1 =>
    obtain ⟨N, hN⟩ := h1 1
    refine ⟨.ok p, ⟨N, fun n hn => ?_⟩, .inl (by simp)⟩
    have h5 := hN n hn
    simp only [List.length_singleton, nextPaths, List.map_cons, List.map_nil, List.replicate_one, List.singleton_append] at h5
    unfold decodeLinear
    cases h6 : f.nextPath n f.pathsIter with
    | none => rw [h6] at h5; simp at h5
    | some a =>
      obtain ⟨a, q⟩ := a
      simp only [h6] at h5 ⊢
      cases h7 : f.nextPath n q with
      | none => rw [h7] at h5; simp at h5
      | some b =>
        obtain ⟨b, q'⟩ := b
        simp only [h7, Option.map_some, Option.some.injEq, List.cons.injEq, and_true] at h5
        obtain ⟨rfl, rfl⟩ := h5
        rfl
  | p :: p' :: ps, h1 =>
    obtain ⟨N, hN⟩ := h1 0
    refine ⟨.error .err, ⟨N, fun n hn => ?_⟩, rfl, by simp⟩
    have h5 := hN n hn
    simp only [List.length_cons, Nat.add_zero, nextPaths, List.map_cons, List.replicate_zero, List.append_nil] at h5
    unfold decodeLinear
    cases h6 : f.nextPath n f.pathsIter with
    | none => rw [h6] at h5; simp at h5
    | some a =>
      obtain ⟨a, q⟩ := a
      simp only [h6] at h5 ⊢
      cases h7 : f.nextPath n q with
      | none => rw [h7] at h5; simp at h5
      | some b =>
        obtain ⟨b, q'⟩ := b
        simp only [h7] at h5
        cases h8 : f.nextPaths n ps.length q' with
        | none => rw [h8] at h5; simp at h5
        | some c =>
          simp only [h8, Option.map_some, Option.some.injEq, List.cons.injEq] at h5
          obtain ⟨rfl, rfl, -⟩ := h5
          rfl

section
variable [Zero W] [One W] [DecidableEq W]

theorem linear_truthful (l : List (Label × Label)) (w : W) :
    let a := l.foldl addLinear ((((Fst.new : Fst W).addState).setStart 0), 0)
    (a.1.setFinal a.2 w).Truthful := by
  have key : (l.foldl addLinear ((((Fst.new : Fst W).addState).setStart 0), 0)).1.Truthful := by
    induction l using List.reverseRecOn with
    | nil => exact truthful_setStart (truthful_addStates truthful_new 1) 0
    | append_singleton l io ih =>
      rw [List.foldl_append]
      obtain ⟨hc, h2⟩ := isChain_fold (W := W) l
      exact truthful_addTr (truthful_addStates ih 1) (by
        change _ < (Fst.addState _).numStates
        rw [addState_numStates, hc.num, h2]
        omega) _
  obtain ⟨hc, h2⟩ := isChain_fold (W := W) l
  exact truthful_setFinal key (by rw [hc.num, h2]; omega) w

/-- The flags of `transducer`, `acceptor` and `epsilon_machine` are true (C51). -/
theorem C48_flags (li lo l : List Label) (w : W) : (transducer li lo w).Truthful ∧ (acceptor l w).Truthful ∧ (epsilonMachine : Fst W).Truthful :=
  ⟨linear_truthful _ w, linear_truthful _ w, linear_truthful [] 1⟩
end

/-! ## Examples -/

example : EndsWith (transducer [3, 4] [7] (5 : Nat)).decodeLinear (.ok ⟨[3, 4], [7], 5⟩) :=
  (C48_transducer_roundtrip [3, 4] [7] 5 (by decide) (by decide)).2

/-- The decoder does not tell an FST that accepts nothing from the ε-machine. -/
theorem C48_decode_nothing : EndsWith (Fst.new : Fst Nat).decodeLinear (.ok ⟨[], [], 1⟩) ∧ ∀ n, (Fst.new : Fst Nat).accPaths n = 0 :=
  ⟨⟨0, fun n _ => by cases n <;> rfl⟩, fun _ => rfl⟩

end Verif
