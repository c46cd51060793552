import Verif.Lemmas.NspSearch
import Verif.Spec.Distance
import Mathlib.Algebra.Order.BigOperators.Group.Finset

/-! # The loop of the search for the `n` shortest paths -/

namespace Verif
universe u v
set_option linter.unusedSectionVars false
open Fst NSp

section
variable {W : Type u} {V : Type v} [CommSemiring W] [DecidableEq W] [Monoid V]

/-- The output FST: a tree that leads to state 1, and transitions from state 0 to the complete paths. -/
structure NTree (o : Fst W) (nodes : List (GNode W)) (C : List Nat) : Prop where
  num : o.numStates = nodes.length
  start : o.start = some 0
  tr0 : o.trsOf 0 = C.map (fun c => ⟨EPS, EPS, 1, c⟩)
  tr1 : o.trsOf 1 = []
  fin : ∀ q, o.finOf q = if q = 1 then some 1 else none
  root : ∃ x : GNode W, nodes[1]? = some x ∧ x.dep = 0 ∧ x.path = ([], [], 1) ∧ x.st ≠ none
  up : ∀ (k : Nat) (x : GNode W), 2 ≤ k → nodes[k]? = some x → ∃ (t : Tr W) (y : GNode W), o.trsOf k = [t] ∧ t.nextstate = x.par ∧ 1 ≤ x.par ∧
    x.par < k ∧ nodes[x.par]? = some y ∧ x.dep = y.dep + 1 ∧ x.path = t.asPath.cat y.path
  truthful : o.Truthful

namespace NTree
variable {o : Fst W} {nodes : List (GNode W)} {C : List Nat}

theorem paths (T : NTree o nodes C) : ∀ (k : Nat) (x : GNode W), 1 ≤ k → nodes[k]? = some x → ∀ m,
    o.pathsFrom m k = if m = x.dep then {x.path} else 0 := by
  intro k
  induction k using Nat.strongRecOn with
  | ind k ih =>
    intro x hk hx m
    rcases Nat.lt_or_ge k 2 with h2 | h2
    · obtain rfl : k = 1 := by omega
      obtain ⟨y, hy, hd, hp, -⟩ := T.root
      rw [hx] at hy; cases hy
      cases m with
      | zero => rw [pathsFrom_zero, T.fin, hd, hp]; rfl
      | succ m => rw [pathsFrom_succ, T.tr1, if_neg (by omega)]; simp
    · obtain ⟨t, y, h1, h3, h4, h5, h6, h7, h8⟩ := T.up k x h2 hx
      cases m with
      | zero => rw [pathsFrom_zero, T.fin, if_neg (by omega), if_neg (by omega)]
      | succ m =>
        rw [pathsFrom_succ, h1, Multiset.coe_singleton, Multiset.singleton_bind, h3, ih x.par h5 y h4 h6 m]
        by_cases hm : m = y.dep
        · rw [if_pos hm, if_pos (by omega), Multiset.map_singleton, h8]
        · rw [if_neg hm, if_neg (by omega), Multiset.map_zero]

theorem acc (T : NTree o nodes C) (back : V → W) (g : Fst V) (hC : ∀ c ∈ C, 1 ≤ c ∧ ∃ x : GNode W, nodes[c]? = some x ∧ x.st = none) :
    o.accPaths 0 = 0 ∧ o.accPaths 1 = 0 ∧ ∀ m, o.accPaths (m + 2) = (C.map (compAt back g nodes m)).sum := by
  have hsucc : ∀ m, o.accPaths (m + 1) = (C.map (fun c => o.pathsFrom m c)).sum := by
    intro m
    rw [accPaths_some T.start, pathsFrom_succ, T.tr0, Multiset.bind, Multiset.join, Multiset.map_coe, Multiset.sum_coe, List.map_map]
    congr 1
    refine List.map_congr_left fun c _ => ?_
    show Multiset.map (fun p => PathT.cat ([], [], 1) p) (o.pathsFrom m c) = _
    rw [Multiset.map_congr rfl (fun p _ => cat_epsOne p), Multiset.map_id']
  have hdep : ∀ c ∈ C, ∀ x : GNode W, nodes[c]? = some x → 1 ≤ c ∧ x.dep ≠ 0 ∧ x.st = none := by
    intro c hc x hx
    obtain ⟨h1, y, hy, hys⟩ := hC c hc
    rw [hx] at hy; cases hy
    have h2 : 2 ≤ c := by
      rcases Nat.lt_or_ge c 2 with h2 | h2
      · obtain rfl : c = 1 := by omega
        obtain ⟨z, hz, -, -, hzs⟩ := T.root
        rw [hx] at hz; cases hz
        exact absurd hys hzs
      · exact h2
    obtain ⟨t, y, -, -, -, -, -, hd, -⟩ := T.up c x h2 hx
    exact ⟨h1, by omega, hys⟩
  refine ⟨by rw [accPaths_some T.start, pathsFrom_zero, T.fin]; rfl, ?_, fun m => ?_⟩
  · rw [hsucc]
    refine List.sum_eq_zero fun p hp => ?_
    obtain ⟨c, hc, rfl⟩ := List.mem_map.1 hp
    obtain ⟨h1, x, hx, -⟩ := hC c hc
    rw [T.paths c x h1 hx, if_neg (fun h => (hdep c hc x hx).2.1 h.symm)]
  · rw [hsucc]
    congr 1
    refine List.map_congr_left fun c hc => ?_
    obtain ⟨h1, x, hx, hs⟩ := hC c hc
    rw [T.paths c x h1 hx]
    unfold compAt
    rw [hx]
    show _ = comp back g x m
    unfold comp
    rw [hs]
    by_cases h : m + 1 = x.dep
    · rw [if_pos h]; simp only [if_pos h.symm]
    · rw [if_neg h]; simp only [if_neg (fun e => h (Eq.symm e))]

theorem wf (T : NTree o nodes C) (h2 : 2 ≤ nodes.length) (hC : ∀ c ∈ C, c < nodes.length) : o.WF := by
  refine ⟨fun i hi => ?_, fun s t ht => ?_⟩
  · rw [T.start] at hi; cases hi; rw [T.num]; omega
  · have hlt := lt_of_mem_trsOf ht
    rw [T.num] at hlt ⊢
    match s with
    | 0 =>
      rw [T.tr0] at ht
      obtain ⟨c, hc, rfl⟩ := List.mem_map.1 ht
      exact hC c hc
    | 1 => rw [T.tr1] at ht; cases ht
    | s + 2 =>
      obtain ⟨t', y, h1, h3, h4, h5, -⟩ := T.up (s + 2) _ (by omega) (List.getElem?_eq_getElem hlt)
      rw [h1] at ht
      obtain rfl := List.mem_singleton.1 ht
      rw [h3]; omega

theorem acyclic (T : NTree o nodes C) (hC : ∀ c ∈ C, 1 ≤ c) : ∀ s, ¬ o.OnCycle s := by
  -- state 0 is above all the others, which lead to smaller states
  have key : ∀ a b, Relation.TransGen o.Edge a b → 1 ≤ b ∧ (1 ≤ a → b < a) := by
    have hedge : ∀ a b, o.Edge a b → 1 ≤ b ∧ (1 ≤ a → b < a) := by
      rintro a b ⟨t, ht, rfl⟩
      have hlt := lt_of_mem_trsOf ht
      rw [T.num] at hlt
      match a with
      | 0 =>
        rw [T.tr0] at ht
        obtain ⟨c, hc, rfl⟩ := List.mem_map.1 ht
        exact ⟨hC c hc, fun h => absurd h (by omega)⟩
      | 1 => rw [T.tr1] at ht; cases ht
      | s + 2 =>
        obtain ⟨t', y, h1, h3, h4, h5, -⟩ := T.up (s + 2) _ (by omega) (List.getElem?_eq_getElem hlt)
        rw [h1] at ht
        obtain rfl := List.mem_singleton.1 ht
        rw [h3]; exact ⟨h4, fun _ => h5⟩
    intro a b h
    induction h with
    | single e => exact hedge _ _ e
    | tail _ e ih =>
      have := hedge _ _ e
      exact ⟨this.1, fun ha => by have := ih.2 ha; have := this; have h3 := (hedge _ _ e).2 ih.1; omega⟩
  intro s hs
  have := key s s hs
  have := this.2 this.1
  omega

end NTree

namespace NSp
variable {eqv : W → W → Bool} {dist : List W} {back : V → W} {g : Fst V} {n : Nat} {total : Nat → Multiset (PathT W)}

/-- All that is known between two turns. -/
structure Inv (eqv : W → W → Bool) (dist : List W) (back : V → W) (g : Fst V) (n : Nat) (total : Nat → Multiset (PathT W)) (st : NSp W)
    (nodes : List (GNode W)) (E D C : List Nat) : Prop where
  pairs : st.pairs = nodes.map GNode.pair
  tree : NTree st.ofst nodes C
  search : Search dist back g n total nodes st.heap st.r E D C
  heap : Heap.IsHeap (compare eqv dist st.pairs) st.heap

/-- How many turns there can still be. -/
def turns (g : Fst V) (n : Nat) (st : NSp W) : Nat :=
  st.heap.length + ∑ q ∈ Finset.range g.numStates, (n - st.r (q + 1)) * ((g.trsOf q).length + 2)

theorem turns_expand (g : Fst V) (n : Nat) (r : Nat → Nat) {s : Nat} (hs : s < g.numStates) (hr : r (s + 1) < n) :
    ∑ q ∈ Finset.range g.numStates, (n - r (q + 1)) * ((g.trsOf q).length + 2) =
      (∑ q ∈ Finset.range g.numStates, (n - upd r (s + 1) (r (s + 1) + 1) (q + 1)) * ((g.trsOf q).length + 2)) + ((g.trsOf s).length + 2) := by
  rw [← Finset.add_sum_erase _ _ (Finset.mem_range.2 hs), ← Finset.add_sum_erase _ (fun q => (n - upd r (s + 1) (r (s + 1) + 1) (q + 1)) * _)
    (Finset.mem_range.2 hs)]
  have e1 : ∑ q ∈ (Finset.range g.numStates).erase s, (n - r (q + 1)) * ((g.trsOf q).length + 2) =
      ∑ q ∈ (Finset.range g.numStates).erase s, (n - upd r (s + 1) (r (s + 1) + 1) (q + 1)) * ((g.trsOf q).length + 2) := by
    refine Finset.sum_congr rfl fun q hq => ?_
    have : q ≠ s := (Finset.mem_erase.1 hq).1
    simp [upd, this]
  rw [e1]
  have e2 : n - r (s + 1) = (n - (r (s + 1) + 1)) + 1 := by omega
  have e3 : upd r (s + 1) (r (s + 1) + 1) (s + 1) = r (s + 1) + 1 := by simp [upd]
  rw [e3, e2, Nat.succ_mul]
  omega

theorem turns_drop (g : Fst V) (n : Nat) (r : Nat → Nat) (k : Nat) :
    ∑ q ∈ Finset.range g.numStates, (n - upd r k (r k + 1) (q + 1)) * ((g.trsOf q).length + 2) ≤
      ∑ q ∈ Finset.range g.numStates, (n - r (q + 1)) * ((g.trsOf q).length + 2) := by
  refine Finset.sum_le_sum fun q _ => Nat.mul_le_mul_right _ ?_
  unfold upd
  split
  · next h => rw [← h]; omega
  · exact le_refl _

/-- One turn. -/
theorem turn_spec (h : PathWeights W) (he : ∀ a b, eqv a b = true ↔ b = a) (hm : ∀ a b, back (a * b) = back b * back a)
    (hpot : Potential dist back g) (hw : g.WF) (hf : ∀ s v, g.finOf s = some v → back v ≠ 0) {st : NSp W} {nodes : List (GNode W)}
    {E D C : List Nat} (I : Inv eqv dist back g n total st nodes E D C) (hn : C.length < n) :
    ∃ b st' nodes' E' D' C', st.turn eqv dist back g n 0 = .ok (b, st') ∧ Inv eqv dist back g n total st' nodes' E' D' C' ∧
      (b = true → C'.length < n ∧ turns g n st' < turns g n st) ∧ (b = false → st'.heap = [] ∨ C'.length = n) := by
  unfold turn
  cases hh : st.heap with
  | nil => exact ⟨false, st, nodes, E, D, C, rfl, I, (by intro h; cases h), fun _ => .inl hh⟩
  | cons a l =>
    have hne : st.heap ≠ [] := by rw [hh]; exact List.cons_ne_nil _ _
    obtain ⟨v, heap', hpop, hperm, hmax, hheap'⟩ := Heap.pop_spec (compare_weak h he _) I.heap hne
    rw [hh] at hpop
    have hvh : v ∈ st.heap := hperm.mem_iff.2 List.mem_cons_self
    have hvlt : v < nodes.length := (I.search.mem_lt (List.mem_append_left _ hvh)).2
    have hv1 : 1 ≤ v := (I.search.mem_lt (List.mem_append_left _ hvh)).1
    obtain ⟨x, hx⟩ : ∃ x, nodes[v]? = some x := ⟨_, List.getElem?_eq_getElem hvlt⟩
    have hpx : ∀ {k : Nat} {y : GNode W}, nodes[k]? = some y → st.pairs[k]? = some y.pair := by
      intro k y hy; rw [I.pairs, List.getElem?_map, hy]; rfl
    have hmin : ∀ e ∈ heap', ∀ y : GNode W, nodes[e]? = some y → Best (key dist x.pair) (key dist y.pair) := by
      intro e he' y hy
      have h1 := hmax e (hperm.mem_iff.2 (List.mem_cons_of_mem _ he'))
      unfold compare at h1
      rw [hpx hx, hpx hy] at h1
      exact ((lessPair_false h he).1 h1).1
    have hlim : less (0 : W) (key dist x.pair) = false := (less_false h).2 (Best.zero _)
    have hlen : st.heap.length = heap'.length + 1 := by rw [hperm.length_eq]; rfl
    simp only [hpop, hpx hx, hlim, Bool.false_eq_true, if_false]
    cases hs : x.st with
    | none =>
      have hs' : x.pair.1 = none := hs
      simp only [hs']
      have S' := I.search.complete hperm hx hs hmin hn
      refine ⟨_, _, nodes, E, D, C ++ [v], rfl, ⟨I.pairs, ?_, S', hheap'⟩, ?_, ?_⟩
      · have T := I.tree
        have h0 : 0 < st.ofst.numStates := by rw [T.num]; have := I.search.two; omega
        refine ⟨by simpa using T.num, T.start, ?_, ?_, fun q => by simp [T.fin], T.root, ?_, truthful_addTr T.truthful h0 _⟩
        · simp [addTr_trsOf, h0, T.tr0]
        · simp [addTr_trsOf, T.tr1]
        · intro k y hk hy
          obtain ⟨t, z, h1, h2⟩ := T.up k y hk hy
          exact ⟨t, z, by simp only; rw [addTr_trsOf, if_neg (by omega)]; exact h1, h2⟩
      · intro hb
        have hb' : upd st.r 0 (st.r 0 + 1) 0 ≠ n := by simpa using hb
        rw [S'.rC] at hb'
        have := S'.hC
        refine ⟨by omega, ?_⟩
        have := turns_drop g n st.r 0
        simp only [turns]
        rw [hlen]
        omega
      · intro hb
        have hb' : upd st.r 0 (st.r 0 + 1) 0 = n := by simpa using hb
        rw [S'.rC] at hb'
        exact .inr hb'
    | some s =>
      have hs' : x.pair.1 = some s := hs
      have hsl : s < g.numStates := I.search.valid v x s hx hs
      simp only [hs']
      have hup : upd st.r (s + 1) (st.r (s + 1) + 1) (s + 1) = st.r (s + 1) + 1 := by simp [upd]
      rw [hup]
      by_cases hr : n < st.r (s + 1) + 1
      · rw [if_pos hr]
        refine ⟨true, _, nodes, E, D ++ [v], C, rfl, ⟨I.pairs, I.tree, I.search.drop hperm hx hs hmin (by omega), hheap'⟩, fun _ => ⟨hn, ?_⟩,
          fun hb => by cases hb⟩
        have := turns_drop g n st.r (s + 1)
        simp only [turns]
        rw [hlen]
        omega
      · rw [if_neg hr]
        have hg : g.states[s]? = some (g.states[s]'hsl) := List.getElem?_eq_getElem hsl
        have e1 : g.getTrsR s = .ok (g.trsOf s) := by
          unfold getTrsR; rw [hg]; simp only; rw [trsOf_eq_of_get hg]
        have e2 : g.finalWeightR s = .ok (g.finOf s) := by
          unfold finalWeightR; rw [hg]; simp only; rw [finOf_eq_of_get hg]
        rw [e1, e2]
        simp only
        rw [show x.pair.2 = x.path.2.2 from rfl, growKids_eq (hf s) v x]
        set st1 : NSp W := { st with heap := heap', r := upd st.r (s + 1) (st.r (s + 1) + 1) } with hst1
        have G := growKids_spec (dist := dist) h he (kids back g v x s) nodes st1 I.pairs I.tree.num
          (fun k hk => (I.search.mem_lt (List.mem_append_left _ (hperm.mem_iff.2 (List.mem_cons_of_mem _ hk)))).2) hheap' I.tree.truthful
        generalize growKids eqv dist st1 (kids back g v x s) = st2 at G
        have S' := I.search.expand h hm hpot hw hperm hx hs hmin (by omega) G.perm
        have hkl : (kids back g v x s).length ≤ (g.trsOf s).length + 1 := by
          unfold kids
          rw [List.length_append, List.length_map, List.length_map]
          cases g.finOf s <;> simp
        refine ⟨true, _, nodes ++ (kids back g v x s).map (·.2), E ++ [v], D, C, rfl, ⟨G.pairs, ?_, by rw [G.r]; exact S', G.heap⟩,
          fun _ => ⟨hn, ?_⟩, fun hb => by cases hb⟩
        · have T := I.tree
          have h2 := I.search.two
          refine ⟨by rw [G.num]; simp, by rw [G.start]; exact T.start, by rw [G.old 0 (by omega)]; exact T.tr0,
            by rw [G.old 1 (by omega)]; exact T.tr1, fun q => by rw [G.fin]; exact T.fin q, ?_, ?_, G.truthful⟩
          · obtain ⟨y, hy, h3⟩ := T.root
            exact ⟨y, by rw [Search.get_old (by omega)]; exact hy, h3⟩
          · intro k y hk hy
            by_cases hkl : k < nodes.length
            · rw [Search.get_old hkl] at hy
              obtain ⟨t, z, h3, h4, h5, h6, h7, h8⟩ := T.up k y hk hy
              exact ⟨t, z, by rw [G.old k hkl]; exact h3, h4, h5, h6, by rw [Search.get_old (by omega)]; exact h7, h8⟩
            · obtain ⟨i, rfl⟩ : ∃ i, k = nodes.length + i := ⟨k - nodes.length, by omega⟩
              rw [List.getElem?_append_right (by omega), Nat.add_sub_cancel_left, List.getElem?_map] at hy
              obtain ⟨kk, hkk, rfl⟩ := Option.map_eq_some_iff.1 hy
              have hmk : kk.1.nextstate = v ∧ kk.2.par = v ∧ kk.2.dep = x.dep + 1 ∧ kk.2.path = kk.1.asPath.cat x.path := by
                rcases List.mem_append.1 (List.mem_of_getElem? hkk) with hm | hm
                · obtain ⟨t, -, rfl⟩ := List.mem_map.1 hm; exact ⟨rfl, rfl, rfl, rfl⟩
                · obtain ⟨t, -, rfl⟩ := List.mem_map.1 hm; exact ⟨rfl, rfl, rfl, rfl⟩
              obtain ⟨m1, m2, m3, m4⟩ := hmk
              exact ⟨kk.1, x, G.new i kk hkk, by rw [m1, m2], by omega, by omega, by rw [m2, Search.get_old hvlt]; exact hx, m3, m4⟩
        · have e4 := turns_expand g n st.r hsl (by omega)
          have e5 := G.perm.length_eq
          rw [List.length_append, List.length_range'] at e5
          have e6 : st1.heap.length = heap'.length := rfl
          have e7 : st2.r = upd st.r (s + 1) (st.r (s + 1) + 1) := G.r
          unfold turns
          rw [e7, hlen, e4]
          omega

/-- The loop ends, with a complete search. -/
theorem loop_spec (h : PathWeights W) (he : ∀ a b, eqv a b = true ↔ b = a) (hm : ∀ a b, back (a * b) = back b * back a)
    (hpot : Potential dist back g) (hw : g.WF) (hf : ∀ s v, g.finOf s = some v → back v ≠ 0) : ∀ (B : Nat) (st : NSp W)
    (nodes : List (GNode W)) (E D C : List Nat), Inv eqv dist back g n total st nodes E D C → C.length < n → turns g n st < B →
    ∃ st' nodes' E' D' C', (∀ fuel, B ≤ fuel → loop eqv dist back g n 0 fuel st = some (.ok st')) ∧
      Inv eqv dist back g n total st' nodes' E' D' C' ∧ (st'.heap = [] ∨ C'.length = n)
  | 0, st, nodes, E, D, C, I, hn, hB => by omega
  | B + 1, st, nodes, E, D, C, I, hn, hB => by
    obtain ⟨b, st1, nodes1, E1, D1, C1, ht, I1, h1, h2⟩ := turn_spec h he hm hpot hw hf I hn
    cases b with
    | false =>
      refine ⟨st1, nodes1, E1, D1, C1, fun fuel hfu => ?_, I1, h2 rfl⟩
      obtain ⟨k, rfl⟩ : ∃ k, fuel = k + 1 := ⟨fuel - 1, by omega⟩
      simp only [loop, ht]
    | true =>
      obtain ⟨h3, h4⟩ := h1 rfl
      obtain ⟨st', nodes', E', D', C', h5, h6, h7⟩ := loop_spec h he hm hpot hw hf B st1 nodes1 E1 D1 C1 I1 h3 (by omega)
      refine ⟨st', nodes', E', D', C', fun fuel hfu => ?_, h6, h7⟩
      obtain ⟨k, rfl⟩ : ∃ k, fuel = k + 1 := ⟨fuel - 1, by omega⟩
      simp only [loop, ht]
      exact h5 k (by omega)

/-- The beginning. -/
theorem init_inv (h : PathWeights W) (he : ∀ a b, eqv a b = true ↔ b = a) (hw : g.WF) {s0 : StateId} (hs : g.start = some s0) :
    Inv eqv dist back g n (fun m => (g.accPaths m).map (PathT.rev back)) (init eqv dist s0)
      [⟨none, ([], [], 0), 0, 0⟩, ⟨some s0, ([], [], 1), 0, 0⟩] [] [] [] := by
  have hperm : (init eqv dist s0).heap.Perm [1] := Heap.push_perm _ _
  have hheap : Heap.IsHeap (compare eqv dist (init eqv dist s0).pairs) (init eqv dist s0).heap :=
    Heap.push_heap (compare_weak h he _) Heap.isHeap_nil _
  refine ⟨rfl, ⟨rfl, rfl, ?_, ?_, ?_, ⟨_, rfl, rfl, rfl, by simp⟩, ?_, ?_⟩, ?_, hheap⟩
  · simp [init, setFinal_trsOf]
  · simp [init, setFinal_trsOf]
  · intro q
    simp only [init]
    rw [setFinal_finOf]
    simp
  · intro k x hk hx
    obtain ⟨k, rfl⟩ : ∃ j, k = j + 2 := ⟨k - 2, by omega⟩
    simp at hx
  · refine truthful_setFinal ?_ (by simp) _
    exact truthful_addStates (truthful_setStart (truthful_addStates truthful_new 1) 0) 1
  · refine ⟨by simp, ?_, by simp, by simp, by simp, ?_, rfl, Nat.zero_le _, ?_, by simp, by simp, by simp, ?_⟩
    · simpa using hperm
    · intro a x s hx hxs
      match a with
      | 0 => cases hx; cases hxs
      | 1 => cases hx; cases hxs; exact hw.start_lt s0 hs
      | a + 2 => simp at hx
    · intro s; simp [init]
    · intro m
      rw [List.Perm.sum_eq ((hperm.append_right ([] ++ [])).map _)]
      simp only [List.append_nil, List.map_cons, List.map_nil, List.sum_cons, List.sum_nil, add_zero]
      show _ = comp back g ⟨some s0, ([], [], 1), 0, 0⟩ m
      unfold comp
      simp only [Nat.zero_le, if_true, Nat.sub_zero]
      rw [accPaths_some hs]
      refine Multiset.map_congr rfl fun q _ => ?_
      simp [PathT.cat, PathT.rev]

end NSp
end
end Verif
