import Verif.Lemmas.NspOrder
import Verif.Lemmas.Truthful

/-! # The states that the search for the `n` shortest paths adds -/

namespace Verif
universe u v
set_option linter.unusedSectionVars false
open Fst

/-- What a state of the output stands for: the state of the reversed FST (`none` for a complete path), the path from there to the end,
its number of transitions, and the state added before. -/
structure GNode (W : Type u) where
  st : Option StateId
  path : PathT W
  dep : Nat
  par : Nat

section
variable {W : Type u} {V : Type v} [CommSemiring W] [DecidableEq W] [Monoid V]

def GNode.pair (x : GNode W) : Option StateId × W := (x.st, x.path.2.2)

/-- The transition and the meaning of a new state that leads to `a`. -/
def mkKid (a : Nat) (x : GNode W) (st : Option StateId) (i o : Label) (w : W) : Tr W × GNode W :=
  (⟨i, o, w, a⟩, ⟨st, (Tr.asPath ⟨i, o, w, a⟩).cat x.path, x.dep + 1, a⟩)

/-- The states added for `a`, which stands for the state `s` of `g`. -/
def kids (back : V → W) (g : Fst V) (a : Nat) (x : GNode W) (s : StateId) : List (Tr W × GNode W) :=
  (g.trsOf s).map (fun t => mkKid a x (some t.nextstate) t.ilabel t.olabel (back t.weight)) ++
    (g.finOf s).toList.map (fun v => mkKid a x none EPS EPS (back v))

/-- All the paths that end with the path of `x`, and have `m` transitions apart from the last. -/
def comp (back : V → W) (g : Fst V) (x : GNode W) (m : Nat) : Multiset (PathT W) :=
  match x.st with
  | none => if x.dep = m + 1 then {x.path} else 0
  | some s => if x.dep ≤ m then (g.pathsFrom (m - x.dep) s).map (fun q => (q.rev back).cat x.path) else 0

theorem rev_asPath (back : V → W) (t : Tr V) (a : Nat) : t.asPath.rev back = Tr.asPath ⟨t.ilabel, t.olabel, back t.weight, a⟩ := by
  have : ∀ l : Label, (strip l).reverse = strip l := by intro l; unfold strip; split <;> rfl
  simp [Tr.asPath, PathT.rev, this]

theorem comp_kids {back : V → W} (hm : ∀ a b, back (a * b) = back b * back a) (g : Fst V) (a : Nat) {x : GNode W} {s : StateId}
    (hs : x.st = some s) (m : Nat) : comp back g x m = ((kids back g a x s).map (fun k => comp back g k.2 m)).sum := by
  unfold comp kids
  rw [hs]
  simp only [List.map_append, List.sum_append, List.map_map, Function.comp_def]
  by_cases h : x.dep ≤ m
  · rw [if_pos h]
    obtain ⟨j, rfl⟩ : ∃ j, m = x.dep + j := ⟨m - x.dep, by omega⟩
    rw [Nat.add_sub_cancel_left]
    cases j with
    | zero =>
      have h1 : ((g.trsOf s).map fun t => (if x.dep + 1 ≤ x.dep + 0 then Multiset.map (fun q => (PathT.rev back q).cat
          ((Tr.asPath ⟨t.ilabel, t.olabel, back t.weight, a⟩).cat x.path)) (g.pathsFrom (x.dep + 0 - (x.dep + 1)) t.nextstate)
          else 0 : Multiset (PathT W))).sum = 0 := by
        refine List.sum_eq_zero fun c hc => ?_
        obtain ⟨t, -, rfl⟩ := List.mem_map.1 hc
        rw [if_neg (by omega)]
      rw [show (((g.trsOf s).map fun t => match (mkKid a x (some t.nextstate) t.ilabel t.olabel (back t.weight)).2.st with
        | none => if (mkKid a x (some t.nextstate) t.ilabel t.olabel (back t.weight)).2.dep = x.dep + 0 + 1 then {(mkKid a x (some t.nextstate) t.ilabel t.olabel (back t.weight)).2.path} else 0
        | some s => if (mkKid a x (some t.nextstate) t.ilabel t.olabel (back t.weight)).2.dep ≤ x.dep + 0 then
          Multiset.map (fun q => (PathT.rev back q).cat (mkKid a x (some t.nextstate) t.ilabel t.olabel (back t.weight)).2.path)
            (g.pathsFrom (x.dep + 0 - (mkKid a x (some t.nextstate) t.ilabel t.olabel (back t.weight)).2.dep) s) else 0).sum
          : Multiset (PathT W)) = 0 from h1, zero_add, pathsFrom_zero]
      cases g.finOf s with
      | none => simp
      | some v => simp [mkKid, PathT.rev, PathT.cat, Tr.asPath]
    | succ j =>
      have h2 : (((g.finOf s).toList.map fun v => (if x.dep + 1 = x.dep + (j + 1) + 1 then
          {(Tr.asPath ⟨EPS, EPS, back v, a⟩).cat x.path} else 0 : Multiset (PathT W))).sum) = 0 := by
        refine List.sum_eq_zero fun c hc => ?_
        obtain ⟨t, -, rfl⟩ := List.mem_map.1 hc
        rw [if_neg (by omega)]
      rw [show ((((g.finOf s).toList.map fun v => match (mkKid a x none EPS EPS (back v)).2.st with
        | none => if (mkKid a x none EPS EPS (back v)).2.dep = x.dep + (j + 1) + 1 then {(mkKid a x none EPS EPS (back v)).2.path} else 0
        | some s => if (mkKid a x none EPS EPS (back v)).2.dep ≤ x.dep + (j + 1) then
          Multiset.map (fun q => (PathT.rev back q).cat (mkKid a x none EPS EPS (back v)).2.path)
            (g.pathsFrom (x.dep + (j + 1) - (mkKid a x none EPS EPS (back v)).2.dep) s) else 0).sum)
          : Multiset (PathT W)) = 0 from h2, add_zero, pathsFrom_succ]
      have h3 : ∀ t : Tr V, (match (mkKid a x (some t.nextstate) t.ilabel t.olabel (back t.weight)).2.st with
        | none => if (mkKid a x (some t.nextstate) t.ilabel t.olabel (back t.weight)).2.dep = x.dep + (j + 1) + 1 then {(mkKid a x (some t.nextstate) t.ilabel t.olabel (back t.weight)).2.path} else 0
        | some s => if (mkKid a x (some t.nextstate) t.ilabel t.olabel (back t.weight)).2.dep ≤ x.dep + (j + 1) then
          Multiset.map (fun q => (PathT.rev back q).cat (mkKid a x (some t.nextstate) t.ilabel t.olabel (back t.weight)).2.path)
            (g.pathsFrom (x.dep + (j + 1) - (mkKid a x (some t.nextstate) t.ilabel t.olabel (back t.weight)).2.dep) s) else 0
          : Multiset (PathT W)) = (g.pathsFrom j t.nextstate).map (fun q => (PathT.rev back (t.asPath.cat q)).cat x.path) := by
        intro t
        show (if x.dep + 1 ≤ x.dep + (j + 1) then Multiset.map (fun q => (PathT.rev back q).cat
          ((Tr.asPath ⟨t.ilabel, t.olabel, back t.weight, a⟩).cat x.path)) (g.pathsFrom (x.dep + (j + 1) - (x.dep + 1)) t.nextstate)
          else 0 : Multiset (PathT W)) = _
        rw [if_pos (by omega), show x.dep + (j + 1) - (x.dep + 1) = j by omega]
        refine Multiset.map_congr rfl fun q _ => ?_
        rw [PathT.rev_cat back hm, rev_asPath back t a, PathT.cat_assoc]
      rw [List.map_congr_left (fun t _ => h3 t), Multiset.map_bind, Multiset.bind, Multiset.join, Multiset.map_coe, Multiset.sum_coe]
      simp only [Multiset.map_map, Function.comp_def]
  · rw [if_neg h]
    symm
    rw [List.sum_eq_zero, List.sum_eq_zero, add_zero]
    · intro c hc
      obtain ⟨t, -, rfl⟩ := List.mem_map.1 hc
      show (if x.dep + 1 = m + 1 then _ else _) = _
      rw [if_neg (by omega)]
    · intro c hc
      obtain ⟨t, -, rfl⟩ := List.mem_map.1 hc
      show (if x.dep + 1 ≤ m then _ else _) = _
      rw [if_neg (by omega)]

namespace NSp
variable {eqv : W → W → Bool} {dist : List W}

/-- Adding a list of states. -/
def growKids (eqv : W → W → Bool) (dist : List W) (st : NSp W) (l : List (Tr W × GNode W)) : NSp W :=
  l.foldl (fun st k => st.grow eqv dist k.2.pair k.1.ilabel k.1.olabel k.1.weight k.1.nextstate) st

theorem growKids_eq {back : V → W} {g : Fst V} {s : StateId} (hf : ∀ v, g.finOf s = some v → back v ≠ 0) (a : Nat) (x : GNode W)
    (st : NSp W) : growFinal eqv dist back a x.path.2.2 (growAll eqv dist back a x.path.2.2 st (g.trsOf s)) (g.finOf s) =
      growKids eqv dist st (kids back g a x s) := by
  unfold growKids kids
  rw [List.foldl_append, List.foldl_map (l := g.trsOf s)]
  have h1 : growAll eqv dist back a x.path.2.2 st (g.trsOf s) = (g.trsOf s).foldl (fun st t =>
      st.grow eqv dist (mkKid a x (some t.nextstate) t.ilabel t.olabel (back t.weight)).2.pair t.ilabel t.olabel (back t.weight) a) st := by
    unfold growAll
    congr 1
    funext st t
    simp only [mkKid, GNode.pair, PathT.cat, Tr.asPath, mul_comm]
  rw [h1]
  cases hv : g.finOf s with
  | none => rfl
  | some v =>
    simp only [growFinal, if_pos (hf v hv), Option.toList, List.map_cons, List.map_nil, List.foldl_cons, List.foldl_nil]
    simp only [mkKid, GNode.pair, PathT.cat, Tr.asPath, mul_comm]

/-- The result of adding the states. -/
structure Grown (eqv : W → W → Bool) (dist : List W) (nodes : List (GNode W)) (st : NSp W) (l : List (Tr W × GNode W)) (st' : NSp W) :
    Prop where
  pairs : st'.pairs = (nodes ++ l.map (·.2)).map GNode.pair
  num : st'.ofst.numStates = nodes.length + l.length
  perm : st'.heap.Perm (st.heap ++ List.range' nodes.length l.length)
  heap : Heap.IsHeap (compare eqv dist st'.pairs) st'.heap
  r : st'.r = st.r
  start : st'.ofst.start = st.ofst.start
  fin : ∀ q, st'.ofst.finOf q = st.ofst.finOf q
  old : ∀ q, q < nodes.length → st'.ofst.trsOf q = st.ofst.trsOf q
  new : ∀ i k, l[i]? = some k → st'.ofst.trsOf (nodes.length + i) = [k.1]
  truthful : st'.ofst.Truthful

theorem growKids_spec (h : PathWeights W) (he : ∀ a b, eqv a b = true ↔ b = a) :
    ∀ (l : List (Tr W × GNode W)) (nodes : List (GNode W)) (st : NSp W), st.pairs = nodes.map GNode.pair →
      st.ofst.numStates = nodes.length → (∀ x ∈ st.heap, x < nodes.length) → Heap.IsHeap (compare eqv dist st.pairs) st.heap →
      st.ofst.Truthful → Grown eqv dist nodes st l (growKids eqv dist st l)
  | [], nodes, st, hp, hn, hlt, hh, ht => by
    refine ⟨by simpa [growKids] using hp, by simpa [growKids] using hn, by simp [growKids], hh, rfl, rfl, fun _ => rfl, fun _ _ => rfl,
      fun i k hk => by simp at hk, ht⟩
  | k :: l, nodes, st, hp, hn, hlt, hh, ht => by
    set st1 := st.grow eqv dist k.2.pair k.1.ilabel k.1.olabel k.1.weight k.1.nextstate with hst1
    have hp1 : st1.pairs = (nodes ++ [k.2]).map GNode.pair := by
      rw [List.map_append, ← hp]; rfl
    have hperm1 : st1.heap.Perm (st.heap ++ [nodes.length]) := by
      rw [hst1, ← hn]
      exact (Heap.push_perm _ _).trans (List.perm_append_comm (l₁ := [_]) (l₂ := st.heap))
    have htr1 : ∀ q, st1.ofst.trsOf q = if q = nodes.length then [k.1] else st.ofst.trsOf q := by
      intro q
      show (st.ofst.addState.addTr st.ofst.numStates _).trsOf q = _
      rw [addTr_trsOf, hn]
      by_cases hq : q = nodes.length
      · rw [if_pos ⟨hq, by simp [hn]⟩, if_pos hq, addState_trsOf, trsOf_of_ge (by omega)]
        rfl
      · rw [if_neg (fun hc => hq hc.1), if_neg hq, addState_trsOf]
    have ih := growKids_spec h he l (nodes ++ [k.2]) st1 hp1
      (by show (st.ofst.addState.addTr st.ofst.numStates _).numStates = _
          rw [addTr_numStates, addState_numStates]; simp [hn])
      (by intro x hx
          rcases List.mem_append.1 (hperm1.mem_iff.1 hx) with hx | hx
          · have := hlt x hx; simp; omega
          · have := List.mem_singleton.1 hx; simp; omega)
      (by show Heap.IsHeap (compare eqv dist (st.pairs ++ [k.2.pair])) (Heap.push _ _ _)
          refine Heap.push_heap (compare_weak h he _) ?_ _
          exact isHeap_append (fun x hx => by rw [hp]; simpa using hlt x hx) hh)
      (by show (st.ofst.addState.addTr st.ofst.numStates _).Truthful
          exact truthful_addTr (truthful_addStates ht 1) (by simp) _)
    have e : growKids eqv dist st (k :: l) = growKids eqv dist st1 l := rfl
    rw [e]
    refine ⟨by rw [ih.pairs]; simp, by rw [ih.num]; simp; omega, ?_, ih.heap, ih.r, ih.start, ?_, ?_, ?_, ih.truthful⟩
    · refine ih.perm.trans ?_
      rw [List.length_append, List.length_singleton, List.length_cons (as := l), List.range'_succ]
      refine (hperm1.append_right _).trans ?_
      simp
    · intro q
      rw [ih.fin]
      show (st.ofst.addState.addTr st.ofst.numStates _).finOf q = _
      rw [addTr_finOf, addState_finOf]
    · intro q hq
      rw [ih.old q (by simp; omega), htr1, if_neg (by omega)]
    · intro i kk hi
      cases i with
      | zero =>
        simp only [List.getElem?_cons_zero, Option.some.injEq] at hi
        subst hi
        rw [Nat.add_zero, ih.old _ (by simp), htr1, if_pos rfl]
      | succ i =>
        rw [List.getElem?_cons_succ] at hi
        have := ih.new i kk hi
        rw [List.length_append, List.length_singleton] at this
        rw [← this]
        congr 1
        omega

end NSp
end
end Verif
