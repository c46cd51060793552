import Verif.Lemmas.NspLoop
import Verif.Spec.NBest
import Verif.Spec.Reweight
import Verif.Props.C34
import Verif.Props.C18

/-!
# C63: `shortest_path` with `n > 1`

The weights commute, of two weights one is the sum (`PathWeights`), and the weights of the FST can be cancelled (`Cancels`): the tropical
weights other than minus infinity. `rev` and `back` are `reverse` and `reverse_back`. `eqv` is exact equality.
-/

namespace Verif
universe u v
set_option linter.unusedSectionVars false
open Fst NSp

section
variable {W : Type u} {V : Type v} [CommSemiring W] [DecidableEq W] [Monoid V]

/-- The result of the search on any FST `g`, read backwards. -/
theorem nShortest_spec {sf : SemiringFlags} (hsf : sf.path = true ∧ sf.left = true ∧ sf.right = true) (h : PathWeights W)
    {eqv : W → W → Bool} (he : ∀ a b, eqv a b = true ↔ b = a) {back : V → W} (hm : ∀ a b, back (a * b) = back b * back a) {g : Fst V}
    {dist : List W} (hpot : Potential dist back g) (hcan : ∀ s, Cancels (pweight dist (some s))) (hw : g.WF) (hf : ∀ s v, g.finOf s = some v → back v ≠ 0) {n : Nat} (hn : n ≠ 0)
    {s0 : StateId} (hs : g.start = some s0) {d : W} (hd : dist[s0]? = some d) (hd0 : d ≠ 0) :
    ∃ F, EndsWith (g.nShortest sf eqv back dist n) (.ok F) ∧ F.WF ∧ F.Truthful ∧
      ∃ (paths : List (Nat × PathT W)) (others : Nat → Multiset (PathT W)),
        (∀ m, F.accPaths (m + 2) = ((paths.filter (fun p => p.1 = m)).map (fun p => p.2) : List (PathT W))) ∧
        F.accPaths 0 = 0 ∧ F.accPaths 1 = 0 ∧ (∀ m, (g.accPaths m).map (PathT.rev back) = F.accPaths (m + 2) + others m) ∧
        (∀ p ∈ paths, ∀ m, ∀ q ∈ others m, p.2.2.2 + q.2.2 = p.2.2.2) ∧ paths.length ≤ n ∧
        (paths.length < n → ∀ m, others m = 0) := by
  obtain ⟨st, nodes, E, D, C, h1, I, h2⟩ := loop_spec h he hm hpot hw hf _ _ _ _ _ _ (init_inv (n := n) (dist := dist) (back := back) h he hw hs)
    (by simpa using Nat.pos_of_ne_zero hn) (Nat.lt_succ_self _)
  have hCm : ∀ c ∈ C, 1 ≤ c ∧ c < nodes.length := fun c hc => I.search.mem_lt (by simp [hc])
  have hCk : ∀ c ∈ C, 1 ≤ c ∧ ∃ x : GNode W, nodes[c]? = some x ∧ x.st = none := fun c hc => ⟨(hCm c hc).1, I.search.kC c hc⟩
  have how : st.ofst.WF := I.tree.wf I.search.two (fun c hc => (hCm c hc).2)
  obtain ⟨o, ds, ho, -⟩ := C18_connect st.ofst how
  obtain ⟨ow, -⟩ := C18_wf _ _ ho
  have oacc := C18_paths _ _ how ho
  have otr := C18_flags _ _ how I.tree.truthful ho
  have ouse := C18_trim _ _ how ho
  have oac : o.Holds .acyclic := by
    obtain ⟨ds, h', hh, rfl⟩ := connect_delStates ho
    have : h'.Holds .acyclic := (sub_delStates hh).holds .acyclic (by decide) (fun ⟨s, hs⟩ => I.tree.acyclic (fun c hc => (hCm c hc).1) s hs)
    exact this
  have oac' : ∀ s, ¬ o.OnCycle s := fun s hs => oac ⟨s, hs⟩
  have hTruth : (o.setPropsMask (nspProps o.props) Props.allMask).Truthful := by
    intro b hb
    rw [setPropsMask_all] at hb
    refine (holds_congr (f := o) (g := o.setPropsMask (nspProps o.props) Props.allMask) rfl rfl (fun _ => rfl) (fun _ => rfl) b).2 ?_
    simp only [nspProps, spProps, Props.or_apply, Bool.or_eq_true] at hb
    rcases hb with (hb | hb) | hb
    · exact otr b hb
    · cases b <;> first
        | (simp [Props.of_apply] at hb; done)
        | exact oac
        | exact fun ⟨s, _, hs⟩ => oac' s hs
        | exact fun s hs => (ouse s hs).1
        | (rintro ⟨s, t, ht, -, hr⟩
           exact oac' s (Relation.TransGen.head' ⟨t, ht, rfl⟩ hr))
    · cases b <;> first
        | (simp [Props.of_apply] at hb; done)
        | exact fun s hs => (ouse s hs).2
  obtain ⟨a0, a1, a2⟩ := I.tree.acc back g hCk
  have Facc : ∀ m, (o.setPropsMask (nspProps o.props) Props.allMask).accPaths m = st.ofst.accPaths m := by
    intro m
    rw [← oacc]
    exact accPaths_congr (f := o) (g := o.setPropsMask (nspProps o.props) Props.allMask) rfl (fun _ => rfl) (fun _ => rfl) m
  have hres := fun m => I.search.result h hm hpot hcan m
  choose others ho1 ho2 using hres
  -- the list of the complete paths
  let info : Nat → Nat × PathT W := fun c => ((nodes[c]?.map (·.dep)).getD 0 - 1, (nodes[c]?.map (·.path)).getD ([], [], 0))
  have hinfo : ∀ c ∈ C, ∃ x : GNode W, nodes[c]? = some x ∧ x.st = none ∧ x.dep ≠ 0 ∧ info c = (x.dep - 1, x.path) := by
    intro c hc
    obtain ⟨h1', x, hx, hxs⟩ := hCk c hc
    have h2' : 2 ≤ c := by
      rcases Nat.lt_or_ge c 2 with h2' | h2'
      · obtain rfl : c = 1 := by omega
        obtain ⟨z, hz, -, -, hzs⟩ := I.tree.root
        rw [hx] at hz; cases hz
        exact absurd hxs hzs
      · exact h2'
    obtain ⟨t, y, -, -, -, -, -, hdep, -⟩ := I.tree.up c x h2' hx
    exact ⟨x, hx, hxs, by omega, by simp [info, hx]⟩
  refine ⟨o.setPropsMask (nspProps o.props) Props.allMask, ⟨(turns g n (init eqv dist s0)).succ, fun fuel hfu => ?_⟩, ⟨ow.start_lt, ow.next_lt⟩, hTruth, C.map info, others, fun m => ?_, by rw [Facc, a0],
    by rw [Facc, a1], fun m => ?_, ?_, by rw [List.length_map]; exact I.search.hC, ?_⟩
  · unfold nShortest
    rw [if_neg hn, if_neg (by simp [hsf]), hs]
    simp only [hd]
    rw [if_neg hd0, mul_zero, h1 fuel hfu]
    simp only [ho]
  · rw [Facc, a2]
    have : ∀ l : List Nat, (∀ c ∈ l, c ∈ C) → (l.map (compAt back g nodes m)).sum =
        ((((l.map info).filter (fun p => p.1 = m)).map (fun p => p.2) : List (PathT W)) : Multiset (PathT W)) := by
      intro l
      induction l with
      | nil => intro _; rfl
      | cons c l ih =>
        intro hl
        obtain ⟨x, hx, hxs, hd, hi⟩ := hinfo c (hl c List.mem_cons_self)
        rw [List.map_cons, List.sum_cons, ih (fun c hc => hl c (List.mem_cons_of_mem _ hc)), List.map_cons, hi]
        have hcomp : compAt back g nodes m c = if x.dep = m + 1 then {x.path} else 0 := by
          unfold compAt
          rw [hx]
          show comp back g x m = _
          unfold comp
          rw [hxs]
        rw [hcomp]
        by_cases hm' : x.dep = m + 1
        · rw [if_pos hm', List.filter_cons_of_pos (by simp; omega), List.map_cons, ← Multiset.cons_coe, Multiset.singleton_add]
        · rw [if_neg hm', List.filter_cons_of_neg (by simp; omega), zero_add]
    exact this C (fun c hc => hc)
  · rw [Facc, a2]; exact ho1 m
  · intro p hp m q hq
    obtain ⟨c, hc, rfl⟩ := List.mem_map.1 hp
    obtain ⟨x, hx, -, -, hi⟩ := hinfo c hc
    rw [hi]
    exact (ho2 m q hq).1 c hc x hx
  · intro hlt m
    rw [List.length_map] at hlt
    refine Multiset.eq_zero_of_forall_notMem fun q hq => ?_
    rcases h2 with h2 | h2
    · have := (ho2 m q hq).2 h2; omega
    · omega

end

section distances
variable {W : Type u} {V : Type v} [CommSemiring W] [DecidableEq W]

theorem best_sum_of_mem (h : PathWeights W) {M : Multiset W} {x : W} (hx : x ∈ M) : Best M.sum x := by
  obtain ⟨N, rfl⟩ := Multiset.exists_cons_of_mem hx
  rw [Multiset.sum_cons]
  unfold Best
  rw [add_comm, ← add_assoc, Best.refl h x]

theorem best_of_all {s : W} (hs : Best s 0) {M : Multiset W} (hM : ∀ x ∈ M, Best s x) : Best s M.sum := by
  induction M using Multiset.induction_on with
  | empty => simpa using hs
  | cons a M ih =>
    rw [Multiset.sum_cons]
    have h1 := ih (fun x hx => hM x (Multiset.mem_cons_of_mem hx))
    have h2 := hM a (Multiset.mem_cons_self a M)
    unfold Best at *
    rw [← add_assoc, h2, h1]

theorem best_walk (h : PathWeights W) {f : Fst W} {i q : StateId} {d : W} (hd : f.IsDistance (fun _ => true) i q d) {k : Nat} {c : W}
    (hc : (q, c) ∈ f.walks (fun _ => true) k i) : Best d c := by
  obtain ⟨N, hN⟩ := hd
  rw [← hN (N + k + 1) (by omega), Finset.sum]
  refine Best.trans (best_sum_of_mem h (Multiset.mem_map.2 ⟨k, by simp; omega, rfl⟩)) ?_
  exact best_sum_of_mem h (Multiset.mem_map.2 ⟨(q, c), Multiset.mem_filter.2 ⟨hc, rfl⟩, rfl⟩)

/-- A transition never leads to something better than the distance says. -/
theorem best_step (h : PathWeights W) {f : Fst W} {i p : StateId} {dp dq : W} (hp : f.IsDistance (fun _ => true) i p dp) {t : Tr W}
    (ht : t ∈ f.trsOf p) (hq : f.IsDistance (fun _ => true) i t.nextstate dq) : Best dq (t.weight * dp) := by
  obtain ⟨N, hN⟩ := hp
  rw [← hN N le_rfl, Finset.sum, ← Multiset.sum_map_mul_left]
  refine best_of_all (Best.zero _) fun x hx => ?_
  obtain ⟨k, -, rfl⟩ := Multiset.mem_map.1 hx
  show Best dq (t.weight * f.walkSum (fun _ => true) k i p)
  unfold walkSum
  rw [← Multiset.sum_map_mul_left]
  refine best_of_all (Best.zero _) fun x hx => ?_
  obtain ⟨⟨p', c⟩, hc, rfl⟩ := Multiset.mem_map.1 hx
  obtain ⟨hc1, he⟩ := Multiset.mem_filter.1 hc
  have he : p' = p := he
  subst he
  rw [mul_comm]
  exact best_walk h hq (walks_snoc hc1 ht rfl)

theorem Cancels.zero : Cancels (0 : W) := .inl rfl
theorem Cancels.one : Cancels (1 : W) := .inr fun a b h => by simpa using h
theorem Cancels.mul {a b : W} (ha : Cancels a) (hb : Cancels b) : Cancels (a * b) := by
  rcases ha with rfl | ha
  · exact .inl (zero_mul _)
  · rcases hb with rfl | hb
    · exact .inl (mul_zero _)
    · exact .inr fun x y h => hb _ _ (ha _ _ (by rwa [mul_assoc, mul_assoc] at h))
theorem Cancels.add (h : PathWeights W) {a b : W} (ha : Cancels a) (hb : Cancels b) : Cancels (a + b) := by
  rcases h.path a b with e | e <;> rw [e] <;> assumption
theorem Cancels.sum (h : PathWeights W) {M : Multiset W} (hM : ∀ x ∈ M, Cancels x) : Cancels M.sum := by
  induction M using Multiset.induction_on with
  | empty => exact Cancels.zero
  | cons a M ih =>
    rw [Multiset.sum_cons]
    exact (hM a (Multiset.mem_cons_self a M)).add h (ih fun x hx => hM x (Multiset.mem_cons_of_mem hx))

theorem cancels_walk {f : Fst W} (hf : f.WeightsIn Cancels) {k : Nat} {i q : StateId} {c : W}
    (hc : (q, c) ∈ f.walks (fun _ => true) k i) : Cancels c := by
  induction k generalizing i c with
  | zero => rw [((f.mem_walks_zero _).1 hc).2]; exact Cancels.one
  | succ k ih =>
    obtain ⟨t, ht, -, v, hv, rfl⟩ := (f.mem_walks_succ _).1 hc
    exact (hf.1 _ t ht).mul (ih hv)

theorem cancels_distance (h : PathWeights W) {f : Fst W} (hf : f.WeightsIn Cancels) {i q : StateId} {d : W}
    (hd : f.IsDistance (fun _ => true) i q d) : Cancels d := by
  obtain ⟨N, hN⟩ := hd
  rw [← hN N le_rfl, Finset.sum]
  refine Cancels.sum h fun x hx => ?_
  obtain ⟨k, -, rfl⟩ := Multiset.mem_map.1 hx
  refine Cancels.sum h fun x hx => ?_
  obtain ⟨⟨q', c⟩, hc, rfl⟩ := Multiset.mem_map.1 hx
  exact cancels_walk hf (Multiset.mem_filter.1 hc).1

end distances

section
variable {W : Type u} {V : Type v} [CommSemiring W] [DecidableEq W] [Monoid V] [Zero V] [DecidableEq V]

theorem superDist_best (h : PathWeights W) (back : V → W) (dist : List W) : ∀ (l : List (Tr V)) (a : W),
    let d := l.foldl (fun d t => match dist[t.nextstate - 1]? with
      | none => d
      | some x => d + back t.weight * x) a
    Best d a ∧ ∀ t ∈ l, Best d (back t.weight * (dist[t.nextstate - 1]?).getD 0)
  | [], a => ⟨Best.refl h a, by simp⟩
  | t :: l, a => by
    simp only [List.foldl_cons]
    cases hx : dist[t.nextstate - 1]? with
    | none =>
      obtain ⟨h1, h2⟩ := superDist_best h back dist l a
      refine ⟨h1, fun t' ht' => ?_⟩
      rcases List.mem_cons.1 ht' with rfl | ht'
      · rw [hx]; simp only [Option.getD_none, mul_zero]; exact Best.zero _
      · exact h2 t' ht'
    | some x =>
      obtain ⟨h1, h2⟩ := superDist_best h back dist l (a + back t.weight * x)
      refine ⟨h1.trans ?_, fun t' ht' => ?_⟩
      · unfold Best
        rw [add_right_comm, Best.refl h a]
      · rcases List.mem_cons.1 ht' with rfl | ht'
        · rw [hx]
          refine h1.trans ?_
          show a + back t'.weight * x + back t'.weight * x = _
          rw [add_assoc, Best.refl h (back t'.weight * x)]
        · exact h2 t' ht'

theorem superDist_cancels (h : PathWeights W) (back : V → W) {dist : List W} (hd : ∀ x ∈ dist, Cancels x) : ∀ (l : List (Tr V)) (a : W),
    (∀ t ∈ l, Cancels (back t.weight)) → Cancels a → Cancels (l.foldl (fun d t => match dist[t.nextstate - 1]? with
      | none => d
      | some x => d + back t.weight * x) a)
  | [], a, _, ha => ha
  | t :: l, a, hl, ha => by
    simp only [List.foldl_cons]
    refine superDist_cancels h back hd l _ (fun t ht => hl t (List.mem_cons_of_mem _ ht)) ?_
    cases hx : dist[t.nextstate - 1]? with
    | none => exact ha
    | some x => exact ha.add h ((hl t List.mem_cons_self).mul (hd x (List.mem_of_getElem? hx)))

/-- The distances from the start bound the weights of the reversed FST. -/
theorem reverse_potential (h : PathWeights W) {rev : W → V} {back : V → W} (hback : ∀ a, back (rev a) = a) (hr1 : rev 1 = 1) {f : Fst W}
    (hw : f.WF) {i : StateId} (hi : f.start = some i) (hcan : f.WeightsIn Cancels) {dist : List W}
    (hvec : DistanceVector f (fun _ => true) i dist) {g : Fst V} (hg : f.reverse rev = .ok g) :
    Potential (superDist back g dist :: dist) back g ∧ ∀ s, Cancels (pweight (superDist back g dist :: dist) (some s)) := by
  obtain ⟨g', hg', gn, gs, g0, gt, gf0, gf, -⟩ := reverse_spec rev f hw.next_lt
  rw [hg] at hg'; cases hg'
  have hpw : ∀ q, pweight (superDist back g dist :: dist) (some (q + 1)) = (dist[q]?).getD 0 := fun q => rfl
  have hpw0 : pweight (superDist back g dist :: dist) (some 0) = superDist back g dist := rfl
  have hsuper := superDist_best h back dist (g.trsOf 0) 0
  have hpot : Potential (superDist back g dist :: dist) back g := by
    refine ⟨fun s t htr => ?_, fun s v hv => ?_⟩
    · have hs := lt_of_mem_trsOf htr
      rw [gn] at hs
      cases s with
      | zero =>
        have h1 := hsuper.2 t htr
        rw [g0] at htr
        obtain ⟨q, -, hq⟩ := List.mem_flatMap.1 htr
        cases hfq : f.finOf q with
        | none => rw [hfq] at hq; cases hq
        | some w =>
          rw [hfq] at hq
          obtain rfl := List.mem_singleton.1 hq
          exact h1
      | succ q =>
        rw [gt q (by omega)] at htr
        obtain ⟨p, -, hp⟩ := List.mem_flatMap.1 htr
        obtain ⟨t', ht', rfl⟩ := List.mem_map.1 hp
        obtain ⟨ht', hq⟩ := List.mem_filter.1 ht'
        have hq : t'.nextstate = q := by simpa using hq
        show Best (pweight _ (some (q + 1))) (back (rev t'.weight) * pweight _ (some (p + 1)))
        rw [hback, hpw, hpw, ← hq]
        exact best_step h (hvec p) ht' (hvec t'.nextstate)
    · have hs := lt_of_finOf hv
      rw [gn] at hs
      cases s with
      | zero => rw [gf0] at hv; cases hv
      | succ q =>
        rw [gf q (by omega)] at hv
        by_cases hq : f.start = some q
        · rw [if_pos hq] at hv; cases hv
          rw [hi] at hq; cases hq
          rw [hpw, ← hr1, hback]
          exact best_walk h (hvec i) ((f.mem_walks_zero _).2 ⟨rfl, rfl⟩)
        · rw [if_neg hq] at hv; cases hv
  have hcan' : ∀ s, Cancels (pweight (superDist back g dist :: dist) (some s)) := by
    have hd : ∀ x ∈ dist, Cancels x := by
      intro x hx
      obtain ⟨k, hk⟩ := List.getElem?_of_mem hx
      have := cancels_distance h hcan (hvec k)
      rwa [hk] at this
    intro s
    cases s with
    | zero =>
      rw [hpw0]
      refine superDist_cancels h back hd _ _ (fun t htr => ?_) Cancels.zero
      rw [g0] at htr
      obtain ⟨q, -, hq⟩ := List.mem_flatMap.1 htr
      cases hfq : f.finOf q with
      | none => rw [hfq] at hq; cases hq
      | some w =>
        rw [hfq] at hq
        obtain rfl := List.mem_singleton.1 hq
        show Cancels (back (rev w))
        rw [hback]
        exact hcan.2 q w hfq
    | succ q =>
      rw [hpw]
      cases hk : dist[q]? with
      | none => exact Cancels.zero
      | some x => exact hd x (List.mem_of_getElem? hk)
  exact ⟨hpot, hcan'⟩

/-- C63: for `n > 1` the result consists of the `n` best paths, each with three more ε-transitions. When no path has a weight different
from zero, the result is empty. -/
theorem C63_n_shortest {sf : SemiringFlags} (hsf : sf.path = true ∧ sf.left = true ∧ sf.right = true) (h : PathWeights W)
    {eqv : W → W → Bool} (he : ∀ a b, eqv a b = true ↔ b = a) {rev : W → V} {back : V → W} (hback : ∀ a, back (rev a) = a)
    (hr1 : rev 1 = 1) (hrm : ∀ a b, rev (a * b) = rev b * rev a) (hbm : ∀ a b, back (a * b) = back b * back a)
    {f : Fst W} (hw : f.WF) (ht : f.Truthful) (hcyc : f.CyclesAbsorbed (fun _ => true)) (hcan : f.WeightsIn Cancels) {n : Nat} (hn : 2 ≤ n) :
    ∃ F, EndsWith (f.shortestPaths sf eqv rev back n) (.ok F) ∧ F.WF ∧ F.Truthful ∧
      ((F.numStates = 0 ∧ ∀ m, ∀ p ∈ f.accPaths m, p.2.2 = 0) ∨ IsNBest n 3 f F) := by
  have hid : ∀ a : W, a + a = a := fun a => Best.refl h a
  have hnew : (Fst.new : Fst W).WF := ⟨fun i hi => (nomatch hi), fun s t ht => absurd ht (by simp)⟩
  obtain ⟨g, hg, gn, gs, g0, gt, gf0, gf, -⟩ := reverse_spec rev f hw.next_lt
  obtain ⟨g', hg', gacc⟩ := C17_paths rev hrm hr1 f hw
  rw [hg] at hg'; cases hg'
  obtain ⟨g', hg', gw, -, -⟩ := C17_structure rev f hw
  rw [hg] at hg'; cases hg'
  -- what the program does once the distances are known
  have run : ∀ dist, EndsWith (f.shortestDistance sf eqv) (.ok dist) → ∀ F, EndsWith (g.nShortest sf eqv back (superDist back g dist :: dist) n) (.ok F) →
      EndsWith (f.shortestPaths sf eqv rev back n) (.ok F) := by
    rintro dist ⟨N1, h1⟩ F ⟨N2, h2⟩
    refine ⟨max N1 N2, fun k hk => ?_⟩
    unfold shortestPaths
    rw [if_neg (by omega), if_neg (by omega), if_neg (by simp [hsf]), h1 k (by omega)]
    simp only [hg]
    exact h2 k (by omega)
  have stop : ∀ dist : List W, superDist back g dist = 0 → EndsWith (g.nShortest sf eqv back (superDist back g dist :: dist) n) (.ok Fst.new) := by
    intro dist h0
    refine ⟨0, fun k _ => ?_⟩
    unfold nShortest
    rw [if_neg (by omega), if_neg (by simp [hsf]), gs]
    simp [h0]
  cases hi : f.start with
  | none =>
    refine ⟨Fst.new, run [] ⟨0, fun k _ => (C32_refused hw ht k).1 hi⟩ _ (stop [] ?_), hnew, truthful_new, .inl ⟨rfl, fun m p hp => ?_⟩⟩
    · unfold superDist
      have : ∀ (l : List (Tr V)) (a : W), l.foldl (fun d t => match ([] : List W)[t.nextstate - 1]? with
          | none => d
          | some x => d + back t.weight * x) a = a := by
        intro l
        induction l with
        | nil => intro a; rfl
        | cons t l ih => intro a; simp [ih]
      exact this _ _
    · rw [accPaths_none hi] at hp; simp at hp
  | some i =>
    obtain ⟨dist, hd, hvec⟩ := C32_shortest_distance (sf := sf) (eqv := eqv) (fun a => zero_mul a) he hsf.2.2 (fun _ => hid) hw ht hi
      (.inr ⟨hid, hcyc⟩)
    obtain ⟨hpot, hcan'⟩ := reverse_potential h hback hr1 hw hi hcan hvec hg
    have hpw0 : pweight (superDist back g dist :: dist) (some 0) = superDist back g dist := rfl
    have htotal : ∀ m, (g.accPaths (m + 1)).map (PathT.rev back) = f.accPaths m := by
      intro m
      rw [gacc, delay_one_succ, Multiset.map_map]
      conv_rhs => rw [← Multiset.map_id (f.accPaths m)]
      refine Multiset.map_congr rfl fun p _ => ?_
      simp [PathT.rev, hback]
    have htotal0 : (g.accPaths 0).map (PathT.rev back) = 0 := by
      rw [gacc, delay_one_zero, Multiset.map_zero]
    by_cases hd0 : superDist back g dist = 0
    · refine ⟨Fst.new, run dist hd _ (stop dist hd0), hnew, truthful_new, .inl ⟨rfl, fun m p hp => ?_⟩⟩
      rw [← htotal, accPaths_some gs] at hp
      obtain ⟨q, hq, rfl⟩ := Multiset.mem_map.1 hp
      have := hpot.path hbm _ 0 q hq
      rw [hpw0, hd0] at this
      exact this.of_zero
    · have hfin : ∀ s v, g.finOf s = some v → back v ≠ 0 := by
        intro s v hv
        have hs := lt_of_finOf hv
        rw [gn] at hs
        cases s with
        | zero => rw [gf0] at hv; cases hv
        | succ q =>
          rw [gf q (by omega)] at hv
          by_cases hq : f.start = some q
          · rw [if_pos hq] at hv; cases hv
            rw [← hr1, hback]; exact h.one
          · rw [if_neg hq] at hv; cases hv
      obtain ⟨F, hF, Fw, Ft, paths, others, p1, p2, p3, p4, p5, p6, p7⟩ := nShortest_spec hsf h he hbm hpot hcan' gw hfin (n := n) (by omega) gs rfl hd0
      have hz := p4 0
      rw [htotal0] at hz
      have hz' := (add_eq_zero.1 hz.symm)
      -- a path has at least one transition in the reversed FST
      have hpos : ∀ p ∈ paths, p.1 ≠ 0 := by
        intro p hp h0
        have h1 := p1 0
        rw [hz'.1] at h1
        have : p.2 ∈ ((((paths.filter (fun p => p.1 = 0)).map (fun p => p.2) : List (PathT W))) : Multiset (PathT W)) := by
          rw [Multiset.mem_coe]
          exact List.mem_map.2 ⟨p, List.mem_filter.2 ⟨hp, by simpa using h0⟩, rfl⟩
        rw [← h1] at this
        exact absurd this (Multiset.notMem_zero _)
      refine ⟨F, run dist hd F hF, Fw, Ft, .inr ⟨paths.map (fun p => (p.1 - 1, p.2)), fun m => others (m + 1), fun m => ?_, fun m hm => ?_,
        fun m => ?_, ?_, by simpa using p6, fun hlt m => p7 (by simpa using hlt) _⟩⟩
      · rw [show m + 3 = (m + 1) + 2 by omega, p1 (m + 1), List.filter_map, List.map_map]
        congr 1
        have : paths.filter (fun p => decide (p.1 = m + 1)) = paths.filter ((fun p : Nat × PathT W => decide (p.1 = m)) ∘ fun p => (p.1 - 1, p.2)) := by
          refine List.filter_congr fun p hp => ?_
          have := hpos p hp
          simp only [Function.comp]
          congr 1
          simp only [eq_iff_iff]
          omega
        rw [this]
        rfl
      · match m, hm with
        | 0, _ => exact p2
        | 1, _ => exact p3
        | 2, _ => exact hz'.1
      · rw [← htotal, p4]
      · intro p hp m q hq
        obtain ⟨p', hp', rfl⟩ := List.mem_map.1 hp
        exact p5 p' hp' (m + 1) q hq

/-- `n = 0` gives the empty FST; `n = 1` is C34; weights without the path property are refused. -/
theorem C63_other (sf : SemiringFlags) (eqv : W → W → Bool) (rev : W → V) (back : V → W) (f : Fst W) (n fuel : Nat) :
    f.shortestPaths sf eqv rev back 0 fuel = some (.ok Fst.new) ∧ f.shortestPaths sf eqv rev back 1 fuel = f.shortestPath sf fuel ∧
    (2 ≤ n → sf.path = false → f.shortestPaths sf eqv rev back n fuel = some (.error .err)) := by
  refine ⟨rfl, rfl, fun hn hp => ?_⟩
  unfold shortestPaths
  rw [if_neg (by omega), if_neg (by omega), if_pos (.inl hp)]

end

theorem TW.pathWeights {K : Type u} [LinearOrder K] [AddCommMonoid K] [IsOrderedCancelAddMonoid K] : PathWeights (TW K) where
  path a b := by
    change TW.plus a b = a ∨ TW.plus a b = b
    cases a <;> cases b <;> simp [TW.plus_fin, le_total]
  one := by intro h; cases h

theorem TW.cancels {K : Type u} [LinearOrder K] [AddCommMonoid K] [IsOrderedCancelAddMonoid K] {c : TW K} (hc : c ≠ .negInf) : Cancels c := by
  cases c with
  | inf => exact .inl rfl
  | negInf => exact absurd rfl hc
  | fin c =>
    refine .inr fun a b h => ?_
    change TW.times (.fin c) a = TW.times (.fin c) b at h
    cases a <;> cases b <;> first
      | rfl
      | (cases h; done)
      | rw [add_left_cancel (TW.fin.inj h)]

/-- C63 for the tropical weights without negative transitions and without a final weight minus infinity. -/
theorem C63_tropical {K : Type u} [LinearOrder K] [AddCommMonoid K] [IsOrderedCancelAddMonoid K] {eqv : TW K → TW K → Bool}
    (he : ∀ a b, eqv a b = true ↔ b = a) {f : Fst (TW K)} (hw : f.WF) (ht : f.Truthful)
    (hpos : ∀ s, ∀ t ∈ f.trsOf s, t.weight.Nonneg) (hfin : ∀ s w, f.finOf s = some w → w ≠ .negInf) {n : Nat} (hn : 2 ≤ n) :
    ∃ F, EndsWith (f.shortestPaths (TW.ops (K := K)).flags eqv id id n) (.ok F) ∧ F.WF ∧ F.Truthful ∧
      ((F.numStates = 0 ∧ ∀ m, ∀ p ∈ f.accPaths m, p.2.2 = 0) ∨ IsNBest n 3 f F) :=
  C63_n_shortest ⟨rfl, rfl, rfl⟩ TW.pathWeights he (fun _ => rfl) rfl (fun a b => mul_comm a b) (fun a b => mul_comm a b) hw ht
    (TW.cyclesAbsorbed hpos) ⟨fun s t ht => TW.cancels (fun h => by have := hpos s t ht; rw [h] at this; exact this), fun s w hw => TW.cancels (hfin s w hw)⟩ hn

/-! ## Examples -/

/-- The FST of C34 (with a cycle and a self-loop) for `n = 3`: weights 8, 10 and 10. -/
def exThree : Fst (TW Nat) :=
  match exFin.shortestPaths (TW.ops (K := Nat)).flags (fun a b => decide (b = a)) id id 3 100 with
  | some (.ok o) => o
  | _ => Fst.new

/-- Three paths below one superfinal state, the best one first. -/
example : exThree.start = some 0 ∧ exThree.numStates = 11 ∧
    exThree.accPaths 5 = ↑[(([1, 1], [1, 1], .fin 8) : PathT (TW Nat))] ∧
    exThree.accPaths 4 = ↑[(([1], [1], .fin 10) : PathT (TW Nat))] ∧
    exThree.accPaths 6 = ↑[(([1, 1, 1], [1, 1, 1], .fin 10) : PathT (TW Nat))] := by
  decide +kernel

/-- The hypotheses hold for it, and the result is not the empty one. -/
example : ∃ F, EndsWith (exFin.shortestPaths (TW.ops (K := Nat)).flags (fun a b => decide (b = a)) id id 3) (.ok F) ∧ F.WF ∧ F.Truthful ∧
    IsNBest 3 3 exFin F := by
  have h : ∀ s, ∀ t ∈ exFin.trsOf s, t.weight ≠ TW.negInf := by
    intro s
    by_cases hs : s < 3
    · have : ∀ s < 3, ∀ t ∈ exFin.trsOf s, t.weight ≠ TW.negInf := by decide +kernel
      exact this s hs
    · rw [trsOf_eq, List.getElem?_eq_none (show exFin.states.length ≤ s from Nat.le_of_not_lt hs)]
      intro t ht; cases ht
  obtain ⟨o, h1, h2, h3, h4⟩ := C63_tropical (f := exFin) (n := 3) (eqv := fun a b => decide (b = a)) (fun a b => by simp)
    (Fst.wf_of_wfB (by decide)) (by
    unfold exFin exTropCyc
    refine truthful_setFinal (truthful_setFinal (truthful_addTr (truthful_addTr (truthful_addTr (truthful_addTr (truthful_addTr
      (truthful_setStart (truthful_addStates truthful_new 3) 0) ?_ _) ?_ _) ?_ _) ?_ _) ?_ _) ?_ _) ?_ _ <;> decide) (by
    intro s t ht
    have := h s t ht
    generalize t.weight = w at this
    cases w with
    | negInf => exact absurd rfl this
    | fin x => exact Nat.zero_le x
    | inf => trivial) (by
    intro s w hs
    by_cases h3 : s < 3
    · have : ∀ s < 3, exFin.finOf s ≠ some TW.negInf := by decide +kernel
      rintro rfl
      exact this s h3 hs
    · rw [Fst.finOf_of_ge (f := exFin) (s := s) (Nat.le_of_not_lt h3)] at hs
      cases hs) (by decide)
  refine ⟨o, h1, h2, h3, h4.resolve_left ?_⟩
  rintro ⟨-, h5⟩
  have := h5 1 ([1], [1], .fin 10) (by decide +kernel)
  cases this

end Verif
