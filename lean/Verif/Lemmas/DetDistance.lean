import Verif.Model.ShortestUnique
import Verif.Props.C42
import Verif.Props.C63

/-! # Determinization with distances -/

namespace Verif
universe u
set_option linter.unusedSectionVars false
open Fst NSp

section
variable {W : Type u} [CommSemiring W] [DecidableEq W] {o : DetOps W} {good : W → Prop} {ord : DTup W → Label → List (DElt W) → List (DElt W)}

/-- The distance of a subset. -/
def outOf (dist : List W) (t : DTup W) : W := (t.subset.map fun e => e.weight * pweight dist (some e.state)).sum

theorem outSum_spec (L : DetLaw o (id : W → W) good) (T : DetTotal o good) (dist : List W) : ∀ (es : List (DElt W)) (acc : W),
    outSum o dist acc es = .ok (acc + (es.map fun e => e.weight * pweight dist (some e.state)).sum)
  | [], acc => by simp [outSum]
  | e :: es, acc => by
    obtain ⟨c, hc⟩ := T.plus acc (e.weight * (dist[e.state]?).getD 0)
    rw [outSum, hc]
    have := L.plus _ _ _ hc
    simp only [id] at this
    simp only [outSum_spec L T dist es c, List.map_cons, List.sum_cons]
    rw [this, add_assoc]
    rfl

theorem outDists_spec (L : DetLaw o (id : W → W) good) (T : DetTotal o good) (dist : List W) : ∀ ts : List (DTup W),
    outDists o dist ts = .ok (ts.map (outOf dist))
  | [] => rfl
  | t :: ts => by
    rw [outDists, outSum_spec L T]
    simp only [outDists_spec L T dist ts, zero_add]
    rfl

/-- `determinize_with_distance`: the determinized FST, and the distance of the subset behind each state. -/
theorem det_distance {g : Fst W} (L : DetLaw o (id : W → W) good) (T : DetTotal o good) (hl : o.leftSemiring = true) (ho : Orders ord)
    (hi : DetInput g good) (hfin : {t | (detMachine g o ord).Reach t}.Finite) (dist : List W) :
    ∃ D ds nm, EndsWith (determinizeWithDistance g o ord dist) (.ok (D, ds)) ∧ D.WF ∧ (detMachine g o ord).Presents nm D ∧
      ∀ s, ds[s]? = (nm s).map (outOf dist) := by
  have hok := fun t => det_no_error (t := t) L T ho hi
  obtain ⟨D, z', ⟨N, hN⟩, h2, h3, _, h5, h6⟩ := C38_present_table mapCache_law BiMap.law BiMap.findTuple_eq (detOp g o ord) (detMachine g o ord) rfl
    (fun t ht => by
      obtain ⟨as, h⟩ := (hok t ht).1
      show detTrs g o ord t = _
      simp only [TupleOp.machine, detOp, h])
    (fun t ht => by
      obtain ⟨w, h⟩ := (hok t ht).2
      show detFin g o t = _
      simp only [TupleOp.machine, detOp, h]) BiMap.ok_new (fun s => by simp [BiMap.tup, BiMap.new]) hfin
  refine ⟨D, z'.op.ofId.map (outOf dist), _, ⟨N, fun n hn => ?_⟩, h2, h5, fun s => ?_⟩
  · have := hN n hn
    unfold determinizeWithDistance
    rw [if_neg (by simp [hl]), if_neg (by simp [Props.has, hi.flag])]
    simp only [this, outDists_spec L T]
  · rw [List.getElem?_map]; rfl

theorem best_add {a b c d : W} (h1 : Best a b) (h2 : Best c d) : Best (a + c) (b + d) := by
  unfold Best at *
  rw [add_add_add_comm, h1, h2]

theorem best_list {α : Type*} {p q : α → W} : ∀ {l : List α}, (∀ x ∈ l, Best (p x) (q x)) → Best (l.map p).sum (l.map q).sum
  | [], _ => by simp [Best]
  | x :: l, h => by
    rw [List.map_cons, List.map_cons, List.sum_cons, List.sum_cons]
    exact best_add (h x List.mem_cons_self) (best_list fun y hy => h y (List.mem_cons_of_mem _ hy))

theorem best_all_list {α : Type*} {s : W} {q : α → W} {l : List α} (h : ∀ x ∈ l, Best s (q x)) : Best s (l.map q).sum := by
  induction l with
  | nil => exact Best.zero s
  | cons x l ih =>
    rw [List.map_cons, List.sum_cons]
    have h1 := ih fun y hy => h y (List.mem_cons_of_mem _ hy)
    have h2 := h x List.mem_cons_self
    unfold Best at *
    rw [← add_assoc, h2, h1]

/-- What is known about the transitions of a reachable tuple. -/
theorem det_trs_spec {g : Fst W} (L : DetLaw o (id : W → W) good) (T : DetTotal o good) (ho : Orders ord) (hi : DetInput g good) {t : DTup W}
    (ht : (detMachine g o ord).Reach t) : DetTrsOk g good t ((detMachine g o ord).trs t) ∧ ∀ H : Label → StateId → W,
      (((detMachine g o ord).trs t).map fun a => a.weight * (a.next.subset.map fun q => q.weight * H a.ilabel q.state).sum).sum =
      (t.subset.map fun e => ((g.trsOf e.state).map fun tr => e.weight * tr.weight * H tr.ilabel tr.nextstate).sum).sum := by
  obtain ⟨as, h⟩ := (det_no_error L T ho hi ht).1
  have : (detMachine g o ord).trs t = as := by simp only [TupleOp.machine, detOp, h]
  rw [this]
  exact detTrs_spec L ho hi.wf hi.weights h (det_reach_good L ho hi.wf hi.weights ht)

/-- The distances of the subsets bound the weights of the determinized FST. -/
theorem det_potential {g : Fst W} (L : DetLaw o (id : W → W) good) (T : DetTotal o good) (ho : Orders ord) (hi : DetInput g good)
    {dist : List W} (hpot : Potential dist (id : W → W) g) {D : Fst W} {ds : List W} {nm : StateId → Option (DTup W)}
    (hP : (detMachine g o ord).Presents nm D) (hds : ∀ s, ds[s]? = (nm s).map (outOf dist)) : Potential ds (id : W → W) D := by
  have hout : ∀ s t, nm s = some t → pweight ds (some s) = outOf dist t := by
    intro s t h
    show (ds[s]?).getD 0 = _
    rw [hds, h]; rfl
  refine ⟨fun s tr htr => ?_, fun s v hv => ?_⟩
  · obtain ⟨t, a, hs, hr, ha, hn⟩ := hP.trs_of s tr htr
    rw [hout s t hs, hout _ _ hn.2.2.2, hn.2.2.1]
    obtain ⟨hok, hsum⟩ := det_trs_spec L T ho hi hr
    have h1 := hsum fun l q => if l = a.ilabel then pweight dist (some q) else 0
    have h2 : (((detMachine g o ord).trs t).map fun b => b.weight * (b.next.subset.map fun q => q.weight * (if b.ilabel = a.ilabel then
        pweight dist (some q.state) else 0)).sum).sum = a.weight * outOf dist a.next := by
      have key : ∀ l : List (MTr (DTup W) W), (l.map (·.ilabel)).Pairwise (· < ·) → a ∈ l → (l.map fun b => b.weight *
          (b.next.subset.map fun q => q.weight * (if b.ilabel = a.ilabel then pweight dist (some q.state) else 0)).sum).sum =
          a.weight * outOf dist a.next := by
        intro l
        induction l with
        | nil => intro _ h; cases h
        | cons b l ih =>
          intro hp ha
          rw [List.map_cons, List.pairwise_cons] at hp
          rw [List.map_cons, List.sum_cons]
          rcases List.mem_cons.1 ha with rfl | ha
          · have : (l.map fun b => b.weight * (b.next.subset.map fun q => q.weight * (if b.ilabel = a.ilabel then
                pweight dist (some q.state) else 0)).sum).sum = 0 := by
              refine List.sum_eq_zero fun x hx => ?_
              obtain ⟨c, hc, rfl⟩ := List.mem_map.1 hx
              have : c.ilabel ≠ a.ilabel := Nat.ne_of_gt (hp.1 _ (List.mem_map.2 ⟨c, hc, rfl⟩))
              simp [this]
            rw [this, add_zero]
            simp [outOf]
          · have : b.ilabel ≠ a.ilabel := Nat.ne_of_lt (hp.1 _ (List.mem_map.2 ⟨a, ha, rfl⟩))
            rw [ih hp.2 ha]
            simp [this]
      exact key _ hok.sorted ha
    show Best _ (a.weight * outOf dist a.next)
    rw [← h2, h1]
    unfold outOf
    refine best_list fun e he => best_all_list fun tr' htr' => ?_
    by_cases hl : tr'.ilabel = a.ilabel
    · rw [if_pos hl, mul_assoc]
      exact (hpot.arc e.state tr' htr').mul e.weight
    · rw [if_neg hl, mul_zero]; exact Best.zero _
  · obtain ⟨t, hs, hr, hf⟩ := hP.fin_of hv
    rw [hout s t hs]
    obtain ⟨w, hw⟩ := (det_no_error L T ho hi hr).2
    have : (detMachine g o ord).fin t = w := by simp only [TupleOp.machine, detOp, hw]
    rw [this] at hf
    subst hf
    unfold detFin at hw
    cases hsm : detFinSum g o 0 t.subset with
    | error x => rw [hsm] at hw; cases hw
    | ok x =>
      rw [hsm] at hw
      simp only at hw
      have hg := det_reach_good L ho hi.wf hi.weights hr
      have hx := detFinSum_spec L (fun e he => (hg e he).1) hsm
      simp only [id, zero_add] at hx
      by_cases h0 : x = 0
      · rw [if_pos h0] at hw; cases hw
      · rw [if_neg h0] at hw
        cases hw
        show Best _ v
        rw [hx]
        refine best_list fun e he => ?_
        cases hfe : g.finOf e.state with
        | none => simp only [Option.getD_none, mul_zero]; exact Best.zero _
        | some v' => exact (hpot.fin _ _ hfe).mul e.weight

/-- The weights of the determinized FST that are not zero. -/
theorem det_fin_ne {g : Fst W} (L : DetLaw o (id : W → W) good) (T : DetTotal o good) (ho : Orders ord) (hi : DetInput g good) {D : Fst W}
    {nm : StateId → Option (DTup W)} (hP : (detMachine g o ord).Presents nm D) : ∀ s v, D.finOf s = some v → v ≠ 0 := by
  intro s v hv
  obtain ⟨t, hs, hr, hf⟩ := hP.fin_of hv
  obtain ⟨w, hw⟩ := (det_no_error L T ho hi hr).2
  have : (detMachine g o ord).fin t = w := by simp only [TupleOp.machine, detOp, hw]
  rw [this] at hf
  subst hf
  unfold detFin at hw
  cases hsm : detFinSum g o 0 t.subset with
  | error x => rw [hsm] at hw; cases hw
  | ok x =>
    rw [hsm] at hw
    simp only at hw
    by_cases h0 : x = 0
    · rw [if_pos h0] at hw; cases hw
    · rw [if_neg h0] at hw
      cases hw
      exact h0

theorem det_cancels (h : PathWeights W) {g : Fst W} (L : DetLaw o (id : W → W) good) (ho : Orders ord) (hi : DetInput g good)
    (hgood : ∀ w, good w → Cancels w) {dist : List W} (hcan : ∀ s, Cancels (pweight dist (some s))) {D : Fst W} {ds : List W}
    {nm : StateId → Option (DTup W)} (hP : (detMachine g o ord).Presents nm D) (hds : ∀ s, ds[s]? = (nm s).map (outOf dist)) (s : StateId) :
    Cancels (pweight ds (some s)) := by
  show Cancels ((ds[s]?).getD 0)
  rw [hds]
  cases hs : nm s with
  | none => exact Cancels.zero
  | some t =>
    have hg := det_reach_good L ho hi.wf hi.weights ((hP.tuples t).2 ⟨s, hs⟩)
    show Cancels (outOf dist t)
    unfold outOf
    rw [← Multiset.sum_coe]
    refine Cancels.sum h fun x hx => ?_
    obtain ⟨e, he, rfl⟩ := List.mem_map.1 (Multiset.mem_coe.1 hx)
    exact (hgood _ (hg e he).2).mul (hcan _)

end

section
variable {W : Type u} [Mul W]

/-- In a part of an acceptor without ε where labels do not repeat, all paths have different strings, as long as the paths. -/
theorem unique_strings {D : Fst W} {Q : StateId → Prop} (hQ : ∀ s, Q s → ∀ t ∈ D.trsOf s, Q t.nextstate)
    (hnd : ∀ s, Q s → ((D.trsOf s).map (·.ilabel)).Nodup) (hac : ∀ s, Q s → ∀ t ∈ D.trsOf s, t.ilabel = t.olabel)
    (hne : ∀ s, Q s → ∀ t ∈ D.trsOf s, t.ilabel ≠ EPS) : ∀ (n : Nat) (s : StateId), Q s →
    (∀ p ∈ D.pathsFrom n s, p.1.length = n ∧ p.2.1 = p.1) ∧ ((D.pathsFrom n s).map (·.1)).Nodup
  | 0, s, _ => by
    rw [pathsFrom_zero]
    cases D.finOf s with
    | none => simp
    | some v => simp
  | n + 1, s, hs => by
    rw [pathsFrom_succ]
    have hcons : ∀ t ∈ D.trsOf s, ∀ p : PathT W, (t.asPath.cat p).1 = t.ilabel :: p.1 ∧ (t.asPath.cat p).2.1 = t.ilabel :: p.2.1 := by
      intro t ht p
      simp [PathT.cat, Tr.asPath, strip, hne s hs t ht, ← hac s hs t ht]
    have ih := fun t (ht : t ∈ D.trsOf s) => unique_strings hQ hnd hac hne n t.nextstate (hQ s hs t ht)
    refine ⟨fun p hp => ?_, ?_⟩
    · obtain ⟨t, ht, hp⟩ := Multiset.mem_bind.1 hp
      obtain ⟨q, hq, rfl⟩ := Multiset.mem_map.1 hp
      obtain ⟨h1, h2⟩ := (ih t ht).1 q hq
      obtain ⟨h3, h4⟩ := hcons t ht q
      rw [h3, h4, h2]
      exact ⟨by simp [h1], rfl⟩
    · rw [Multiset.map_bind]
      have hnd' := hnd s hs
      have e : ((D.trsOf s : Multiset (Tr W)).bind fun t => ((D.pathsFrom n t.nextstate).map fun p => t.asPath.cat p).map (·.1)) =
          (D.trsOf s : Multiset (Tr W)).bind fun t => ((D.pathsFrom n t.nextstate).map (·.1)).map (t.ilabel :: ·) := by
        refine Multiset.bind_congr fun t ht => ?_
        rw [Multiset.map_map, Multiset.map_map]
        exact Multiset.map_congr rfl fun q _ => (hcons t ht q).1
      rw [e]
      refine Multiset.nodup_bind.2 ⟨fun t ht => ?_, ?_⟩
      · exact Multiset.Nodup.map (fun a b h => by simpa using h) (ih t ht).2
      · refine ⟨D.trsOf s, rfl, ?_⟩
        have := List.pairwise_map.1 hnd'
        refine this.imp fun {a b} hab => ?_
        rw [Function.onFun, Multiset.disjoint_left]
        intro x hx hx'
        obtain ⟨y, -, rfl⟩ := Multiset.mem_map.1 hx
        obtain ⟨y', -, e⟩ := Multiset.mem_map.1 hx'
        simp only [List.cons.injEq] at e
        exact hab e.1.symm

end
end Verif
