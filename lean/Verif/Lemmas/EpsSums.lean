import Verif.Model.RmEpsilon
import Verif.Lemmas.PushSums
import Mathlib.Algebra.BigOperators.Ring.Finset

/-!
# Sums over ε-paths

`A h p` is the sum of `w * h q` over the ε-transitions of `p`, with weight `w` and target `q`. The sums of interest solve `X = C + A X`.
-/

namespace Verif
universe u
set_option linter.unusedSectionVars false

namespace Fst
open Fst
variable {W : Type u} [Semiring W] {f g : Fst W}

/-- One ε-transition. -/
def epsOp (f : Fst W) (h : StateId → W) (p : StateId) : W := (((f.trsOf p).filter isEps).map fun t => t.weight * h t.nextstate).sum

/-- One transition that is not an ε-transition. -/
def nonOp (f : Fst W) (h : Label → Label → StateId → W) (p : StateId) : W :=
  (((f.trsOf p).filter fun t => !isEps t).map fun t => t.weight * h t.ilabel t.olabel t.nextstate).sum

/-- What is seen of a state before the next ε-transition: the final weight (if `b`), or a transition. -/
def row (f : Fst W) (h : Label → Label → StateId → W) (b : Bool) (p : StateId) : W :=
  (if b then (f.finOf p).getD 0 else 0) + f.nonOp h p

/-- The sum over at most `n - 1` ε-transitions. -/
def epsSum (f : Fst W) (C : StateId → W) : Nat → StateId → W
  | 0, _ => 0
  | n + 1, p => C p + f.epsOp (f.epsSum C n) p

theorem epsOp_congr {h h' : StateId → W} {p : StateId} (H : ∀ t ∈ f.trsOf p, isEps t = true → h t.nextstate = h' t.nextstate) :
    f.epsOp h p = f.epsOp h' p := by
  unfold epsOp
  congr 1
  refine List.map_congr_left fun t ht => ?_
  rw [H t (List.mem_of_mem_filter ht) (List.of_mem_filter ht)]

theorem nonOp_congr {h h' : Label → Label → StateId → W} {p : StateId}
    (H : ∀ t ∈ f.trsOf p, isEps t = false → h t.ilabel t.olabel t.nextstate = h' t.ilabel t.olabel t.nextstate) :
    f.nonOp h p = f.nonOp h' p := by
  unfold nonOp
  congr 1
  refine List.map_congr_left fun t ht => ?_
  rw [H t (List.mem_of_mem_filter ht) (by simpa using List.of_mem_filter ht)]

theorem list_add (l : List (Tr W)) (u v : Tr W → W) : (l.map fun t => u t + v t).sum = (l.map u).sum + (l.map v).sum := by
  induction l with
  | nil => simp
  | cons t l ih => simp only [List.map_cons, List.sum_cons, ih]; abel

theorem epsOp_add (h h' : StateId → W) (p : StateId) : f.epsOp (fun q => h q + h' q) p = f.epsOp h p + f.epsOp h' p := by
  unfold epsOp
  rw [← list_add]
  simp only [mul_add]

theorem nonOp_add (h h' : Label → Label → StateId → W) (p : StateId) :
    f.nonOp (fun a b q => h a b q + h' a b q) p = f.nonOp h p + f.nonOp h' p := by
  unfold nonOp
  rw [← list_add]
  simp only [mul_add]

theorem epsOp_zero (p : StateId) : f.epsOp (fun _ => 0) p = 0 := by simp [epsOp]
theorem nonOp_zero (p : StateId) : f.nonOp (fun _ _ _ => 0) p = 0 := by simp [nonOp]

/-- The first step of a walk. -/
theorem walkSum_first (keep : Tr W → Bool) (n : Nat) (p q : StateId) :
    f.walkSum keep (n + 1) p q = (((f.trsOf p).filter keep).map fun t => t.weight * f.walkSum keep n t.nextstate q).sum := by
  have hmul : ∀ (M : Multiset (StateId × W)) (a : W),
      (((M.map fun e => (e.1, a * e.2)).filter (fun e => e.1 = q)).map fun e => e.2).sum = a * ((M.filter (fun e => e.1 = q)).map fun e => e.2).sum := by
    intro M a
    induction M using Multiset.induction_on with
    | empty => simp
    | cons e M ih =>
      rw [Multiset.map_cons]
      by_cases he : e.1 = q
      · rw [Multiset.filter_cons_of_pos (p := fun e : StateId × W => e.1 = q) _ (show (e.1, a * e.2).1 = q from he),
          Multiset.filter_cons_of_pos (p := fun e : StateId × W => e.1 = q) _ he, Multiset.map_cons,
          Multiset.sum_cons, ih, Multiset.map_cons, Multiset.sum_cons, mul_add]
      · rw [Multiset.filter_cons_of_neg (p := fun e : StateId × W => e.1 = q) _ (show ¬ (e.1, a * e.2).1 = q from he),
          Multiset.filter_cons_of_neg (p := fun e : StateId × W => e.1 = q) _ he, ih]
  unfold walkSum
  simp only [walks]
  generalize (f.trsOf p).filter keep = l
  induction l with
  | nil => simp
  | cons t l ih =>
    rw [← Multiset.cons_coe, Multiset.cons_bind, Multiset.filter_add, Multiset.map_add, Multiset.sum_add, ih, List.map_cons, List.sum_cons, hmul]

theorem walkSums_first (keep : Tr W → Bool) (n : Nat) (p q : StateId) :
    f.walkSums keep (n + 1) p q = (if p = q then 1 else 0) +
      (((f.trsOf p).filter keep).map fun t => t.weight * f.walkSums keep n t.nextstate q).sum := by
  unfold walkSums
  rw [Finset.sum_range_succ' (fun k => f.walkSum keep k p q), walkSum_zero, add_comm]
  congr 1
  simp only [walkSum_first]
  rw [sum_list_range]
  congr 1
  refine List.map_congr_left fun t _ => ?_
  rw [sum_mul_range mul_zero]

/-- The sums over ε-paths in terms of the sums of walks. -/
theorem epsSum_eq (hw : f.WF) (C : StateId → W) (n : Nat) : ∀ p, p < f.numStates →
    f.epsSum C n p = ∑ q ∈ Finset.range f.numStates, f.walkSums isEps n p q * C q := by
  induction n with
  | zero => intro p _; simp [epsSum, walkSums]
  | succ n ih =>
    intro p hp
    simp only [epsSum, walkSums_first, add_mul, Finset.sum_add_distrib]
    congr 1
    · simp [hp]
    · unfold epsOp
      have : ∀ l : List (Tr W), (∀ t ∈ l, t.nextstate < f.numStates) → (l.map fun t => t.weight * f.epsSum C n t.nextstate).sum =
          ∑ q ∈ Finset.range f.numStates, (l.map fun t => t.weight * f.walkSums isEps n t.nextstate q).sum * C q := by
        intro l
        induction l with
        | nil => simp
        | cons t l ihl =>
          intro h
          simp only [List.map_cons, List.sum_cons, add_mul, Finset.sum_add_distrib]
          rw [ihl fun u hu => h u (by simp [hu]), ih _ (h t (by simp)), Finset.mul_sum]
          simp only [mul_assoc]
      exact this _ fun t ht => hw.next_lt p t (List.mem_of_mem_filter ht)

/-- `B` is the sum over all ε-paths. -/
def IsClosure (f : Fst W) (C B : StateId → W) : Prop := ∀ p, p < f.numStates → ∃ N, ∀ n, N ≤ n → f.epsSum C n p = B p

/-- `d p q` are the ε-distances. -/
def EpsDist (f : Fst W) (d : StateId → StateId → W) : Prop := ∀ p, p < f.numStates → ∀ q, f.IsDistance isEps p q (d p q)

theorem closure_of_dist (hw : f.WF) {d : StateId → StateId → W} (hd : f.EpsDist d) (C : StateId → W) :
    f.IsClosure C fun p => ∑ q ∈ Finset.range f.numStates, d p q * C q := by
  intro p hp
  obtain ⟨N, hN⟩ := common_bound (m := f.numStates) (fun q _ => hd p hp q)
  refine ⟨N, fun n hn => ?_⟩
  rw [epsSum_eq hw C n p hp]
  refine Finset.sum_congr rfl fun q hq => ?_
  rw [walkSums, hN q (Finset.mem_range.1 hq) n hn]

theorem IsClosure.eq (hw : f.WF) {C B : StateId → W} (h : f.IsClosure C B) {p : StateId} (hp : p < f.numStates) : B p = C p + f.epsOp B p := by
  obtain ⟨N, hN⟩ := common_bound (m := f.numStates) (fun q hq => h q hq)
  rw [← hN p hp (N + 1) (by omega)]
  simp only [epsSum]
  congr 1
  exact epsOp_congr fun t ht _ => hN _ (hw.next_lt p t ht) N le_rfl

theorem IsClosure.unique {C B B' : StateId → W} (h : f.IsClosure C B) (h' : f.IsClosure C B') {p : StateId} (hp : p < f.numStates) : B p = B' p := by
  obtain ⟨N, hN⟩ := h p hp
  obtain ⟨M, hM⟩ := h' p hp
  rw [← hN (max N M) (by omega), hM (max N M) (by omega)]

/-! ## Idempotent weights -/

section idem
variable (hid : ∀ a : W, a + a = a)

/-- `b` adds nothing to `a`. -/
def Absb (a b : W) : Prop := a + b = a

theorem Absb.add {a b c : W} (h : Absb a b) (h' : Absb a c) : Absb a (b + c) := by
  unfold Absb at *
  rw [← add_assoc, h, h']
theorem Absb.trans {a b c : W} (h : Absb a b) (h' : Absb b c) : Absb a c := by
  unfold Absb at *
  rw [← h, add_assoc, h']
theorem Absb.antisymm {a b : W} (h : Absb a b) (h' : Absb b a) : a = b := by
  unfold Absb at *
  rw [← h, add_comm, h']
theorem Absb.sum_mono {a b c d : W} (h : Absb a b) (h' : Absb c d) : Absb (a + c) (b + d) := by
  unfold Absb at *
  rw [add_add_add_comm, h, h']
theorem Absb.zero (a : W) : Absb a 0 := add_zero a

include hid in
theorem Absb.refl (a : W) : Absb a a := hid a

theorem Absb.epsOp {h h' : StateId → W} {p : StateId} (H : ∀ t ∈ f.trsOf p, isEps t = true → Absb (h t.nextstate) (h' t.nextstate)) :
    Absb (f.epsOp h p) (f.epsOp h' p) := by
  unfold Absb
  rw [← epsOp_add]
  exact epsOp_congr H

theorem Absb.nonOp {h h' : Label → Label → StateId → W} {p : StateId}
    (H : ∀ t ∈ f.trsOf p, isEps t = false → Absb (h t.ilabel t.olabel t.nextstate) (h' t.ilabel t.olabel t.nextstate)) :
    Absb (f.nonOp h p) (f.nonOp h' p) := by
  unfold Absb
  rw [← nonOp_add]
  exact nonOp_congr H

include hid in
theorem Absb.left {a b c : W} (h : Absb a (b + c)) : Absb a b := by
  unfold Absb at *
  rw [← h, add_assoc, add_right_comm, hid]

include hid in
theorem Absb.right {a b c : W} (h : Absb a (b + c)) : Absb a c := Absb.left hid (by rwa [add_comm])

include hid in
theorem least_sum (hw : f.WF) {C X : StateId → W} (hX : ∀ p, p < f.numStates → Absb (X p) (C p + f.epsOp X p)) (n : Nat) :
    ∀ p, p < f.numStates → Absb (X p) (f.epsSum C n p) := by
  induction n with
  | zero => intro p _; exact Absb.zero _
  | succ n ih =>
    intro p hp
    have h1 : Absb (f.epsOp X p) (f.epsOp (f.epsSum C n) p) := Absb.epsOp fun t ht _ => ih _ (hw.next_lt p t ht)
    exact (hX p hp).trans ((Absb.refl hid _).sum_mono h1)

include hid in
theorem least (hw : f.WF) {C X B : StateId → W} (hB : f.IsClosure C B) (hX : ∀ p, p < f.numStates → Absb (X p) (C p + f.epsOp X p))
    {p : StateId} (hp : p < f.numStates) : Absb (X p) (B p) := by
  obtain ⟨N, hN⟩ := hB p hp
  rw [← hN N le_rfl]
  exact least_sum hid hw hX N p hp

include hid in
theorem range_absb {S : Nat → W} {n m : Nat} (h : n ≤ m) : Absb (∑ k ∈ Finset.range m, S k) (∑ k ∈ Finset.range n, S k) := by
  induction m, h using Nat.le_induction with
  | base => exact Absb.refl hid _
  | succ m hm ih =>
    rw [Finset.sum_range_succ]
    exact Absb.trans (by unfold Absb; rw [add_right_comm, hid]) ih

end idem

/-! ## The two cases -/

/-- Why the sums over ε-paths exist: the ε-transitions follow an order, or sums are idempotent. -/
inductive EpsCase (f : Fst W) : Prop
  | ord (ord : StateId → Nat) (h : ∀ p, ∀ t ∈ f.trsOf p, isEps t = true → ord p < ord t.nextstate)
  | idem (h : ∀ a : W, a + a = a)

/-- Induction against the order. -/
theorem ord_induct (hw : f.WF) {ord : StateId → Nat} (hord : ∀ p, ∀ t ∈ f.trsOf p, isEps t = true → ord p < ord t.nextstate)
    {P : StateId → Prop} (h : ∀ p, p < f.numStates → (∀ t ∈ f.trsOf p, isEps t = true → P t.nextstate) → P p) :
    ∀ p, p < f.numStates → P p := by
  obtain ⟨M, hM⟩ : ∃ M, ∀ p, p < f.numStates → ord p ≤ M := ⟨(Finset.range f.numStates).sup ord, fun p hp => Finset.le_sup (Finset.mem_range.2 hp)⟩
  have : ∀ k p, p < f.numStates → M - ord p ≤ k → P p := by
    intro k
    induction k with
    | zero =>
      intro p hp hk
      refine h p hp fun t ht he => ?_
      have := hord p t ht he
      have := hM _ (hw.next_lt p t ht)
      omega
    | succ k ih =>
      intro p hp hk
      refine h p hp fun t ht he => ih _ (hw.next_lt p t ht) ?_
      have := hord p t ht he
      have := hM _ (hw.next_lt p t ht)
      omega
  exact fun p hp => this _ p hp le_rfl

/-- Sums that follow the same recursion, with a first part that becomes constant, reach the closure. -/
theorem conv (hw : f.WF) (hc : f.EpsCase) {C B : StateId → W} (hB : f.IsClosure C B) {S Cn : Nat → StateId → W}
    (h0 : ∀ p, S 0 p = 0) (hS : ∀ n p, p < f.numStates → S (n + 1) p = Cn n p + f.epsOp (S n) p)
    (hC : ∀ p, p < f.numStates → ∃ N, ∀ n, N ≤ n → Cn n p = C p)
    (hCa : (∀ a : W, a + a = a) → ∀ n p, p < f.numStates → Absb (C p) (Cn n p)) :
    ∀ p, p < f.numStates → ∃ N, ∀ n, N ≤ n → S n p = B p := by
  obtain ⟨N, hN⟩ := common_bound (m := f.numStates) hC
  cases hc with
  | ord ord hord =>
    refine ord_induct hw hord fun p hp ih => ?_
    obtain ⟨M, hM⟩ : ∃ M, ∀ t ∈ f.trsOf p, isEps t = true → ∀ n, M ≤ n → S n t.nextstate = B t.nextstate := by
      have : ∀ l : List (Tr W), (∀ t ∈ l, isEps t = true → ∃ N, ∀ n, N ≤ n → S n t.nextstate = B t.nextstate) →
          ∃ M, ∀ t ∈ l, isEps t = true → ∀ n, M ≤ n → S n t.nextstate = B t.nextstate := by
        intro l
        induction l with
        | nil => exact fun _ => ⟨0, fun t ht => by cases ht⟩
        | cons t l ihl =>
          intro h
          obtain ⟨M, hM⟩ := ihl fun u hu => h u (by simp [hu])
          by_cases he : isEps t = true
          · obtain ⟨K, hK⟩ := h t (by simp) he
            refine ⟨max M K, fun u hu hu' n hn => ?_⟩
            rcases List.mem_cons.1 hu with rfl | hu
            · exact hK n (by omega)
            · exact hM u hu hu' n (by omega)
          · refine ⟨M, fun u hu hu' n hn => ?_⟩
            rcases List.mem_cons.1 hu with rfl | hu
            · exact absurd hu' he
            · exact hM u hu hu' n hn
      exact this _ ih
    refine ⟨max N M + 1, fun n hn => ?_⟩
    obtain ⟨n, rfl⟩ : ∃ m, n = m + 1 := ⟨n - 1, by omega⟩
    rw [hS n p hp, hN p hp n (by omega), hB.eq hw hp]
    congr 1
    exact epsOp_congr fun t ht he => hM t ht he n (by omega)
  | idem hid =>
    have up : ∀ n p, p < f.numStates → Absb (B p) (S n p) := by
      intro n
      induction n with
      | zero => intro p _; rw [h0]; exact Absb.zero _
      | succ n ih =>
        intro p hp
        rw [hS n p hp, hB.eq hw hp]
        exact (hCa hid n p hp).sum_mono (Absb.epsOp fun t ht _ => ih _ (hw.next_lt p t ht))
    have low : ∀ m p, p < f.numStates → Absb (S (N + m) p) (f.epsSum C m p) := by
      intro m
      induction m with
      | zero => intro p _; exact Absb.zero _
      | succ m ih =>
        intro p hp
        rw [← Nat.add_assoc, hS _ p hp, hN p hp _ (by omega)]
        exact (Absb.refl hid _).sum_mono (Absb.epsOp fun t ht _ => ih _ (hw.next_lt p t ht))
    intro p hp
    obtain ⟨M, hM⟩ := hB p hp
    refine ⟨N + M, fun n hn => ?_⟩
    obtain ⟨m, rfl⟩ : ∃ m, n = N + m := ⟨n - N, by omega⟩
    have h1 := low m p hp
    rw [hM m (by omega)] at h1
    exact h1.antisymm (up _ p hp)

/-- `g` is `f` with what `s` does after ε-paths written into `s`. -/
structure Repl (f g : Fst W) (s : StateId) : Prop where
  num : g.numStates = f.numStates
  start : g.start = f.start
  trs : ∀ p, p ≠ s → g.trsOf p = f.trsOf p
  fin : ∀ p, p ≠ s → g.finOf p = f.finOf p
  non : ∀ t ∈ g.trsOf s, isEps t = false
  row : ∀ h b (B : StateId → W), f.IsClosure (f.row h b) B → g.row h b s = B s

theorem Repl.closure {s : StateId} (hr : Repl f g s) (hw : f.WF) (gw : g.WF) (hc : f.EpsCase) {h : Label → Label → StateId → W} {b : Bool}
    {B B' : StateId → W} (hB : f.IsClosure (f.row h b) B) (hB' : g.IsClosure (g.row h b) B') (hs : s < f.numStates) :
    g.IsClosure (g.row h b) B := by
  have hrow : ∀ p, p ≠ s → g.row h b p = f.row h b p := fun p hp => by
    unfold Fst.row nonOp; rw [hr.trs p hp, hr.fin p hp]
  have hop : ∀ X p, p ≠ s → g.epsOp X p = f.epsOp X p := fun X p hp => by unfold epsOp; rw [hr.trs p hp]
  have hops : ∀ X, g.epsOp X s = 0 := fun X => by
    unfold epsOp
    rw [List.filter_eq_nil_iff.2 fun t ht => by rw [hr.non t ht]; simp]
    rfl
  have hsol : ∀ p, p < g.numStates → B p = g.row h b p + g.epsOp B p := by
    intro p hp
    by_cases hps : p = s
    · subst hps; rw [hops, add_zero, hr.row h b B hB]
    · rw [hop _ _ hps, hrow _ hps]; exact hB.eq hw (hr.num ▸ hp)
  have heq : ∀ p, p < g.numStates → B' p = B p := by
    cases hc with
    | ord ord hord =>
      refine ord_induct gw (ord := ord) (fun p t ht he => ?_) fun p hp ih => ?_
      · by_cases hps : p = s
        · subst hps; rw [hr.non t ht] at he; cases he
        · rw [hr.trs p hps] at ht; exact hord p t ht he
      · rw [hB'.eq gw hp, hsol p hp]
        congr 1
        exact epsOp_congr ih
    | idem hid =>
      have h1 : ∀ p, p < g.numStates → Absb (B p) (B' p) := fun p hp =>
        least hid gw hB' (fun q hq => by rw [← hsol q hq]; exact Absb.refl hid _) hp
      have h2 : ∀ p, p < f.numStates → Absb (B' p) (B p) := by
        refine fun p hp => least hid hw hB (fun q hq => ?_) hp
        have e1 := hB'.eq gw (hr.num ▸ hq)
        by_cases hqs : q = s
        · subst hqs
          rw [hops, add_zero, hr.row h b B hB] at e1
          have h3 : Absb (f.epsOp B q) (f.epsOp B' q) := Absb.epsOp fun t ht _ => h1 _ (by rw [hr.num]; exact hw.next_lt q t ht)
          have h4 : Absb (f.row h b q + f.epsOp B q) (f.row h b q + f.epsOp B' q) := (Absb.refl hid _).sum_mono h3
          rw [← hB.eq hw hq] at h4
          rwa [e1]
        · rw [hop _ _ hqs, hrow _ hqs] at e1
          rw [← e1]; exact Absb.refl hid _
      exact fun p hp => (h2 p (hr.num ▸ hp)).antisymm (h1 p hp)
  intro p hp
  obtain ⟨N, hN⟩ := hB' p hp
  exact ⟨N, fun n hn => by rw [hN n hn, heq p hp]⟩

/-! ## Reading a pair of strings -/

/-- What is left of the string after the label. -/
def dropL (l : Label) (x : List Label) : Option (List Label) :=
  if l = EPS then some x
  else match x with
    | [] => none
    | a :: x => if a = l then some x else none

theorem strip_append_iff (l : Label) (u x : List Label) : strip l ++ u = x ↔ dropL l x = some u := by
  unfold strip dropL
  by_cases h : l = EPS
  · simp [h, eq_comm]
  · simp only [h, if_false]
    cases x with
    | nil => simp
    | cons a x =>
      by_cases ha : a = l
      · simp [ha, eq_comm]
      · simp [ha, Ne.symm ha]

/-- What is left of the two strings after the labels. -/
def dropP (il ol : Label) (k : List Label × List Label) : Option (List Label × List Label) :=
  match dropL il k.1, dropL ol k.2 with
  | some x, some y => some (x, y)
  | _, _ => none

theorem dropL_len {l : Label} {x u : List Label} (h : dropL l x = some u) : u.length ≤ x.length ∧ (l ≠ EPS → u.length < x.length) := by
  rw [← strip_append_iff] at h
  subst h
  unfold strip
  by_cases hl : l = EPS <;> simp [hl]

theorem dropP_lt {t : Tr W} (ht : isEps t = false) {k k' : List Label × List Label} (h : dropP t.ilabel t.olabel k = some k') :
    k'.1.length + k'.2.length < k.1.length + k.2.length := by
  unfold dropP at h
  split at h
  · next x y hx hy =>
    injection h with h
    subst h
    obtain ⟨a1, a2⟩ := dropL_len hx
    obtain ⟨b1, b2⟩ := dropL_len hy
    have : t.ilabel ≠ EPS ∨ t.olabel ≠ EPS := by
      simp only [isEps, Bool.and_eq_false_iff, beq_eq_false_iff_ne] at ht
      exact ht
    rcases this with h | h
    · have := a2 h; simp only; omega
    · have := b2 h; simp only; omega
  · cases h

theorem dropP_eps {t : Tr W} (ht : isEps t = true) (k : List Label × List Label) : dropP t.ilabel t.olabel k = some k := by
  simp only [isEps, Bool.and_eq_true, beq_iff_eq] at ht
  simp [dropP, dropL, ht.1, ht.2]

/-- The value that `o` selects. -/
def pick (V : List Label × List Label → StateId → W) (o : Option (List Label × List Label)) (q : StateId) : W :=
  match o with
  | some k => V k q
  | none => 0

/-- The sum of the weights of the paths with `n` transitions from `p` that read `k`. -/
def readSum (f : Fst W) : Nat → List Label × List Label → StateId → W
  | 0, k, p => if k = ([], []) then (f.finOf p).getD 0 else 0
  | n + 1, k, p => ((f.trsOf p).map fun t => t.weight * pick (f.readSum n) (dropP t.ilabel t.olabel k) t.nextstate).sum

def readSums (f : Fst W) (n : Nat) (k : List Label × List Label) (p : StateId) : W := ∑ j ∈ Finset.range n, f.readSum j k p

theorem split_trs (l : List (Tr W)) (u : Tr W → W) : (l.map u).sum = ((l.filter isEps).map u).sum + ((l.filter fun t => !isEps t).map u).sum := by
  induction l with
  | nil => simp
  | cons t l ih =>
    by_cases h : isEps t = true
    · simp [h, ih, add_assoc]
    · simp only [Bool.not_eq_true] at h
      simp only [List.map_cons, List.sum_cons, ih, List.filter_cons, h, Bool.false_eq_true, if_false, Bool.not_false, if_true]
      abel

theorem pick_sums (n : Nat) (o : Option (List Label × List Label)) (q : StateId) :
    ∑ j ∈ Finset.range n, pick (f.readSum j) o q = pick (f.readSums n) o q := by
  cases o with
  | none => simp [pick]
  | some k => rfl

theorem readSums_succ (n : Nat) (k : List Label × List Label) (p : StateId) :
    f.readSums (n + 1) k p = f.row (fun il ol q => pick (f.readSums n) (dropP il ol k) q) (decide (k = ([], []))) p + f.epsOp (f.readSums n k) p := by
  unfold readSums row
  rw [Finset.sum_range_succ' (fun j => f.readSum j k p)]
  simp only [readSum]
  rw [sum_list_range]
  have h1 : ∀ t : Tr W, ∑ j ∈ Finset.range n, t.weight * pick (f.readSum j) (dropP t.ilabel t.olabel k) t.nextstate =
      t.weight * pick (f.readSums n) (dropP t.ilabel t.olabel k) t.nextstate := by
    intro t
    rw [sum_mul_range mul_zero, pick_sums]
  simp only [h1]
  rw [split_trs, add_comm, add_assoc]
  congr 1
  · by_cases hk : k = ([], []) <;> simp [hk]
  · rw [add_comm]
    congr 1
    unfold epsOp
    congr 1
    refine List.map_congr_left fun t ht => ?_
    rw [dropP_eps (List.of_mem_filter ht)]
    rfl

/-- The two FSTs agree on what follows ε-paths. -/
structure EpsEquiv (f g : Fst W) : Prop where
  num : g.numStates = f.numStates
  start : g.start = f.start
  clos : ∀ h b, ∃ B, f.IsClosure (f.row h b) B ∧ g.IsClosure (g.row h b) B

/-- `v` is the sum of the weights of all paths from `p` that read `k`. -/
def ReadsTo (f : Fst W) (k : List Label × List Label) (p : StateId) (v : W) : Prop := ∃ N, ∀ n, N ≤ n → f.readSums n k p = v

theorem reads_conv (hw : f.WF) (hc : f.EpsCase) {k : List Label × List Label} {B : StateId → W} {V : List Label × List Label → StateId → W}
    (hV : ∀ k', k'.1.length + k'.2.length < k.1.length + k.2.length → ∀ p, p < f.numStates → f.ReadsTo k' p (V k' p))
    (hB : f.IsClosure (f.row (fun il ol q => pick V (dropP il ol k) q) (decide (k = ([], [])))) B) :
    ∀ p, p < f.numStates → f.ReadsTo k p (B p) := by
  refine conv hw hc hB (S := fun n p => f.readSums n k p)
    (Cn := fun n p => f.row (fun il ol q => pick (f.readSums n) (dropP il ol k) q) (decide (k = ([], []))) p)
    (fun p => by simp [readSums]) (fun n p _ => readSums_succ n k p) ?_ ?_
  · intro p hp
    have : ∀ l : List (Tr W), (∀ t ∈ l, isEps t = false ∧ t.nextstate < f.numStates) → ∃ N, ∀ n, N ≤ n → ∀ t ∈ l,
        pick (f.readSums n) (dropP t.ilabel t.olabel k) t.nextstate = pick V (dropP t.ilabel t.olabel k) t.nextstate := by
      intro l
      induction l with
      | nil => exact fun _ => ⟨0, fun n _ t ht => by cases ht⟩
      | cons t l ih =>
        intro h
        obtain ⟨N, hN⟩ := ih fun u hu => h u (by simp [hu])
        cases hd : dropP t.ilabel t.olabel k with
        | none =>
          refine ⟨N, fun n hn u hu => ?_⟩
          rcases List.mem_cons.1 hu with rfl | hu
          · rw [hd]; rfl
          · exact hN n hn u hu
        | some k' =>
          obtain ⟨M, hM⟩ := hV k' (dropP_lt (h t (by simp)).1 hd) t.nextstate (h t (by simp)).2
          refine ⟨max N M, fun n hn u hu => ?_⟩
          rcases List.mem_cons.1 hu with rfl | hu
          · rw [hd]; exact hM n (by omega)
          · exact hN n (by omega) u hu
    obtain ⟨N, hN⟩ := this ((f.trsOf p).filter fun t => !isEps t) fun t ht =>
      ⟨by simpa using List.of_mem_filter ht, hw.next_lt p t (List.mem_of_mem_filter ht)⟩
    refine ⟨N, fun n hn => ?_⟩
    unfold row
    congr 1
    exact nonOp_congr fun t ht he => hN n hn t (List.mem_filter.2 ⟨ht, by rw [he]; rfl⟩)
  · intro hid n p hp
    unfold row
    refine (Absb.refl hid _).sum_mono (Absb.nonOp fun t ht he => ?_)
    cases hd : dropP t.ilabel t.olabel k with
    | none => exact Absb.zero _
    | some k' =>
      obtain ⟨M, hM⟩ := hV k' (dropP_lt he hd) t.nextstate (hw.next_lt p t ht)
      change Absb (V k' t.nextstate) (f.readSums n k' t.nextstate)
      rw [← hM (max n M) (by omega)]
      exact range_absb hid (by omega)

/-- FSTs that agree on what follows ε-paths give the same weight to every pair of strings. -/
theorem EpsEquiv.reads (he : EpsEquiv f g) (hw : f.WF) (gw : g.WF) (hc : f.EpsCase) (gc : g.EpsCase) :
    ∃ V : List Label × List Label → StateId → W, ∀ k p, p < f.numStates → f.ReadsTo k p (V k p) ∧ g.ReadsTo k p (V k p) := by
  have key : ∀ m, ∃ V : List Label × List Label → StateId → W, ∀ k, k.1.length + k.2.length < m → ∀ p, p < f.numStates →
      f.ReadsTo k p (V k p) ∧ g.ReadsTo k p (V k p) := by
    intro m
    induction m with
    | zero => exact ⟨fun _ _ => 0, fun k hk => by omega⟩
    | succ m ih =>
      obtain ⟨V, hV⟩ := ih
      have : ∀ k : List Label × List Label, ∃ B : StateId → W, k.1.length + k.2.length < m + 1 → ∀ p, p < f.numStates →
          f.ReadsTo k p (B p) ∧ g.ReadsTo k p (B p) := by
        intro k
        obtain ⟨B, h1, h2⟩ := he.clos (fun il ol q => pick V (dropP il ol k) q) (decide (k = ([], [])))
        refine ⟨B, fun hk p hp => ⟨?_, ?_⟩⟩
        · exact reads_conv hw hc (fun k' hk' q hq => (hV k' (by omega) q hq).1) h1 p hp
        · exact reads_conv gw gc (fun k' hk' q hq => (hV k' (by omega) q (he.num ▸ hq)).2) h2 p (he.num ▸ hp)
      choose B hB using this
      exact ⟨B, hB⟩
  have : ∀ k : List Label × List Label, ∃ B : StateId → W, ∀ p, p < f.numStates → f.ReadsTo k p (B p) ∧ g.ReadsTo k p (B p) := by
    intro k
    obtain ⟨V, hV⟩ := key (k.1.length + k.2.length + 1)
    exact ⟨V k, hV k (by omega)⟩
  choose V hV using this
  exact ⟨V, hV⟩

/-- The weight of a pair of strings, in terms of the paths. -/
theorem sum_reads (n : Nat) : ∀ p x y, (((f.pathsFrom n p).filter (fun e => e.1 = x ∧ e.2.1 = y)).map (fun e => e.2.2)).sum = f.readSum n (x, y) p := by
  induction n with
  | zero =>
    intro p x y
    simp only [pathsFrom, readSum, Prod.mk.injEq]
    cases f.finOf p with
    | none => simp
    | some w =>
      by_cases h : x = [] ∧ y = []
      · simp [h, Multiset.filter_singleton]
      · rw [if_neg h, Multiset.filter_singleton, if_neg (by simpa [eq_comm] using h)]
        simp
  | succ n ih =>
    intro p x y
    simp only [pathsFrom, readSum]
    generalize f.trsOf p = l
    induction l with
    | nil => simp
    | cons t l ihl =>
      rw [← Multiset.cons_coe, Multiset.cons_bind, Multiset.filter_add, Multiset.map_add, Multiset.sum_add, ihl, List.map_cons, List.sum_cons]
      congr 1
      have : ∀ M : Multiset (PathT W), (((M.map fun e => t.asPath.cat e).filter (fun e => e.1 = x ∧ e.2.1 = y)).map (fun e => e.2.2)).sum =
          match dropP t.ilabel t.olabel (x, y) with
          | none => 0
          | some k => t.weight * ((M.filter (fun e => e.1 = k.1 ∧ e.2.1 = k.2)).map (fun e => e.2.2)).sum := by
        intro M
        induction M using Multiset.induction_on with
        | empty => simp only [Multiset.map_zero, Multiset.filter_zero, Multiset.sum_zero, mul_zero]; split <;> rfl
        | cons e M ihM =>
          have hiff : ((t.asPath.cat e).1 = x ∧ (t.asPath.cat e).2.1 = y) ↔ dropP t.ilabel t.olabel (x, y) = some (e.1, e.2.1) := by
            unfold dropP
            simp only [PathT.cat, Tr.asPath, strip_append_iff]
            constructor
            · rintro ⟨h1, h2⟩; rw [h1, h2]
            · intro h
              split at h
              · next h1 h2 => injection h with h; injection h with h3 h4; subst h3 h4; exact ⟨h1, h2⟩
              · cases h
          rw [Multiset.map_cons]
          by_cases hp : (t.asPath.cat e).1 = x ∧ (t.asPath.cat e).2.1 = y
          · rw [Multiset.filter_cons_of_pos (p := fun e : PathT W => e.1 = x ∧ e.2.1 = y) _ hp, Multiset.map_cons, Multiset.sum_cons, ihM]
            rw [hiff] at hp
            simp only [hp]
            rw [Multiset.filter_cons_of_pos (p := fun e' : PathT W => e'.1 = e.1 ∧ e'.2.1 = e.2.1) _ ⟨rfl, rfl⟩, Multiset.map_cons,
              Multiset.sum_cons, mul_add]
            rfl
          · rw [Multiset.filter_cons_of_neg (p := fun e : PathT W => e.1 = x ∧ e.2.1 = y) _ hp, ihM]
            rw [hiff] at hp
            cases hd : dropP t.ilabel t.olabel (x, y) with
            | none => rfl
            | some k =>
              rw [hd] at hp
              simp only
              rw [Multiset.filter_cons_of_neg (p := fun e : PathT W => e.1 = k.1 ∧ e.2.1 = k.2)]
              rintro ⟨h1, h2⟩
              exact hp (by rw [h1, h2])
      rw [this]
      cases dropP t.ilabel t.olabel (x, y) with
      | none => simp [pick]
      | some k => simp only [pick]; rw [ih]

end Fst
end Verif
