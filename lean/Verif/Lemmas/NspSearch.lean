import Verif.Lemmas.NspGrow
import Mathlib.Data.List.Nodup
import Mathlib.Data.Finset.Card
import Mathlib.Tactic.Ring
import Mathlib.Tactic.Abel

/-! # What the search for the `n` shortest paths knows -/

namespace Verif
universe u v
set_option linter.unusedSectionVars false
open Fst NSp

section
variable {W : Type u} {V : Type v} [CommSemiring W] [DecidableEq W] [Monoid V]

/-- The distances never promise more than what can be reached. -/
structure Potential (dist : List W) (back : V → W) (g : Fst V) : Prop where
  arc : ∀ s, ∀ t ∈ g.trsOf s, Best (pweight dist (some s)) (back t.weight * pweight dist (some t.nextstate))
  fin : ∀ s v, g.finOf s = some v → Best (pweight dist (some s)) (back v)

theorem Potential.path {dist : List W} {back : V → W} {g : Fst V} (hm : ∀ a b, back (a * b) = back b * back a)
    (hp : Potential dist back g) : ∀ (j : Nat) (s : StateId) (q : PathT V), q ∈ g.pathsFrom j s → Best (pweight dist (some s)) (back q.2.2)
  | 0, s, q, hq => by
    rw [pathsFrom_zero] at hq
    cases hv : g.finOf s with
    | none => rw [hv] at hq; simp at hq
    | some v =>
      rw [hv] at hq
      obtain rfl := Multiset.mem_singleton.1 hq
      exact hp.fin s v hv
  | j + 1, s, q, hq => by
    rw [pathsFrom_succ, Multiset.mem_bind] at hq
    obtain ⟨t, ht, hq⟩ := hq
    obtain ⟨q', hq', rfl⟩ := Multiset.mem_map.1 hq
    have h1 := (Potential.path hm hp j t.nextstate q' hq').mul (back t.weight)
    have h2 : back (t.asPath.cat q').2.2 = back t.weight * back q'.2.2 := by
      simp [PathT.cat, Tr.asPath, hm, mul_comm]
    rw [h2]
    exact (hp.arc s t (by simpa using ht)).trans h1

/-- The key of a state is at least as good as all its completions. -/
theorem key_best {dist : List W} {back : V → W} {g : Fst V} (hm : ∀ a b, back (a * b) = back b * back a) (hp : Potential dist back g)
    {x : GNode W} {s : StateId} (hs : x.st = some s) {j : Nat} {q : PathT V} (hq : q ∈ g.pathsFrom j s) :
    Best (key dist x.pair) (back q.2.2 * x.path.2.2) := by
  unfold key GNode.pair
  rw [hs, mul_comm, mul_comm (back _)]
  exact (hp.path hm j s q hq).mul _

/-- The key never gets better on the way. -/
theorem key_kid (h : PathWeights W) {dist : List W} {back : V → W} {g : Fst V} (hp : Potential dist back g) {a : Nat} {x : GNode W}
    {s : StateId} (hs : x.st = some s) {k : Tr W × GNode W} (hk : k ∈ kids back g a x s) : Best (key dist x.pair) (key dist k.2.pair) := by
  rcases List.mem_append.1 hk with hk | hk
  · obtain ⟨t, ht, rfl⟩ := List.mem_map.1 hk
    have := (hp.arc s t ht).mul x.path.2.2
    simp only [key, GNode.pair, mkKid, hs, PathT.cat, Tr.asPath]
    rw [mul_comm, show pweight dist (some t.nextstate) * (back t.weight * x.path.2.2) =
      x.path.2.2 * (back t.weight * pweight dist (some t.nextstate)) by ring]
    exact this
  · obtain ⟨v, hv, rfl⟩ := List.mem_map.1 hk
    have := (hp.fin s v (by simpa using hv)).mul x.path.2.2
    simp only [key, GNode.pair, mkKid, hs, PathT.cat, Tr.asPath, pweight, one_mul] at this ⊢
    rw [mul_comm, mul_comm (back v)]
    exact this

/-- `k` stands for the state `s`. -/
def atS (nodes : List (GNode W)) (s : StateId) (k : Nat) : Bool := decide (nodes[k]?.bind (·.st) = some s)

/-- The paths that end with the path of the `k`-th state. -/
def compAt (back : V → W) (g : Fst V) (nodes : List (GNode W)) (m k : Nat) : Multiset (PathT W) :=
  nodes[k]?.elim 0 (comp back g · m)

/-- The states waiting in the heap, expanded (`E`), dropped because `n` others were expanded at the same state of `g` (`D`), and complete
(`C`). -/
structure Search (dist : List W) (back : V → W) (g : Fst V) (n : Nat) (total : Nat → Multiset (PathT W)) (nodes : List (GNode W))
    (heap : List Nat) (r : Nat → Nat) (E D C : List Nat) : Prop where
  two : 2 ≤ nodes.length
  perm : (heap ++ (E ++ (D ++ C))).Perm (List.range' 1 (nodes.length - 1))
  kE : ∀ a ∈ E, ∃ x s, nodes[a]? = some x ∧ x.st = some s
  kD : ∀ a ∈ D, ∃ x s, nodes[a]? = some x ∧ x.st = some s
  kC : ∀ a ∈ C, ∃ x, nodes[a]? = some x ∧ x.st = none
  valid : ∀ (a : Nat) (x : GNode W) s, nodes[a]? = some x → x.st = some s → s < g.numStates
  rC : r 0 = C.length
  hC : C.length ≤ n
  rE : ∀ s, (E.filter (atS nodes s)).length = min (r (s + 1)) n
  order : ∀ a ∈ E ++ (D ++ C), ∀ x, nodes[a]? = some x → ∀ e ∈ heap, ∀ y, nodes[e]? = some y → Best (key dist x.pair) (key dist y.pair)
  dropped : ∀ d ∈ D, ∀ (x : GNode W) s, nodes[d]? = some x → x.st = some s → ∃ L : List Nat, L.Nodup ∧ L.length = n ∧
    ∀ τ ∈ L, τ ∈ E ∧ ∃ y : GNode W, nodes[τ]? = some y ∧ y.st = some s ∧ Best (key dist y.pair) (key dist x.pair)
  children : ∀ a ∈ E, ∀ (x : GNode W) s, nodes[a]? = some x → x.st = some s → ∀ k ∈ kids back g a x s, ∃ c : Nat, 1 ≤ c ∧ nodes[c]? = some k.2
  account : ∀ m, total m = ((heap ++ (D ++ C)).map (compAt back g nodes m)).sum

namespace Search
variable {dist : List W} {back : V → W} {g : Fst V} {n : Nat} {total : Nat → Multiset (PathT W)} {nodes : List (GNode W)}
  {heap : List Nat} {r : Nat → Nat} {E D C : List Nat}

theorem mem_lt (S : Search dist back g n total nodes heap r E D C) {k : Nat} (hk : k ∈ heap ++ (E ++ (D ++ C))) :
    1 ≤ k ∧ k < nodes.length := by
  have := S.two
  have := List.mem_range'_1.1 (S.perm.mem_iff.1 hk)
  omega

theorem cases_of (S : Search dist back g n total nodes heap r E D C) {k : Nat} (h1 : 1 ≤ k) (h2 : k < nodes.length) :
    k ∈ heap ∨ k ∈ E ∨ k ∈ D ∨ k ∈ C := by
  have : k ∈ heap ++ (E ++ (D ++ C)) := S.perm.mem_iff.2 (List.mem_range'_1.2 (by omega))
  simpa using this

/-- A complete path is taken from the heap. -/
theorem complete (S : Search dist back g n total nodes heap r E D C) {v : Nat} {heap' : List Nat} (hp : heap.Perm (v :: heap'))
    {x : GNode W} (hx : nodes[v]? = some x) (hs : x.st = none) (hmin : ∀ e ∈ heap', ∀ y, nodes[e]? = some y → Best (key dist x.pair) (key dist y.pair))
    (hn : C.length < n) : Search dist back g n total nodes heap' (upd r 0 (r 0 + 1)) E D (C ++ [v]) where
  two := S.two
  perm := by
    refine List.Perm.trans ?_ S.perm
    have h1 : (heap ++ (E ++ (D ++ C))).Perm (v :: (heap' ++ (E ++ (D ++ C)))) := hp.append_right _
    refine List.Perm.trans ?_ h1.symm
    have : heap' ++ (E ++ (D ++ (C ++ [v]))) = (heap' ++ (E ++ (D ++ C))) ++ [v] := by simp
    rw [this]
    exact List.perm_append_comm
  kE := S.kE
  kD := S.kD
  kC a ha := by
    rcases List.mem_append.1 ha with ha | ha
    · exact S.kC a ha
    · rw [List.mem_singleton.1 ha]; exact ⟨x, hx, hs⟩
  valid := S.valid
  rC := by simp [upd, S.rC]
  hC := by simp; omega
  rE s := by rw [S.rE]; simp [upd]
  order a ha y hy e he z hz := by
    have he' : e ∈ heap := hp.mem_iff.2 (List.mem_cons_of_mem _ he)
    rw [← List.append_assoc, ← List.append_assoc, List.append_assoc E] at ha
    rcases List.mem_append.1 ha with ha | ha
    · exact S.order a ha y hy e he' z hz
    · rw [List.mem_singleton.1 ha, hx] at hy; cases hy
      exact hmin e he z hz
  dropped := S.dropped
  children := S.children
  account m := by
    rw [S.account]
    refine List.Perm.sum_eq (List.Perm.map _ ?_)
    refine (hp.append_right _).trans ?_
    have : heap' ++ (D ++ (C ++ [v])) = (heap' ++ (D ++ C)) ++ [v] := by simp
    rw [this]
    exact (List.perm_append_comm (l₁ := [v])).symm.symm.trans (List.Perm.refl _)

/-- A state is dropped. -/
theorem drop (S : Search dist back g n total nodes heap r E D C) {v : Nat} {heap' : List Nat} (hp : heap.Perm (v :: heap'))
    {x : GNode W} {s : StateId} (hx : nodes[v]? = some x) (hs : x.st = some s)
    (hmin : ∀ e ∈ heap', ∀ y, nodes[e]? = some y → Best (key dist x.pair) (key dist y.pair)) (hn : n ≤ r (s + 1)) :
    Search dist back g n total nodes heap' (upd r (s + 1) (r (s + 1) + 1)) E (D ++ [v]) C where
  two := S.two
  perm := by
    refine List.Perm.trans ?_ S.perm
    refine List.Perm.trans ?_ (hp.append_right _).symm
    have : heap' ++ (E ++ ((D ++ [v]) ++ C)) = (heap' ++ (E ++ D)) ++ ([v] ++ C) := by simp
    rw [this]
    refine (List.perm_append_comm_assoc _ _ _).trans ?_
    simp
  kE := S.kE
  kD a ha := by
    rcases List.mem_append.1 ha with ha | ha
    · exact S.kD a ha
    · rw [List.mem_singleton.1 ha]; exact ⟨x, s, hx, hs⟩
  kC := S.kC
  valid := S.valid
  rC := by simp [upd, S.rC]
  hC := S.hC
  rE q := by
    rw [S.rE]
    by_cases hq : q = s
    · subst hq; simp [upd]; omega
    · simp [upd, hq]
  order a ha y hy e he z hz := by
    have he' : e ∈ heap := hp.mem_iff.2 (List.mem_cons_of_mem _ he)
    have : a = v ∨ a ∈ E ++ (D ++ C) := by
      simp only [List.mem_append, List.mem_singleton] at ha ⊢; tauto
    rcases this with rfl | ha
    · rw [hx] at hy; cases hy
      exact hmin e he z hz
    · exact S.order a ha y hy e he' z hz
  dropped d hd y q hy hq := by
    rcases List.mem_append.1 hd with hd | hd
    · exact S.dropped d hd y q hy hq
    · rw [List.mem_singleton.1 hd, hx] at hy; cases hy
      rw [hs] at hq; cases hq
      have hnd : E.Nodup := by
        have := S.perm.nodup_iff.2 List.nodup_range'
        exact (List.nodup_append.1 (List.nodup_append.1 this).2.1).1
      refine ⟨E.filter (atS nodes s), hnd.filter _, by rw [S.rE]; omega, fun τ hτ => ?_⟩
      obtain ⟨h1, h2⟩ := List.mem_filter.1 hτ
      obtain ⟨y, q, hy, hq⟩ := S.kE τ h1
      have : q = s := by simpa [atS, hy, hq] using h2
      subst this
      exact ⟨h1, y, hy, hq, S.order τ (List.mem_append_left _ h1) y hy v (hp.mem_iff.2 List.mem_cons_self) x hx⟩
  children := S.children
  account m := by
    rw [S.account]
    refine List.Perm.sum_eq (List.Perm.map _ ?_)
    refine (hp.append_right _).trans ?_
    have : heap' ++ ((D ++ [v]) ++ C) = (heap' ++ D) ++ ([v] ++ C) := by simp
    rw [this]
    refine List.Perm.trans ?_ (List.perm_append_comm_assoc _ _ _).symm
    simp

theorem get_old {l : List (GNode W)} {k : Nat} (hk : k < nodes.length) : (nodes ++ l)[k]? = nodes[k]? := List.getElem?_append_left hk

/-- A state is expanded. -/
theorem expand (h : PathWeights W) (hm : ∀ a b, back (a * b) = back b * back a) (hpot : Potential dist back g) (hw : g.WF)
    (S : Search dist back g n total nodes heap r E D C) {v : Nat} {heap' heap'' : List Nat} (hp : heap.Perm (v :: heap'))
    {x : GNode W} {s : StateId} (hx : nodes[v]? = some x) (hs : x.st = some s)
    (hmin : ∀ e ∈ heap', ∀ y, nodes[e]? = some y → Best (key dist x.pair) (key dist y.pair)) (hn : r (s + 1) < n)
    (hp2 : heap''.Perm (heap' ++ List.range' nodes.length (kids back g v x s).length)) :
    Search dist back g n total (nodes ++ (kids back g v x s).map (·.2)) heap'' (upd r (s + 1) (r (s + 1) + 1)) (E ++ [v]) D C := by
  set K := kids back g v x s with hK
  have hlt : ∀ {k}, k ∈ heap ++ (E ++ (D ++ C)) → k < nodes.length := fun hk => (S.mem_lt hk).2
  have hvh : v ∈ heap := hp.mem_iff.2 List.mem_cons_self
  have hheap' : ∀ {e}, e ∈ heap' → e ∈ heap := fun he => hp.mem_iff.2 (List.mem_cons_of_mem _ he)
  have hltE : ∀ {k}, k ∈ E → k < nodes.length := fun hk => hlt (by simp [hk])
  have hltD : ∀ {k}, k ∈ D → k < nodes.length := fun hk => hlt (by simp [hk])
  have hltC : ∀ {k}, k ∈ C → k < nodes.length := fun hk => hlt (by simp [hk])
  have hlth : ∀ {k}, k ∈ heap → k < nodes.length := fun hk => hlt (by simp [hk])
  have hnew : ∀ i, (nodes ++ K.map (·.2))[nodes.length + i]? = K[i]?.map (·.2) := by
    intro i
    rw [List.getElem?_append_right (by omega), Nat.add_sub_cancel_left, List.getElem?_map]
  have hnodes : ∀ {a} {y : GNode W}, (nodes ++ K.map (·.2))[a]? = some y → (a < nodes.length ∧ nodes[a]? = some y) ∨ ∃ k ∈ K, k.2 = y := by
    intro a y hy
    by_cases ha : a < nodes.length
    · exact .inl ⟨ha, by rwa [get_old ha] at hy⟩
    · obtain ⟨i, rfl⟩ : ∃ i, a = nodes.length + i := ⟨a - nodes.length, by omega⟩
      rw [hnew] at hy
      obtain ⟨k, hk, rfl⟩ := Option.map_eq_some_iff.1 hy
      exact .inr ⟨k, List.mem_of_getElem? hk, rfl⟩
  refine ⟨?_, ?_, ?_, ?_, ?_, ?_, ?_, S.hC, ?_, ?_, ?_, ?_, ?_⟩
  · have := S.two; rw [List.length_append]; omega
  · have h2 := S.two
    have e1 : (heap'' ++ (E ++ [v] ++ (D ++ C))).Perm ((heap ++ (E ++ (D ++ C))) ++ List.range' nodes.length K.length) := by
      have a1 : (heap'' ++ (E ++ [v] ++ (D ++ C))).Perm ((heap' ++ List.range' nodes.length K.length) ++ (E ++ [v] ++ (D ++ C))) :=
        hp2.append_right _
      refine a1.trans ?_
      have a2 : ((heap ++ (E ++ (D ++ C))) ++ List.range' nodes.length K.length).Perm
          (((v :: heap') ++ (E ++ (D ++ C))) ++ List.range' nodes.length K.length) := (hp.append_right _).append_right _
      refine List.Perm.trans ?_ a2.symm
      rw [← Multiset.coe_eq_coe]
      simp only [← Multiset.coe_add, ← Multiset.cons_coe, ← Multiset.singleton_add, Multiset.coe_nil]
      abel
    refine e1.trans ((S.perm.append_right _).trans ?_)
    rw [List.length_append, List.length_map]
    have e2 := List.range'_append_1 (s := 1) (m := nodes.length - 1) (n := K.length)
    rw [show 1 + (nodes.length - 1) = nodes.length by omega] at e2
    rw [e2, show nodes.length - 1 + K.length = nodes.length + K.length - 1 by omega]
  · intro a ha
    rcases List.mem_append.1 ha with ha | ha
    · obtain ⟨y, q, hy, hq⟩ := S.kE a ha
      exact ⟨y, q, by rw [get_old (hltE ha)]; exact hy, hq⟩
    · rw [List.mem_singleton.1 ha]; exact ⟨x, s, by rw [get_old (hlth hvh)]; exact hx, hs⟩
  · intro a ha
    obtain ⟨y, q, hy, hq⟩ := S.kD a ha
    exact ⟨y, q, by rw [get_old (hltD ha)]; exact hy, hq⟩
  · intro a ha
    obtain ⟨y, hy, hq⟩ := S.kC a ha
    exact ⟨y, by rw [get_old (hltC ha)]; exact hy, hq⟩
  · intro a y q hy hq
    rcases hnodes hy with ⟨ha, hy⟩ | ⟨k, hk, rfl⟩
    · exact S.valid a y q hy hq
    · rcases List.mem_append.1 hk with hk | hk
      · obtain ⟨t, ht, rfl⟩ := List.mem_map.1 hk
        cases hq
        exact hw.next_lt s t ht
      · obtain ⟨t, ht, rfl⟩ := List.mem_map.1 hk
        cases hq
  · simp [upd, S.rC]
  · intro q
    have hfe : E.filter (atS (nodes ++ K.map (·.2)) q) = E.filter (atS nodes q) := by
      refine List.filter_congr fun a ha => ?_
      unfold atS
      rw [get_old (hltE ha)]
    have hv' : atS (nodes ++ K.map (·.2)) q v = decide (s = q) := by
      unfold atS
      rw [get_old (hlth hvh), hx]
      simp [hs]
    rw [List.filter_append, List.length_append, hfe, S.rE]
    by_cases hq : q = s
    · subst hq
      simp [hv', upd]; omega
    · have : ¬ s = q := fun e => hq e.symm
      simp [hv', this, upd, hq]
  · intro a ha y hy e he z hz
    have hcase : a = v ∨ a ∈ E ++ (D ++ C) := by
      simp only [List.mem_append, List.mem_singleton] at ha ⊢; tauto
    have hay : Best (key dist y.pair) (key dist x.pair) ∧ (∀ e ∈ heap', ∀ z, nodes[e]? = some z → Best (key dist y.pair) (key dist z.pair)) := by
      rcases hcase with rfl | ha
      · rw [get_old (hlth hvh), hx] at hy; cases hy
        exact ⟨Best.refl h _, hmin⟩
      · rw [get_old (hlt (List.mem_append_right _ ha))] at hy
        exact ⟨S.order a ha y hy v hvh x hx, fun e he z hz => S.order a ha y hy e (hheap' he) z hz⟩
    rcases List.mem_append.1 (hp2.mem_iff.1 he) with he | he
    · rw [get_old (hlth (hheap' he))] at hz
      exact hay.2 e he z hz
    · have := List.mem_range'_1.1 he
      rcases hnodes hz with ⟨hh, -⟩ | ⟨k, hk, rfl⟩
      · omega
      · exact hay.1.trans (key_kid h hpot hs hk)
  · intro d hd y q hy hq
    rw [get_old (hltD hd)] at hy
    obtain ⟨L, h1, h2, h3⟩ := S.dropped d hd y q hy hq
    refine ⟨L, h1, h2, fun τ hτ => ?_⟩
    obtain ⟨h4, z, h5, h6⟩ := h3 τ hτ
    exact ⟨List.mem_append_left _ h4, z, by rw [get_old (hltE h4)]; exact h5, h6⟩
  · intro a ha y q hy hq k hk
    rcases List.mem_append.1 ha with ha | ha
    · rw [get_old (hltE ha)] at hy
      obtain ⟨c, h1, h2⟩ := S.children a ha y q hy hq k hk
      exact ⟨c, h1, by rw [get_old (List.getElem?_eq_some_iff.1 h2).1]; exact h2⟩
    · obtain rfl := List.mem_singleton.1 ha
      rw [get_old (hlth hvh), hx] at hy; cases hy
      rw [hs] at hq; cases hq
      obtain ⟨i, hi⟩ := List.getElem?_of_mem hk
      have := S.two
      exact ⟨nodes.length + i, by omega, by rw [hnew, hi]; rfl⟩
  · intro m
    have hold : ∀ l : List Nat, (∀ k ∈ l, k < nodes.length) → l.map (compAt back g (nodes ++ K.map (·.2)) m) = l.map (compAt back g nodes m) := by
      intro l hl
      refine List.map_congr_left fun k hk => ?_
      unfold compAt
      rw [get_old (hl k hk)]
    have hkids : ((List.range' nodes.length K.length).map (compAt back g (nodes ++ K.map (·.2)) m)).sum = comp back g x m := by
      rw [comp_kids hm g v hs m]
      congr 1
      refine List.ext_getElem? fun i => ?_
      rw [List.getElem?_map, List.getElem?_map, ← hK]
      by_cases hi : i < K.length
      · rw [List.getElem?_range' hi, List.getElem?_eq_getElem hi]
        show some (compAt back g _ m (nodes.length + 1 * i)) = some _
        unfold compAt
        rw [one_mul, hnew, List.getElem?_eq_getElem hi]
        rfl
      · rw [List.getElem?_eq_none (by simp; omega), List.getElem?_eq_none (by omega)]
        rfl
    rw [S.account]
    have e1 : ((heap ++ (D ++ C)).map (compAt back g nodes m)).sum = comp back g x m + ((heap' ++ (D ++ C)).map (compAt back g nodes m)).sum := by
      rw [List.Perm.sum_eq ((hp.append_right (D ++ C)).map _)]
      simp only [List.cons_append, List.map_cons, List.sum_cons]
      congr 1
      unfold compAt
      rw [hx]; rfl
    rw [e1, List.Perm.sum_eq ((hp2.append_right (D ++ C)).map _)]
    simp only [List.map_append, List.sum_append]
    rw [hkids, hold heap' (fun k hk => hlth (hheap' hk)), hold D (fun k hk => hltD hk), hold C (fun k hk => hltC hk)]
    abel

/-- The state that is `j` steps above `k`. -/
def anc (nodes : List (GNode W)) : Nat → Nat → Option Nat
  | 0, k => some k
  | j + 1, k => (nodes[k]?).bind fun x => anc nodes j x.par

theorem anc_add : ∀ (i j k b a : Nat), anc nodes i k = some b → anc nodes j b = some a → anc nodes (i + j) k = some a
  | 0, j, k, b, a, h1, h2 => by cases h1; rw [Nat.zero_add]; exact h2
  | i + 1, j, k, b, a, h1, h2 => by
    rw [show i + 1 + j = (i + j) + 1 by omega]
    show (nodes[k]?).bind (fun x => anc nodes (i + j) x.par) = some a
    obtain ⟨x, hx, h1⟩ := Option.bind_eq_some_iff.1 h1
    rw [hx]
    exact anc_add i j x.par b a h1 h2

/-- The path is not better than the complete ones; and there are `n` complete ones unless something is waiting. -/
def Beaten (nodes : List (GNode W)) (n : Nat) (heap C : List Nat) (w : W) : Prop :=
  (∀ c ∈ C, ∀ y : GNode W, nodes[c]? = some y → Best y.path.2.2 w) ∧ (heap = [] → n ≤ C.length)

theorem Beaten.mono {w w' : W} (h : Beaten nodes n heap C w) (hb : Best w w') : Beaten nodes n heap C w' :=
  ⟨fun c hc y hy => (h.1 c hc y hy).trans hb, h.2⟩

theorem of_heap (S : Search dist back g n total nodes heap r E D C) {a : Nat} (ha : a ∈ heap) {x : GNode W} (hx : nodes[a]? = some x)
    {w : W} (hb : Best (key dist x.pair) w) : Beaten nodes n heap C w := by
  refine ⟨fun c hc y hy => ?_, fun he => by rw [he] at ha; cases ha⟩
  obtain ⟨z, hz, hzs⟩ := S.kC c hc
  rw [hy] at hz; cases hz
  have h1 := S.order c (by simp [hc]) y hy a ha x hx
  have h2 : key dist y.pair = y.path.2.2 := by simp [key, GNode.pair, hzs, pweight]
  rw [h2] at h1
  exact h1.trans hb

/-- The end of the search: every completion of a state is beaten, or it is one of the complete paths. -/
theorem chase (h : PathWeights W) (hm : ∀ a b, back (a * b) = back b * back a) (hpot : Potential dist back g)
    (hcan : ∀ s, Cancels (pweight dist (some s)))
    (S : Search dist back g n total nodes heap r E D C) : ∀ (j a : Nat) (x : GNode W) (s : StateId) (q : PathT V),
      a ∈ heap ∨ a ∈ E ∨ a ∈ D → nodes[a]? = some x → x.st = some s → q ∈ g.pathsFrom j s →
      Beaten nodes n heap C (back q.2.2 * x.path.2.2) ∨
        (a ∈ E ∧ ∃ c ∈ C, ∃ y : GNode W, nodes[c]? = some y ∧ anc nodes (j + 1) c = some a ∧ y.path.2.2 = back q.2.2 * x.path.2.2) := by
  have kid : ∀ (a : Nat) (x : GNode W) (s : StateId), a ∈ E → nodes[a]? = some x → x.st = some s → ∀ k ∈ kids back g a x s,
      ∃ c, nodes[c]? = some k.2 ∧ anc nodes 1 c = some a ∧ (c ∈ heap ∨ c ∈ E ∨ c ∈ D ∨ c ∈ C) := by
    intro a x s ha hx hs k hk
    obtain ⟨c, h1, h2⟩ := S.children a ha x s hx hs k hk
    refine ⟨c, h2, ?_, S.cases_of h1 (List.getElem?_eq_some_iff.1 h2).1⟩
    have hpar : k.2.par = a := by
      rcases List.mem_append.1 hk with hk | hk
      · obtain ⟨t, -, rfl⟩ := List.mem_map.1 hk; rfl
      · obtain ⟨t, -, rfl⟩ := List.mem_map.1 hk; rfl
    show (nodes[c]?).bind (fun x => anc nodes 0 x.par) = some a
    rw [h2]
    show some k.2.par = some a
    rw [hpar]
  -- the dropped states follow from the expanded ones
  have drop : ∀ (j a : Nat) (x : GNode W) (s : StateId) (q : PathT V),
      (∀ b (y : GNode W), b ∈ E → nodes[b]? = some y → y.st = some s → Beaten nodes n heap C (back q.2.2 * y.path.2.2) ∨
        (b ∈ E ∧ ∃ c ∈ C, ∃ z : GNode W, nodes[c]? = some z ∧ anc nodes (j + 1) c = some b ∧ z.path.2.2 = back q.2.2 * y.path.2.2)) →
      a ∈ D → nodes[a]? = some x → x.st = some s → q ∈ g.pathsFrom j s → Beaten nodes n heap C (back q.2.2 * x.path.2.2) := by
    intro j a x s q hE ha hx hs hq
    obtain ⟨L, hL1, hL2, hL3⟩ := S.dropped a ha x s hx hs
    have hle : ∀ τ ∈ L, ∀ y : GNode W, nodes[τ]? = some y → Best (back q.2.2 * y.path.2.2) (back q.2.2 * x.path.2.2) := by
      intro τ hτ y hy
      obtain ⟨-, z, hz, hzs, hb⟩ := hL3 τ hτ
      rw [hy] at hz; cases hz
      by_cases h0 : pweight dist (some s) = 0
      · have := hpot.path hm j s q hq
        rw [h0] at this
        rw [this.of_zero, zero_mul, zero_mul]
        exact Best.refl h _
      · refine Best.mul ?_ _
        simp only [key, GNode.pair, hs, hzs] at hb
        exact hb.cancel h (hcan s) h0
    by_cases hex : ∃ τ ∈ L, ∃ y : GNode W, nodes[τ]? = some y ∧ Beaten nodes n heap C (back q.2.2 * y.path.2.2)
    · obtain ⟨τ, hτ, y, hy, hb⟩ := hex
      exact hb.mono (hle τ hτ y hy)
    · have hall : ∀ τ ∈ L, ∃ c ∈ C, ∃ y : GNode W, nodes[c]? = some y ∧ anc nodes (j + 1) c = some τ ∧ Best y.path.2.2 (back q.2.2 * x.path.2.2) := by
        intro τ hτ
        obtain ⟨hτE, z, hz, hzs, -⟩ := hL3 τ hτ
        rcases hE τ z hτE hz hzs with hb | ⟨-, c, hc, y, hy, hanc, he⟩
        · exact absurd ⟨τ, hτ, z, hz, hb⟩ hex
        · exact ⟨c, hc, y, hy, hanc, by rw [he]; exact hle τ hτ z hz⟩
      -- `n` different complete paths: they are all
      have hCn : C.Nodup := by
        have := S.perm.nodup_iff.2 List.nodup_range'
        exact (List.nodup_append.1 (List.nodup_append.1 (List.nodup_append.1 this).2.1).2.1).2.1
      choose! F hF1 hF2 using hall
      have hinj : ∀ τ ∈ L, ∀ τ' ∈ L, F τ = F τ' → τ = τ' := by
        intro τ hτ τ' hτ' he
        obtain ⟨y, -, h1, -⟩ := hF2 τ hτ
        obtain ⟨y', -, h2, -⟩ := hF2 τ' hτ'
        rw [he, h2] at h1
        exact (Option.some.inj h1).symm
      have hnd : (L.map F).Nodup := List.Nodup.map_on (fun a ha b hb he => hinj a ha b hb he) hL1
      have hsub : (L.map F) ⊆ C := by
        intro c hc
        obtain ⟨τ, hτ, rfl⟩ := List.mem_map.1 hc
        exact hF1 τ hτ
      have hsp : List.Subperm (L.map F) C := hnd.subperm hsub
      have hCL : C.length ≤ (L.map F).length := by rw [List.length_map, hL2]; exact S.hC
      have hperm : (L.map F).Perm C := hsp.perm_of_length_le hCL
      refine ⟨fun c hc y hy => ?_, fun _ => by rw [← hperm.length_eq, List.length_map, hL2]⟩
      obtain ⟨τ, hτ, rfl⟩ := List.mem_map.1 (hperm.mem_iff.2 hc)
      obtain ⟨y', hy', -, hb⟩ := hF2 τ hτ
      rw [hy] at hy'; cases hy'
      exact hb
  intro j
  induction j with
  | zero =>
    have hE : ∀ (b : Nat) (y : GNode W) (s : StateId) (q : PathT V), b ∈ E → nodes[b]? = some y → y.st = some s → q ∈ g.pathsFrom 0 s →
        Beaten nodes n heap C (back q.2.2 * y.path.2.2) ∨
        (b ∈ E ∧ ∃ c ∈ C, ∃ z : GNode W, nodes[c]? = some z ∧ anc nodes (0 + 1) c = some b ∧ z.path.2.2 = back q.2.2 * y.path.2.2) := by
      intro b y s q hb hy hs hq
      rw [pathsFrom_zero] at hq
      cases hv : g.finOf s with
      | none => rw [hv] at hq; simp at hq
      | some v =>
        rw [hv] at hq
        obtain rfl := Multiset.mem_singleton.1 hq
        obtain ⟨c, h1, h2, h3⟩ := kid b y s hb hy hs (mkKid b y none EPS EPS (back v))
          (List.mem_append_right _ (List.mem_map.2 ⟨v, by simp [hv], rfl⟩))
        have hw : (mkKid b y none EPS EPS (back v)).2.path.2.2 = back v * y.path.2.2 := rfl
        rcases h3 with h3 | h3 | h3 | h3
        · refine .inl (S.of_heap h3 h1 ?_)
          have : key dist (mkKid b y none EPS EPS (back v)).2.pair = back v * y.path.2.2 := by
            simp [key, GNode.pair, mkKid, pweight, PathT.cat, Tr.asPath]
          rw [this]
          exact Best.refl h _
        · obtain ⟨z, s', hz, hzs⟩ := S.kE c h3
          rw [h1] at hz; cases hz; cases hzs
        · obtain ⟨z, s', hz, hzs⟩ := S.kD c h3
          rw [h1] at hz; cases hz; cases hzs
        · exact .inr ⟨hb, c, h3, _, h1, h2, hw⟩
    intro a x s q ha hx hs hq
    rcases ha with ha | ha | ha
    · exact .inl (S.of_heap ha hx (key_best hm hpot hs hq))
    · exact hE a x s q ha hx hs hq
    · exact .inl (drop 0 a x s q (fun b y hb hy hys => hE b y s q hb hy hys hq) ha hx hs hq)
  | succ j ih =>
    have hE : ∀ (b : Nat) (y : GNode W) (s : StateId) (q : PathT V), b ∈ E → nodes[b]? = some y → y.st = some s → q ∈ g.pathsFrom (j + 1) s →
        Beaten nodes n heap C (back q.2.2 * y.path.2.2) ∨
        (b ∈ E ∧ ∃ c ∈ C, ∃ z : GNode W, nodes[c]? = some z ∧ anc nodes (j + 1 + 1) c = some b ∧ z.path.2.2 = back q.2.2 * y.path.2.2) := by
      intro b y s q hb hy hs hq
      rw [pathsFrom_succ, Multiset.mem_bind] at hq
      obtain ⟨t, ht, hq⟩ := hq
      obtain ⟨q', hq', rfl⟩ := Multiset.mem_map.1 hq
      obtain ⟨c, h1, h2, h3⟩ := kid b y s hb hy hs (mkKid b y (some t.nextstate) t.ilabel t.olabel (back t.weight))
        (List.mem_append_left _ (List.mem_map.2 ⟨t, by simpa using ht, rfl⟩))
      have hw : back q'.2.2 * (mkKid b y (some t.nextstate) t.ilabel t.olabel (back t.weight)).2.path.2.2 =
          back (t.asPath.cat q').2.2 * y.path.2.2 := by
        simp only [mkKid, PathT.cat, Tr.asPath, hm, mul_assoc]
      have h3' : c ∈ heap ∨ c ∈ E ∨ c ∈ D := by
        rcases h3 with h3 | h3 | h3 | h3
        · exact .inl h3
        · exact .inr (.inl h3)
        · exact .inr (.inr h3)
        · obtain ⟨z, hz, hzs⟩ := S.kC c h3
          rw [h1] at hz; cases hz; cases hzs
      rcases ih c _ t.nextstate q' h3' h1 rfl hq' with hb' | ⟨-, c', hc', z, hz, hanc, he⟩
      · rw [hw] at hb'; exact .inl hb'
      · exact .inr ⟨hb, c', hc', z, hz, anc_add _ _ _ _ _ hanc h2, by rw [he, hw]⟩
    intro a x s q ha hx hs hq
    rcases ha with ha | ha | ha
    · exact .inl (S.of_heap ha hx (key_best hm hpot hs hq))
    · exact hE a x s q ha hx hs hq
    · exact .inl (drop (j + 1) a x s q (fun b y hb hy hys => hE b y s q hb hy hys hq) ha hx hs hq)

/-- The end of the search: the complete paths are a part of all the paths, and the others are not better. -/
theorem result (h : PathWeights W) (hm : ∀ a b, back (a * b) = back b * back a) (hpot : Potential dist back g)
    (hcan : ∀ s, Cancels (pweight dist (some s)))
    (S : Search dist back g n total nodes heap r E D C) (m : Nat) : ∃ rest : Multiset (PathT W),
      total m = (C.map (compAt back g nodes m)).sum + rest ∧ ∀ p ∈ rest, Beaten nodes n heap C p.2.2 := by
  refine ⟨((heap ++ D).map (compAt back g nodes m)).sum, ?_, ?_⟩
  · rw [S.account]
    simp only [List.map_append, List.sum_append]
    abel
  · intro p hp
    have : ∀ l : List Nat, p ∈ (l.map (compAt back g nodes m)).sum → ∃ k ∈ l, p ∈ compAt back g nodes m k := by
      intro l
      induction l with
      | nil => intro h; simp at h
      | cons a l ih =>
        intro h
        rw [List.map_cons, List.sum_cons, Multiset.mem_add] at h
        rcases h with h | h
        · exact ⟨a, List.mem_cons_self, h⟩
        · obtain ⟨k, hk, h⟩ := ih h
          exact ⟨k, List.mem_cons_of_mem _ hk, h⟩
    obtain ⟨k, hk, hp⟩ := this _ hp
    unfold compAt at hp
    cases hx : nodes[k]? with
    | none => rw [hx] at hp; simp at hp
    | some x =>
      rw [hx] at hp
      change p ∈ comp back g x m at hp
      unfold comp at hp
      cases hs : x.st with
      | none =>
        rw [hs] at hp
        have hkh : k ∈ heap := by
          rcases List.mem_append.1 hk with hk | hk
          · exact hk
          · obtain ⟨z, s', hz, hzs⟩ := S.kD k hk
            rw [hx] at hz; cases hz; rw [hs] at hzs; cases hzs
        by_cases hd : x.dep = m + 1
        · simp only [if_pos hd] at hp
          obtain rfl := Multiset.mem_singleton.1 hp
          refine S.of_heap hkh hx ?_
          have : key dist x.pair = x.path.2.2 := by simp [key, GNode.pair, hs, pweight]
          rw [this]; exact Best.refl h _
        · simp [if_neg hd] at hp
      | some s =>
        rw [hs] at hp
        by_cases hd : x.dep ≤ m
        · simp only [if_pos hd] at hp
          obtain ⟨q, hq, rfl⟩ := Multiset.mem_map.1 hp
          rcases List.mem_append.1 hk with hk | hk
          · rcases S.chase h hm hpot hcan _ k x s q (.inl hk) hx hs hq with hb | ⟨hE, -⟩
            · exact hb
            · exact S.of_heap hk hx (key_best hm hpot hs hq)
          · rcases S.chase h hm hpot hcan _ k x s q (.inr (.inr hk)) hx hs hq with hb | ⟨hE, -⟩
            · exact hb
            · -- a dropped state is not expanded
              have := S.perm.nodup_iff.2 List.nodup_range'
              have h2 := (List.nodup_append.1 (List.nodup_append.1 this).2.1).2.2 k hE k (List.mem_append_left _ hk)
              exact absurd rfl h2
        · simp [if_neg hd] at hp

end Search
end
end Verif
