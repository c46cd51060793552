import Verif.Model.Isomorphic
import Verif.Spec.Iso
import Verif.Spec.Path
import Verif.Spec.Distance
import Verif.Lemmas.Access
import Verif.Lemmas.Wf
import Verif.Lemmas.Lazy
import Mathlib.Data.List.Perm.Basic
import Mathlib.Data.List.Sort

/-! # Lemmas about `isomorphic` -/

namespace Verif
set_option linter.unusedSectionVars false
universe u
variable {W : Type u} {lt : W → W → Bool} {approx : W → W → Bool}

theorem trInsert_perm (x : Tr W) (l) : (trInsert lt x l).Perm (x :: l) := by
  induction l with
  | nil => exact List.Perm.refl _
  | cons y ys ih =>
    simp only [trInsert]
    split
    · exact (ih.cons y).trans (List.Perm.swap x y ys)
    · exact List.Perm.refl _

theorem trSortBy_perm (l : List (Tr W)) : (trSortBy lt l).Perm l := by
  induction l with
  | nil => exact List.Perm.refl _
  | cons x xs ih => exact (trInsert_perm x _).trans (ih.cons x)

/-- The order by which transitions are sorted. -/
def TrLe (lt : W → W → Bool) (a b : Tr W) : Prop :=
  a.ilabel < b.ilabel ∨ a.ilabel = b.ilabel ∧ (a.olabel < b.olabel ∨ a.olabel = b.olabel ∧
    (lt a.weight b.weight = true ∨ a.weight = b.weight ∧ a.nextstate ≤ b.nextstate))

theorem trCompare_le (h : StrictTotal lt) {a b : Tr W} (hc : trCompare lt a b ≠ .gt) : TrLe lt a b := by
  unfold trCompare at hc
  split at hc
  · exact Or.inl ‹_›
  split at hc
  · exact absurd rfl hc
  refine Or.inr ⟨by omega, ?_⟩
  split at hc
  · exact Or.inl ‹_›
  split at hc
  · exact absurd rfl hc
  refine Or.inr ⟨by omega, ?_⟩
  split at hc
  · exact Or.inl ‹_›
  split at hc
  · exact absurd rfl hc
  rename_i h1 h2
  rcases h.total a.weight b.weight with h3 | h3 | h3
  · exact absurd h3 h1
  · refine Or.inr ⟨h3, ?_⟩
    split at hc
    · omega
    split at hc
    · exact absurd rfl hc
    · omega
  · exact absurd h3 h2

theorem trCompare_gt (h : StrictTotal lt) {a b : Tr W} (hc : trCompare lt a b = .gt) : TrLe lt b a := by
  unfold trCompare at hc
  split at hc
  · cases hc
  split at hc
  · exact Or.inl ‹_›
  refine Or.inr ⟨by omega, ?_⟩
  split at hc
  · cases hc
  split at hc
  · exact Or.inl ‹_›
  refine Or.inr ⟨by omega, ?_⟩
  split at hc
  · cases hc
  split at hc
  · exact Or.inl ‹_›
  rename_i h1 h2
  rcases h.total a.weight b.weight with h3 | h3 | h3
  · exact absurd h3 h1
  · refine Or.inr ⟨h3.symm, ?_⟩
    split at hc
    · cases hc
    split at hc
    · omega
    · cases hc
  · exact absurd h3 h2

theorem StrictTotal.asymm (h : StrictTotal lt) {a b} (h1 : lt a b = true) (h2 : lt b a = true) : False := by
  have := h.trans _ _ _ h1 h2
  rw [h.irrefl] at this
  cases this

theorem TrLe.trans (h : StrictTotal lt) {a b c : Tr W} (h1 : TrLe lt a b) (h2 : TrLe lt b c) : TrLe lt a c := by
  rcases h1 with h1 | ⟨e1, h1⟩
  · rcases h2 with h2 | ⟨e2, h2⟩
    · exact Or.inl (by omega)
    · exact Or.inl (by omega)
  · rcases h2 with h2 | ⟨e2, h2⟩
    · exact Or.inl (by omega)
    · refine Or.inr ⟨by omega, ?_⟩
      rcases h1 with h1 | ⟨e1', h1⟩
      · rcases h2 with h2 | ⟨e2', h2⟩
        · exact Or.inl (by omega)
        · exact Or.inl (by omega)
      · rcases h2 with h2 | ⟨e2', h2⟩
        · exact Or.inl (by omega)
        · refine Or.inr ⟨by omega, ?_⟩
          rcases h1 with h1 | ⟨e1'', h1⟩
          · rcases h2 with h2 | ⟨e2'', h2⟩
            · exact Or.inl (h.trans _ _ _ h1 h2)
            · exact Or.inl (e2'' ▸ h1)
          · rcases h2 with h2 | ⟨e2'', h2⟩
            · exact Or.inl (e1'' ▸ h2)
            · exact Or.inr ⟨e1''.trans e2'', by omega⟩

theorem TrLe.antisymm (h : StrictTotal lt) {a b : Tr W} (h1 : TrLe lt a b) (h2 : TrLe lt b a) : a = b := by
  rcases h1 with h1 | ⟨e1, h1⟩
  · rcases h2 with h2 | ⟨e2, h2⟩ <;> omega
  rcases h2 with h2 | ⟨e2, h2⟩
  · omega
  rcases h1 with h1 | ⟨e1', h1⟩
  · rcases h2 with h2 | ⟨e2', h2⟩ <;> omega
  rcases h2 with h2 | ⟨e2', h2⟩
  · omega
  rcases h1 with h1 | ⟨e1'', h1⟩
  · rcases h2 with h2 | ⟨e2'', h2⟩
    · exact (h.asymm h1 h2).elim
    · rw [e2'', h.irrefl] at h1; cases h1
  rcases h2 with h2 | ⟨e2'', h2⟩
  · rw [e1'', h.irrefl] at h2; cases h2
  cases a; cases b
  simp only at *
  subst e1 e1' e1''
  congr
  omega

theorem trInsert_sorted (h : StrictTotal lt) (x : Tr W) {l} (hl : l.Pairwise (TrLe lt)) :
    (trInsert lt x l).Pairwise (TrLe lt) := by
  induction l with
  | nil => simp [trInsert]
  | cons y ys ih =>
    rw [List.pairwise_cons] at hl
    simp only [trInsert]
    split
    · rename_i hc
      rw [List.pairwise_cons]
      refine ⟨fun z hz => ?_, ih hl.2⟩
      rcases List.mem_cons.1 ((trInsert_perm x ys).mem_iff.1 hz) with rfl | hz
      · exact trCompare_gt h hc
      · exact hl.1 z hz
    · rename_i hc
      rw [List.pairwise_cons]
      refine ⟨fun z hz => ?_, List.pairwise_cons.2 hl⟩
      have hxy := trCompare_le h hc
      rcases List.mem_cons.1 hz with rfl | hz
      · exact hxy
      · exact hxy.trans h (hl.1 z hz)

theorem trSortBy_sorted (h : StrictTotal lt) (l : List (Tr W)) : (trSortBy lt l).Pairwise (TrLe lt) := by
  induction l with
  | nil => exact List.Pairwise.nil
  | cons x xs ih => exact trInsert_sorted h x ih

/-! ## Pairing states -/

namespace Iso

/-- The pairs recorded so far. -/
def map (i : Iso) (s : StateId) : Option StateId := (i.pairs[s]?).join

/-- Number of states that are not paired yet. -/
def free (i : Iso) : Nat := i.pairs.countP (·.isNone)

theorem free_set {l : List (Option StateId)} {s : Nat} {t} (h : l[s]? = some none) :
    (l.set s (some t)).countP (·.isNone) + 1 = l.countP (·.isNone) := by
  induction l generalizing s with
  | nil => simp at h
  | cons x xs ih =>
    cases s with
    | zero => simp at h; subst h; simp
    | succ s =>
      simp only [List.getElem?_cons_succ] at h
      simp only [List.set_cons_succ, List.countP_cons]
      have := ih h
      omega

/-- What a step may do to the table and the queue. -/
structure Grow (i i' : Iso) : Prop where
  len : i'.pairs.length = i.pairs.length
  keep : ∀ s t, i.map s = some t → i'.map s = some t
  queue : ∃ l, i'.queue = i.queue ++ l ∧ (∀ p ∈ l, i'.map p.1 = some p.2) ∧
    (∀ s t, i'.map s = some t → i.map s = some t ∨ (s, t) ∈ l) ∧ l.length + i'.free = i.free

theorem Grow.refl (i : Iso) : Grow i i := ⟨rfl, fun _ _ h => h, [], by simp⟩

theorem Grow.trans {i j k : Iso} (h1 : Grow i j) (h2 : Grow j k) : Grow i k := by
  obtain ⟨a1, b1, l1, c1, d1, e1, f1⟩ := h1
  obtain ⟨a2, b2, l2, c2, d2, e2, f2⟩ := h2
  refine ⟨a2.trans a1, fun s t h => b2 _ _ (b1 _ _ h), l1 ++ l2, by rw [c2, c1, List.append_assoc], ?_, ?_, ?_⟩
  · intro p hp
    rcases List.mem_append.1 hp with hp | hp
    · exact b2 _ _ (d1 p hp)
    · exact d2 p hp
  · intro s t h
    rcases e2 s t h with h | h
    · rcases e1 s t h with h | h
      · exact Or.inl h
      · exact Or.inr (List.mem_append_left _ h)
    · exact Or.inr (List.mem_append_right _ h)
  · simp only [List.length_append]; omega

theorem map_set {i : Iso} {s1 s2} (h : i.pairs[s1]? = some none) (s : StateId) :
    (({ i with pairs := i.pairs.set s1 (some s2), queue := i.queue ++ [(s1, s2)] } : Iso).map s) =
      if s = s1 then some s2 else i.map s := by
  have hl : s1 < i.pairs.length := by
    by_contra hc
    rw [List.getElem?_eq_none (Nat.le_of_not_lt hc)] at h
    cases h
  simp only [map, List.getElem?_set]
  by_cases e : s1 = s
  · subst e; simp [hl]
  · have e' : ¬ s = s1 := fun h => e h.symm
    simp [e, e']

/-- `pair_state` never fails on existing states; on success it has recorded the pair. -/
theorem pairState_spec (i : Iso) {s1 s2} (h : s1 < i.pairs.length) :
    ∃ b i', i.pairState s1 s2 = .ok (b, i') ∧ Grow i i' ∧ i'.nonDet = i.nonDet ∧
      (b = true → i'.map s1 = some s2) ∧ (b = false → ∃ q, i.map s1 = some q ∧ q ≠ s2) ∧
      (∀ p ∈ i'.queue, p ∈ i.queue ∨ p = (s1, s2)) ∧ ∀ s t, i'.map s = some t → i.map s = some t ∨ s = s1 ∧ t = s2 := by
  unfold pairState
  rcases hp : i.pairs[s1]? with _ | _ | q
  · rw [List.getElem?_eq_getElem h] at hp; cases hp
  · refine ⟨_, _, rfl, ⟨by simp, ?_, [(s1, s2)], rfl, ?_, ?_, ?_⟩, rfl, ?_, (nomatch ·), fun p hp => by simpa using hp, ?_⟩
    · intro s t hs
      rw [map_set hp]
      split
      · rename_i e; subst e; simp [map, hp] at hs
      · exact hs
    · intro p hp'
      simp only [List.mem_singleton] at hp'
      subst hp'
      rw [map_set hp]; simp
    · intro s t hs
      rw [map_set hp] at hs
      split at hs
      · rename_i e; subst e; injection hs with hs; subst hs; exact Or.inr (by simp)
      · exact Or.inl hs
    · have := free_set (t := s2) hp
      simp only [free, List.length_singleton]
      omega
    · intro _
      rw [map_set hp]; simp
    · intro s t hs
      rw [map_set hp] at hs
      split at hs
      · rename_i e; injection hs with hs; exact Or.inr ⟨e, hs.symm⟩
      · exact Or.inl hs
  · dsimp only
    split
    · rename_i e
      subst e
      exact ⟨_, _, rfl, Grow.refl _, rfl, fun _ => by simp [map, hp], (nomatch ·), fun _ h => Or.inl h, fun _ _ h => Or.inl h⟩
    · rename_i e
      exact ⟨_, _, rfl, Grow.refl _, rfl, (nomatch ·), fun _ => ⟨q, by simp [map, hp], e⟩, fun _ h => Or.inl h, fun _ _ h => Or.inl h⟩

/-- Two transitions match under a pairing. -/
def TrMatch (same : W → W → Prop) (φ : StateId → Option StateId) (a b : Tr W) : Prop :=
  a.ilabel = b.ilabel ∧ a.olabel = b.olabel ∧ same a.weight b.weight ∧ φ a.nextstate = some b.nextstate

theorem Grow.flag {i i' : Iso} {b : Bool} (h : Grow i i') : Grow i { i' with nonDet := b } := ⟨h.len, h.keep, h.queue⟩

theorem forall2_match_mono {same : W → W → Prop} {φ ψ : StateId → Option StateId} (h : ∀ s t, φ s = some t → ψ s = some t) {l1 l2}
    (hl : List.Forall₂ (TrMatch same φ) l1 l2) : List.Forall₂ (TrMatch same ψ) l1 l2 :=
  hl.imp fun _ _ hab => ⟨hab.1, hab.2.1, hab.2.2.1, h _ _ hab.2.2.2⟩

/-- The loop over the transitions. -/
theorem matchTrs_spec (l1 : List (Tr W)) : ∀ (l2 : List (Tr W)) (prev : Option (Tr W)) (i : Iso), l1.length = l2.length →
    (∀ a ∈ l1, a.nextstate < i.pairs.length) →
    ∃ b i', i.matchTrs approx l1 l2 prev = .ok (b, i') ∧ Grow i i' ∧
      (b = true → List.Forall₂ (TrMatch (fun x y => approx x y = true) i'.map) l1 l2) ∧
      ∀ p ∈ i'.queue, p ∈ i.queue ∨ (∃ a ∈ l1, a.nextstate = p.1) ∧ ∃ b ∈ l2, b.nextstate = p.2 := by
  induction l1 with
  | nil =>
    intro l2 prev i hl _
    cases l2 with
    | nil => exact ⟨_, _, rfl, Grow.refl _, fun _ => List.Forall₂.nil, fun _ h => Or.inl h⟩
    | cons _ _ => simp at hl
  | cons a as ih =>
    intro l2 prev i hl hn
    cases l2 with
    | nil => simp at hl
    | cons b bs =>
      simp only [matchTrs]
      split
      · exact ⟨_, _, rfl, Grow.refl _, (nomatch ·), fun _ h => Or.inl h⟩
      split
      · exact ⟨_, _, rfl, Grow.refl _, (nomatch ·), fun _ h => Or.inl h⟩
      split
      · exact ⟨_, _, rfl, Grow.refl _, (nomatch ·), fun _ h => Or.inl h⟩
      rename_i h1 h2 h3
      obtain ⟨c, i1, e1, g1, _, p1, _, q1, _⟩ := pairState_spec i (s2 := b.nextstate) (hn a (by simp))
      have q1' : ∀ p ∈ i1.queue, p ∈ i.queue ∨ (∃ x ∈ a :: as, x.nextstate = p.1) ∧ ∃ y ∈ b :: bs, y.nextstate = p.2 := by
        intro p hp
        rcases q1 p hp with h | h
        · exact Or.inl h
        · subst h; exact Or.inr ⟨⟨a, by simp, rfl⟩, b, by simp, rfl⟩
      rw [e1]
      cases c with
      | false => exact ⟨_, _, rfl, g1, (nomatch ·), q1'⟩
      | true =>
        obtain ⟨c, i2, e2, g2, p2, q2⟩ := ih bs (some a) { i1 with nonDet := i1.nonDet || sameAsPrev approx prev a }
          (by simpa using hl) (fun x hx => by have := hn x (by simp [hx]); have := g1.len; simp only; omega)
        refine ⟨c, i2, e2, (g1.flag).trans g2, fun hc => List.Forall₂.cons ⟨not_not.1 h1, not_not.1 h2, ?_, ?_⟩ (p2 hc), ?_⟩
        · simpa using h3
        · exact g2.keep _ _ (p1 rfl)
        · intro p hp
          rcases q2 p hp with h | ⟨⟨x, hx, ex⟩, y, hy, ey⟩
          · exact q1' p h
          · exact Or.inr ⟨⟨x, by simp [hx], ex⟩, y, by simp [hy], ey⟩

theorem finEqual_rel {x y : Option W} (h : finEqual approx x y = true) : Option.Rel (fun a b => approx a b = true) x y := by
  cases x <;> cases y <;> simp [finEqual] at h
  · exact Option.Rel.none
  · exact Option.Rel.some h

/-- What it means for a pair of states to be checked. -/
def Checked (same : W → W → Prop) (A B : Fst W) (φ : StateId → Option StateId) (s t : StateId) : Prop :=
  Option.Rel same (A.finOf s) (B.finOf t) ∧ ∃ l, l.Perm (B.trsOf t) ∧ List.Forall₂ (TrMatch same φ) (A.trsOf s) l

theorem Checked.mono {same : W → W → Prop} {A B : Fst W} {φ ψ : StateId → Option StateId} (h : ∀ s t, φ s = some t → ψ s = some t)
    {s t} (hc : Checked same A B φ s t) : Checked same A B ψ s t := by
  obtain ⟨a, l, b, c⟩ := hc
  exact ⟨a, l, b, forall2_match_mono h c⟩

theorem forall2_perm {α β : Type*} {r : α → β → Prop} {l1 l1' : List α} {l2 : List β} (hp : l1'.Perm l1)
    (h : List.Forall₂ r l1 l2) : ∃ l2', List.Forall₂ r l1' l2' ∧ l2'.Perm l2 := List.perm_comp_forall₂ hp h

theorem state_eq {A B : Fst W} {s t} (hs : s < A.numStates) (ht : t < B.numStates) (i : Iso) :
    Iso.state lt approx A B s t i =
      if finEqual approx (A.finOf s) (B.finOf t) = false then .ok (false, i)
      else if (A.trsOf s).length ≠ (B.trsOf t).length then .ok (false, i)
      else i.matchTrs approx (trSortBy lt (A.trsOf s)) (trSortBy lt (B.trsOf t)) none := by
  unfold Fst.numStates at hs ht
  simp only [Iso.state, Fst.finalWeightR, Fst.numTrsR, Fst.getTrsR, Fst.finOf, Fst.trsOf, List.getElem?_eq_getElem hs,
    List.getElem?_eq_getElem ht]

theorem state_spec {A B : Fst W} (hA : A.WF) (hB : B.WF) {s t} (hs : s < A.numStates) (ht : t < B.numStates) (i : Iso)
    (hi : i.pairs.length = A.numStates) :
    ∃ b i', Iso.state lt approx A B s t i = .ok (b, i') ∧ Grow i i' ∧
      (b = true → Checked (fun x y => approx x y = true) A B i'.map s t) ∧
      ∀ p ∈ i'.queue, p ∈ i.queue ∨ p.1 < A.numStates ∧ p.2 < B.numStates := by
  rw [state_eq hs ht]
  split
  · exact ⟨_, _, rfl, Grow.refl _, (nomatch ·), fun _ h => Or.inl h⟩
  split
  · exact ⟨_, _, rfl, Grow.refl _, (nomatch ·), fun _ h => Or.inl h⟩
  rename_i h1 h2
  have pA := trSortBy_perm (lt := lt) (A.trsOf s)
  have pB := trSortBy_perm (lt := lt) (B.trsOf t)
  obtain ⟨b, i', e, g, m, q⟩ := matchTrs_spec (approx := approx) (trSortBy lt (A.trsOf s)) (trSortBy lt (B.trsOf t)) none i
    (by rw [pA.length_eq, pB.length_eq]; exact not_not.1 h2)
    (fun a ha => by rw [hi]; exact hA.next_lt _ _ (pA.mem_iff.1 ha))
  refine ⟨b, i', e, g, fun hb => ⟨finEqual_rel (by simpa using h1), ?_⟩, ?_⟩
  · obtain ⟨l, hl, hp⟩ := forall2_perm pA.symm (m hb)
    exact ⟨l, hp.trans pB, hl⟩
  · intro p hp
    rcases q p hp with h | ⟨⟨a, ha, ea⟩, b, hb, eb⟩
    · exact Or.inl h
    · exact Or.inr ⟨ea ▸ hA.next_lt _ _ (pA.mem_iff.1 ha), eb ▸ hB.next_lt _ _ (pB.mem_iff.1 hb)⟩

/-- The invariant of the main loop. -/
structure Inv (approx : W → W → Bool) (A B : Fst W) (i : Iso) : Prop where
  len : i.pairs.length = A.numStates
  bound : ∀ p ∈ i.queue, p.1 < A.numStates ∧ p.2 < B.numStates
  named : ∀ p ∈ i.queue, i.map p.1 = some p.2
  done : ∀ s t, i.map s = some t → (s, t) ∈ i.queue ∨ Checked (fun x y => approx x y = true) A B i.map s t

theorem step_inv {A B : Fst W} (hA : A.WF) (hB : B.WF) {i i' : Iso} {s t q} (hi : Inv approx A B i)
    (hq : i.queue = (s, t) :: q) (e : Iso.state lt approx A B s t { i with queue := q } = .ok (true, i')) : Inv approx A B i' := by
  have hst : s < A.numStates ∧ t < B.numStates := hi.bound (s, t) (by simp [hq])
  obtain ⟨b, i'', e'', g, c, qq⟩ := state_spec (lt := lt) (approx := approx) hA hB hst.1 hst.2 { i with queue := q } hi.len
  rw [e] at e''
  injection e'' with e''
  injection e'' with e1 e2
  subst e1 e2
  obtain ⟨l, hl, hm, hs, hf⟩ := g.queue
  have hmap : ∀ x y, i.map x = some y → i'.map x = some y := g.keep
  refine ⟨g.len.trans hi.len, ?_, ?_, ?_⟩
  · intro p hp
    rcases qq p hp with h | h
    · exact hi.bound p (by rw [hq]; exact List.mem_cons_of_mem _ h)
    · exact h
  · intro p hp
    rw [hl] at hp
    rcases List.mem_append.1 hp with hp | hp
    · exact hmap _ _ (hi.named p (by rw [hq]; exact List.mem_cons_of_mem _ hp))
    · exact hm p hp
  · intro x y hxy
    rcases hs x y hxy with h | h
    · rcases hi.done x y h with h | h
      · rw [hq] at h
        rcases List.mem_cons.1 h with h | h
        · injection h with h1 h2; subst h1 h2; exact Or.inr (c rfl)
        · exact Or.inl (by rw [hl]; exact List.mem_append_left _ h)
      · exact Or.inr (h.mono hmap)
    · exact Or.inl (by rw [hl]; exact List.mem_append_right _ h)

theorem loop_spec {A B : Fst W} (hA : A.WF) (hB : B.WF) : ∀ (n : Nat) (i : Iso), Inv approx A B i → i.queue.length + i.free < n →
    ∃ r, (∀ m, n ≤ m → Iso.loop lt approx A B m i = some r) ∧ r ≠ .error .panic ∧
      (r = .ok true → ∃ φ, (∀ s t, i.map s = some t → φ s = some t) ∧
        ∀ s t, φ s = some t → Checked (fun x y => approx x y = true) A B φ s t) := by
  intro n
  induction n with
  | zero => intro i _ h; omega
  | succ n ih =>
    intro i hi hn
    rcases hq : i.queue with _ | ⟨⟨s, t⟩, q⟩
    · refine ⟨.ok true, fun m hm => ?_, (nomatch ·), fun _ => ⟨i.map, fun _ _ h => h, fun s t h => ?_⟩⟩
      · obtain ⟨m, rfl⟩ : ∃ k, m = k + 1 := ⟨m - 1, by omega⟩
        simp [Iso.loop, hq]
      · rcases hi.done s t h with h | h
        · rw [hq] at h; cases h
        · exact h
    · have hst : s < A.numStates ∧ t < B.numStates := hi.bound (s, t) (by simp [hq])
      obtain ⟨b, i', e, g, c, qq⟩ := state_spec (lt := lt) (approx := approx) hA hB hst.1 hst.2 { i with queue := q } hi.len
      cases b with
      | false =>
        refine ⟨if i'.nonDet then .error .err else .ok false, fun m hm => ?_, ?_, ?_⟩
        · obtain ⟨m, rfl⟩ : ∃ k, m = k + 1 := ⟨m - 1, by omega⟩
          simp only [Iso.loop, hq, e]
          split <;> rfl
        · split <;> exact (nomatch ·)
        · split <;> exact (nomatch ·)
      | true =>
        have hinv : Inv approx A B i' := step_inv hA hB hi hq e
        obtain ⟨l, hl, hm, hs, hf⟩ := g.queue
        have hmap : ∀ x y, i.map x = some y → i'.map x = some y := g.keep
        have hlen : i'.queue.length + i'.free < n := by
          rw [hl, List.length_append]
          rw [hq, List.length_cons] at hn
          have : ({ i with queue := q } : Iso).free = i.free := rfl
          simp only at hf ⊢
          omega
        obtain ⟨r, h1, h2, h3⟩ := ih i' hinv hlen
        refine ⟨r, fun m hm => ?_, h2, fun hr => ?_⟩
        · obtain ⟨m, rfl⟩ : ∃ k, m = k + 1 := ⟨m - 1, by omega⟩
          simp only [Iso.loop, hq, e]
          exact h1 m (by omega)
        · obtain ⟨φ, a, b⟩ := h3 hr
          exact ⟨φ, fun s t h => a _ _ (hmap _ _ h), b⟩

theorem init_inv {A B : Fst W} {s t} (hs : s < A.numStates) (ht : t < B.numStates) :
    ∃ i, (⟨List.replicate A.numStates none, [], false⟩ : Iso).pairState s t = .ok (true, i) ∧ Inv approx A B i ∧
      i.map s = some t ∧ i.queue.length + i.free < A.numStates + 1 ∧ i.nonDet = false ∧ ∀ p ∈ i.queue, p = (s, t) := by
  obtain ⟨i0, h0⟩ : ∃ i0, i0 = (⟨List.replicate A.numStates none, [], false⟩ : Iso) := ⟨_, rfl⟩
  rw [← h0]
  have hmap : ∀ x, i0.map x = none := by
    intro x
    rw [h0]
    simp only [map, List.getElem?_replicate]
    split <;> rfl
  have hfree : i0.free = A.numStates := by
    rw [h0]
    simp [free, List.countP_replicate]
  have hlen : i0.pairs.length = A.numStates := by rw [h0]; simp
  have hq0 : i0.queue = [] := by rw [h0]
  obtain ⟨b, i, e, g, nd, p, q, r, _⟩ := pairState_spec i0 (s1 := s) (s2 := t) (by omega)
  cases b with
  | false => obtain ⟨x, hx, _⟩ := q rfl; rw [hmap] at hx; cases hx
  | true =>
    obtain ⟨l, hl, hm, hs', hf⟩ := g.queue
    rw [hq0] at r
    have r' : ∀ p ∈ i.queue, p = (s, t) := by
      intro p hp
      rcases r p hp with h | h
      · cases h
      · exact h
    refine ⟨i, e, ⟨by rw [g.len, hlen], ?_, ?_, ?_⟩, p rfl, ?_, by rw [nd, h0], r'⟩
    · intro p hp
      rw [r' p hp]; exact ⟨hs, ht⟩
    · intro x hx
      rw [r' x hx]; exact p rfl
    · intro x y hxy
      rcases hs' x y hxy with h | h
      · rw [hmap] at h; cases h
      · rw [hl]; exact Or.inl (List.mem_append_right _ h)
    · rw [hl, hq0, List.nil_append]; omega

/-- The whole function: it ends, and an answer "yes" comes with a renaming. -/
theorem isomorphic_spec {A B : Fst W} (hA : A.WF) (hB : B.WF) :
    ∃ r, (∀ n, A.numStates < n → isomorphic lt approx A B n = some r) ∧ r ≠ .error .panic ∧
      (r = .ok true → ∃ φ, Renames (fun x y => approx x y = true) A B φ) := by
  unfold isomorphic
  rcases ha : A.start with _ | s <;> rcases hb : B.start with _ | t
  · refine ⟨_, fun _ _ => rfl, (nomatch ·), fun _ => ⟨fun _ => none, ?_, fun _ _ h => (nomatch h), fun _ _ h => (nomatch h)⟩⟩
    rw [ha, hb]; exact Option.Rel.none
  · exact ⟨_, fun _ _ => rfl, (nomatch ·), (nomatch ·)⟩
  · exact ⟨_, fun _ _ => rfl, (nomatch ·), (nomatch ·)⟩
  · obtain ⟨i, e, hi, hm, hl, _⟩ := init_inv (approx := approx) (hA.start_lt s ha) (hB.start_lt t hb)
    obtain ⟨r, h1, h2, h3⟩ := loop_spec (lt := lt) hA hB _ i hi hl
    refine ⟨r, fun n hn => ?_, h2, fun hr => ?_⟩
    · simp only [e]
      exact h1 n (by omega)
    · obtain ⟨φ, a, b⟩ := h3 hr
      refine ⟨φ, ?_, fun s t h => (b s t h).1, fun s t h => (b s t h).2⟩
      rw [ha, hb]
      exact Option.Rel.some (a _ _ hm)

end Iso
end Verif
