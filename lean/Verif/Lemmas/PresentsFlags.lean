import Verif.Lemmas.Presents

/-! # Flags of an FST that presents a machine -/

namespace Verif
universe u v
variable {W : Type u} {T : Type v} {M : Machine T W} {nm : StateId → Option T} {F : Fst W}

/-- One step of a machine. -/
def Machine.Next (M : Machine T W) (t u : T) : Prop := ∃ a ∈ M.trs t, a.next = u

theorem Machine.Reach.next {t u : T} (h : M.Reach t) (h' : Relation.ReflTransGen M.Next t u) : M.Reach u := by
  induction h' with
  | refl => exact h
  | tail _ h2 ih => obtain ⟨a, ha, rfl⟩ := h2; exact .step ih ha

namespace Machine.Presents

theorem trs_none (H : M.Presents nm F) {s : StateId} (h : nm s = none) : F.trsOf s = [] := by
  unfold Fst.trsOf
  rw [List.getElem?_eq_none]
  by_contra hc
  obtain ⟨t, ht⟩ := (H.states s).1 (by simpa [Fst.numStates] using hc)
  rw [h] at ht; cases ht

theorem reach (H : M.Presents nm F) {s t} (h : nm s = some t) : M.Reach t := (H.tuples t).2 ⟨s, h⟩

theorem ilabels (H : M.Presents nm F) {s t} (h : nm s = some t) : (F.trsOf s).map (·.ilabel) = (M.trs t).map (·.ilabel) := by
  have := H.trs s t h
  generalize F.trsOf s = l at this
  generalize M.trs t = m at this
  induction this with
  | nil => rfl
  | cons hd _ ih => rw [List.map_cons, List.map_cons, ih, hd.1]

theorem olabels (H : M.Presents nm F) {s t} (h : nm s = some t) : (F.trsOf s).map (·.olabel) = (M.trs t).map (·.olabel) := by
  have := H.trs s t h
  generalize F.trsOf s = l at this
  generalize M.trs t = m at this
  induction this with
  | nil => rfl
  | cons hd _ ih => rw [List.map_cons, List.map_cons, ih, hd.2.1]

/-- A property of the input labels of a state. -/
theorem all_ilabels (H : M.Presents nm F) (P : List Label → Prop) (h0 : P []) (h : ∀ t, M.Reach t → P ((M.trs t).map (·.ilabel))) (s : StateId) :
    P ((F.trsOf s).map (·.ilabel)) := by
  cases hs : nm s with
  | none => rw [H.trs_none hs]; exact h0
  | some t => rw [H.ilabels hs]; exact h t (H.reach hs)

theorem all_olabels (H : M.Presents nm F) (P : List Label → Prop) (h0 : P []) (h : ∀ t, M.Reach t → P ((M.trs t).map (·.olabel))) (s : StateId) :
    P ((F.trsOf s).map (·.olabel)) := by
  cases hs : nm s with
  | none => rw [H.trs_none hs]; exact h0
  | some t => rw [H.olabels hs]; exact h t (H.reach hs)

/-- A property of all transitions. -/
theorem all_trs (H : M.Presents nm F) (P : Label → Label → W → Prop) (h : ∀ t, M.Reach t → ∀ a ∈ M.trs t, P a.ilabel a.olabel a.weight) :
    ∀ s, ∀ tr ∈ F.trsOf s, P tr.ilabel tr.olabel tr.weight := by
  intro s tr htr
  obtain ⟨t, a, h1, h2, h3, h4⟩ := H.trs_of s tr htr
  rw [h4.1, h4.2.1, h4.2.2.1]
  exact h t h2 a h3

/-- A property of some transition. -/
theorem some_tr (H : M.Presents nm F) (P : Label → Label → W → Prop) {t : T} (h : M.Reach t) {a : MTr T W} (ha : a ∈ M.trs t) (hp : P a.ilabel a.olabel a.weight) :
    ∃ s, ∃ tr ∈ F.trsOf s, P tr.ilabel tr.olabel tr.weight := by
  obtain ⟨s, hs⟩ := (H.tuples t).1 h
  obtain ⟨tr, h1, h2⟩ := H.of_trs hs a ha
  exact ⟨s, tr, h1, by rw [h2.1, h2.2.1, h2.2.2.1]; exact hp⟩

theorem edge (H : M.Presents nm F) {s q} (h : F.Edge s q) : ∃ t u, nm s = some t ∧ nm q = some u ∧ M.Next t u := by
  obtain ⟨tr, h1, rfl⟩ := h
  obtain ⟨t, a, h2, _, h3, h4⟩ := H.trs_of s tr h1
  exact ⟨t, a.next, h2, h4.2.2.2, a, h3, rfl⟩

theorem edges (H : M.Presents nm F) {s q} (h : Relation.TransGen F.Edge s q) : ∃ t u, nm s = some t ∧ nm q = some u ∧ Relation.TransGen M.Next t u := by
  induction h with
  | single h =>
    obtain ⟨t, u, h1, h2, h3⟩ := H.edge h
    exact ⟨t, u, h1, h2, .single h3⟩
  | tail _ h ih =>
    obtain ⟨t, u, h1, h2, h3⟩ := ih
    obtain ⟨t', u', h1', h2', h3'⟩ := H.edge h
    obtain rfl : u = t' := by rw [h2] at h1'; exact Option.some.inj h1'
    exact ⟨t, u', h1, h2', .tail h3 h3'⟩

theorem of_next (H : M.Presents nm F) {s t u} (hs : nm s = some t) (h : M.Next t u) : ∃ q, nm q = some u ∧ F.Edge s q := by
  obtain ⟨a, ha, rfl⟩ := h
  obtain ⟨tr, h1, h2⟩ := H.of_trs hs a ha
  exact ⟨tr.nextstate, h2.2.2.2, tr, h1, rfl⟩

theorem of_nexts (H : M.Presents nm F) {s t u} (hs : nm s = some t) (h : Relation.ReflTransGen M.Next t u) : ∃ q, nm q = some u ∧ F.Reach s q := by
  induction h with
  | refl => exact ⟨s, hs, .refl⟩
  | tail _ h ih =>
    obtain ⟨q, h1, h2⟩ := ih
    obtain ⟨q', h3, h4⟩ := H.of_next h1 h
    exact ⟨q', h3, .tail h2 h4⟩

theorem of_nexts_trans (H : M.Presents nm F) {s t u} (hs : nm s = some t) (h : Relation.TransGen M.Next t u) :
    ∃ q, nm q = some u ∧ Relation.TransGen F.Edge s q := by
  obtain ⟨v, h1, h2⟩ := Relation.TransGen.tail'_iff.1 h
  obtain ⟨q, h3, h4⟩ := H.of_nexts hs h1
  obtain ⟨q', h5, h6⟩ := H.of_next h3 h2
  exact ⟨q', h5, Relation.TransGen.tail' h4 h6⟩

/-- Cycles of the FST are cycles of the machine. -/
theorem onCycle (H : M.Presents nm F) {s} : F.OnCycle s ↔ ∃ t, nm s = some t ∧ Relation.TransGen M.Next t t := by
  constructor
  · intro h
    obtain ⟨t, u, h1, h2, h3⟩ := H.edges h
    obtain rfl : t = u := by rw [h1] at h2; exact Option.some.inj h2
    exact ⟨t, h1, h3⟩
  · rintro ⟨t, h1, h2⟩
    obtain ⟨q, h3, h4⟩ := H.of_nexts_trans h1 h2
    obtain rfl := H.one _ _ _ h1 h3
    exact h4

/-- When no tuple has two transitions, the states are numbered along the only path. -/
theorem chain (H : M.Presents nm F) (ho : M.InSearchOrder nm) (h1 : ∀ t, M.Reach t → (M.trs t).length ≤ 1) :
    ∀ q t, nm (q + 1) = some t → ∃ u, nm q = some u ∧ M.Next u t := by
  intro q
  induction q using Nat.strong_induction_on with
  | _ q ih =>
    intro t ht
    rcases ho _ _ ht with ⟨h, _⟩ | ⟨s, u, hs, hu, hn⟩
    · omega
    · by_cases hq : s = q
      · exact ⟨u, hq ▸ hu, hn⟩
      · have hlt : s + 1 < F.numStates := by
          have := (H.states (q + 1)).2 ⟨t, ht⟩
          omega
        obtain ⟨t', ht'⟩ := (H.states _).1 hlt
        obtain ⟨u', hu', a', ha', hn'⟩ := ih s (by omega) t' ht'
        obtain rfl : u = u' := by rw [hu] at hu'; exact Option.some.inj hu'
        obtain ⟨a, ha, rfl⟩ := hn
        have hl := h1 u (H.reach hu)
        have : a = a' := by
          match M.trs u, hl, ha, ha' with
          | [x], _, ha, ha' => rw [List.mem_singleton] at ha ha'; rw [ha, ha']
        subst this
        rw [hn'] at ht
        have := H.one _ _ _ ht ht'
        omega

variable [Zero W] [One W]

theorem holds_acyclic (H : M.Presents nm F) : F.Holds .acyclic ↔ ∀ t, M.Reach t → ¬ Relation.TransGen M.Next t t := by
  constructor
  · intro h t ht hc
    obtain ⟨s, hs⟩ := (H.tuples t).1 ht
    exact h ⟨s, H.onCycle.2 ⟨t, hs, hc⟩⟩
  · rintro h ⟨s, hs⟩
    obtain ⟨t, h1, h2⟩ := H.onCycle.1 hs
    exact h t (H.reach h1) h2

theorem holds_cyclic (H : M.Presents nm F) : F.Holds .cyclic ↔ ∃ t, M.Reach t ∧ Relation.TransGen M.Next t t := by
  constructor
  · rintro ⟨s, hs⟩
    obtain ⟨t, h1, h2⟩ := H.onCycle.1 hs
    exact ⟨t, H.reach h1, h2⟩
  · rintro ⟨t, ht, hc⟩
    obtain ⟨s, hs⟩ := (H.tuples t).1 ht
    exact ⟨s, H.onCycle.2 ⟨t, hs, hc⟩⟩

theorem holds_initialCyclic (H : M.Presents nm F) : F.Holds .initialCyclic ↔ ∃ t, M.start = some t ∧ Relation.TransGen M.Next t t := by
  constructor
  · rintro ⟨i, hi, hs⟩
    obtain ⟨t, h1, h2⟩ := H.start_some hi
    obtain ⟨t', h3, h4⟩ := H.onCycle.1 hs
    obtain rfl : t = t' := by rw [h2] at h3; exact Option.some.inj h3
    exact ⟨t, h1, h4⟩
  · rintro ⟨t, ht, hc⟩
    obtain ⟨i, h1, h2⟩ := H.start_of ht
    exact ⟨i, h1, H.onCycle.2 ⟨t, h2, hc⟩⟩

theorem holds_initialAcyclic (H : M.Presents nm F) : F.Holds .initialAcyclic ↔ ∀ t, M.start = some t → ¬ Relation.TransGen M.Next t t := by
  have := H.holds_initialCyclic
  constructor
  · intro h t ht hc
    exact h (this.2 ⟨t, ht, hc⟩)
  · intro h hc
    obtain ⟨t, ht, hc⟩ := this.1 hc
    exact h t ht hc

theorem holds_coaccessible (H : M.Presents nm F) (h : ∀ t, M.Reach t → ∃ u, Relation.ReflTransGen M.Next t u ∧ (M.fin u).isSome) : F.Holds .coaccessible := by
  intro s hs
  obtain ⟨t, ht⟩ := (H.states s).1 hs
  obtain ⟨u, h1, h2⟩ := h t (H.reach ht)
  obtain ⟨q, h3, h4⟩ := H.of_nexts ht h1
  refine ⟨q, h4, ?_⟩
  unfold Fst.IsFinal
  rw [H.fin q u h3, h2]

theorem holds_unweighted (H : M.Presents nm F) (h : ∀ t, M.Reach t → (∀ a ∈ M.trs t, Fst.TrivialW a.weight) ∧ ∀ w, M.fin t = some w → Fst.TrivialW w) :
    F.Holds .unweighted := by
  refine ⟨H.all_trs (fun _ _ w => Fst.TrivialW w) fun t ht a ha => (h t ht).1 a ha, fun s w hw => ?_⟩
  obtain ⟨t, h1, h2, h3⟩ := H.fin_of hw
  exact (h t h2).2 w h3

end Machine.Presents

/-- An FST that presents a machine without start has no states. -/
theorem presents_none (H : M.Presents nm F) (hs : M.start = none) (hp : F.props = Props.nullMask) :
    F = Fst.new := by
  have h0 : ∀ t, ¬ M.Reach t := by
    intro t ht
    induction ht with
    | start e => rw [hs] at e; cases e
    | step _ _ ih => exact ih
  have h1 : F.states = [] := by
    cases hst : F.states with
    | nil => rfl
    | cons a l =>
      obtain ⟨t, ht⟩ := (H.states 0).1 (by simp [Fst.numStates, hst])
      exact absurd (H.reach ht) (h0 t)
  have h2 : F.start = none := by
    cases hst : F.start with
    | none => rfl
    | some i =>
      obtain ⟨t, ht, _⟩ := H.start_some hst
      rw [hs] at ht; cases ht
  obtain ⟨st, start, props⟩ := F
  simp only at h1 h2 hp
  subst h1 h2 hp
  rfl

end Verif
