import Verif.Lemmas.Relabel

/-! # Flags that do not depend on weights -/

namespace Verif
set_option linter.unusedSectionVars false
universe u v
variable {W : Type u} {V : Type v}

/-- A transition without its weight. -/
def Tr.shape (t : Tr W) : Label × Label × StateId := (t.ilabel, t.olabel, t.nextstate)

namespace Fst

/-- `g` has the states and transitions of `f`, with other weights. -/
structure SameShape (f : Fst W) (g : Fst V) : Prop where
  trs : ∀ s, (g.trsOf s).map Tr.shape = (f.trsOf s).map Tr.shape
  fin : ∀ s, (g.finOf s).isSome = (f.finOf s).isSome
  num : g.numStates = f.numStates
  start : g.start = f.start

/-- The flags that do not depend on weights. -/
def weightFree : PropBit → Bool
  | .weighted | .unweighted | .weightedCycles | .unweightedCycles => false
  | _ => true

variable {f : Fst W} {g : Fst V}

theorem SameShape.symm (h : SameShape f g) : SameShape g f :=
  ⟨fun s => (h.trs s).symm, fun s => (h.fin s).symm, h.num.symm, h.start.symm⟩

theorem SameShape.mem (h : SameShape f g) {s} {t : Tr V} (ht : t ∈ g.trsOf s) :
    ∃ t' ∈ f.trsOf s, t'.ilabel = t.ilabel ∧ t'.olabel = t.olabel ∧ t'.nextstate = t.nextstate := by
  have : t.shape ∈ (g.trsOf s).map Tr.shape := List.mem_map.2 ⟨t, ht, rfl⟩
  rw [h.trs] at this
  obtain ⟨t', h1, h2⟩ := List.mem_map.1 this
  simp only [Tr.shape, Prod.mk.injEq] at h2
  exact ⟨t', h1, h2.1, h2.2.1, h2.2.2⟩

theorem SameShape.map {α : Type*} (h : SameShape f g) (k : Label × Label × StateId → α) (s) :
    (g.trsOf s).map (fun t => k t.shape) = (f.trsOf s).map (fun t => k t.shape) := by
  have := congrArg (List.map k) (h.trs s)
  rwa [List.map_map, List.map_map] at this

theorem SameShape.edge (h : SameShape f g) : g.Edge = f.Edge := by
  funext a b
  apply propext
  constructor
  · rintro ⟨t, ht, hn⟩
    obtain ⟨t', h1, _, _, h2⟩ := h.mem ht
    exact ⟨t', h1, h2.trans hn⟩
  · rintro ⟨t, ht, hn⟩
    obtain ⟨t', h1, _, _, h2⟩ := h.symm.mem ht
    exact ⟨t', h1, h2.trans hn⟩

theorem SameShape.wf (h : SameShape f g) (hf : f.WF) : g.WF where
  start_lt i hi := by rw [h.num]; rw [h.start] at hi; exact hf.start_lt i hi
  next_lt s t ht := by
    obtain ⟨t', h1, _, _, h2⟩ := h.mem ht
    rw [h.num, ← h2]
    exact hf.next_lt s t' h1

theorem SameShape.linear (h : SameShape f g) (hf : f.IsLinear) : g.IsLinear := by
  have e3 : ∀ s, g.IsFinal s ↔ f.IsFinal s := by intro s; simp [IsFinal, h.fin]
  intro hn
  rw [h.num] at hn ⊢
  rw [h.start]
  refine ⟨(hf hn).1, fun s hs => ?_⟩
  have := (hf hn).2 s hs
  have hl := h.trs s
  split
  · rename_i hl'
    rw [if_pos hl'] at this
    rw [e3]
    refine ⟨this.1, ?_⟩
    rw [this.2] at hl
    simpa using hl
  · rename_i hl'
    rw [if_neg hl'] at this
    rw [e3]
    refine ⟨this.1, ?_⟩
    obtain ⟨t, ht, hn⟩ := this.2
    rw [ht] at hl
    cases hg : g.trsOf s with
    | nil => simp [hg] at hl
    | cons a l =>
      rw [hg] at hl
      simp only [List.map_cons, List.map_nil, List.cons.injEq, List.map_eq_nil_iff, Tr.shape, Prod.mk.injEq] at hl
      obtain ⟨⟨_, _, h3⟩, rfl⟩ := hl
      exact ⟨a, rfl, h3.trans hn⟩

variable [Zero W] [One W] [Zero V] [One V]

theorem SameShape.holds (h : SameShape f g) (b) (hb : weightFree b = true) : g.Holds b ↔ f.Holds b := by
  have e1 : g.Reach = f.Reach := by simp [Reach, h.edge]
  have e2 : g.OnCycle = f.OnCycle := by funext a; simp [OnCycle, h.edge]
  have e3 : g.IsFinal = f.IsFinal := by funext a; simp [IsFinal, h.fin]
  have e4 : g.Accessible = f.Accessible := by funext a; simp [Accessible, h.start, e1]
  have e5 : g.Coaccessible = f.Coaccessible := by funext a; simp [Coaccessible, e1, e3]
  have e8 : g.IsLinear ↔ f.IsLinear := ⟨h.symm.linear, h.linear⟩
  have hi : ∀ s, (g.trsOf s).map (·.ilabel) = (f.trsOf s).map (·.ilabel) := h.map fun p => p.1
  have ho : ∀ s, (g.trsOf s).map (·.olabel) = (f.trsOf s).map (·.olabel) := h.map fun p => p.2.1
  have hall : ∀ P : StateId → Label → Label → StateId → Prop,
      (∀ s, ∀ t ∈ g.trsOf s, P s t.ilabel t.olabel t.nextstate) ↔ ∀ s, ∀ t ∈ f.trsOf s, P s t.ilabel t.olabel t.nextstate := by
    intro P
    constructor
    · intro hp s t ht
      obtain ⟨t', h1, h2, h3, h4⟩ := h.symm.mem ht
      rw [← h2, ← h3, ← h4]; exact hp s t' h1
    · intro hp s t ht
      obtain ⟨t', h1, h2, h3, h4⟩ := h.mem ht
      rw [← h2, ← h3, ← h4]; exact hp s t' h1
  have hex : ∀ P : StateId → Label → Label → StateId → Prop,
      (∃ s, ∃ t ∈ g.trsOf s, P s t.ilabel t.olabel t.nextstate) ↔ ∃ s, ∃ t ∈ f.trsOf s, P s t.ilabel t.olabel t.nextstate := by
    intro P
    constructor
    · rintro ⟨s, t, ht, hp⟩
      obtain ⟨t', h1, h2, h3, h4⟩ := h.mem ht
      exact ⟨s, t', h1, by rw [h2, h3, h4]; exact hp⟩
    · rintro ⟨s, t, ht, hp⟩
      obtain ⟨t', h1, h2, h3, h4⟩ := h.symm.mem ht
      exact ⟨s, t', h1, by rw [h2, h3, h4]; exact hp⟩
  cases b <;> simp only [weightFree, Bool.false_eq_true] at hb
  case acceptor => exact hall fun _ i o _ => i = o
  case notAcceptor => exact not_congr (hall fun _ i o _ => i = o)
  case epsilons => exact hex fun _ i o _ => i = EPS ∧ o = EPS
  case noEpsilons => exact not_congr (hex fun _ i o _ => i = EPS ∧ o = EPS)
  case iEpsilons => exact hex fun _ i _ _ => i = EPS
  case noIEpsilons => exact not_congr (hex fun _ i _ _ => i = EPS)
  case oEpsilons => exact hex fun _ _ o _ => o = EPS
  case noOEpsilons => exact not_congr (hex fun _ _ o _ => o = EPS)
  case topSorted => exact hall fun s _ _ q => s < q
  case notTopSorted => exact not_congr (hall fun s _ _ q => s < q)
  all_goals simp only [Holds, hi, ho, e2, e4, e5, e8, h.start, h.num]

end Fst

namespace Fst

/-- `g` has the states and edges of `f`, with other labels and weights. -/
structure SameGraph (f : Fst W) (g : Fst V) : Prop where
  next : ∀ s, (g.trsOf s).map (·.nextstate) = (f.trsOf s).map (·.nextstate)
  fin : ∀ s, (g.finOf s).isSome = (f.finOf s).isSome
  num : g.numStates = f.numStates
  start : g.start = f.start

/-- The flags that depend neither on labels nor on weights. -/
def graphOnly : PropBit → Bool
  | .cyclic | .acyclic | .initialCyclic | .initialAcyclic | .topSorted | .notTopSorted | .accessible | .notAccessible
  | .coaccessible | .notCoaccessible | .isString | .notString => true
  | _ => false

/-- The flags that depend only on output labels. -/
def outOnly : PropBit → Bool
  | .oDeterministic | .notODeterministic | .oEpsilons | .noOEpsilons | .oLabelSorted | .notOLabelSorted => true
  | _ => false

/-- All labels and weights replaced by constants. -/
def skeleton (f : Fst W) : Fst Unit :=
  ⟨f.states.map fun st => ⟨st.fin.map fun _ => (), st.trs.map fun t => ⟨0, 0, (), t.nextstate⟩, 0, 0⟩, f.start, f.props⟩

theorem skeleton_trsOf (f : Fst W) (s) : f.skeleton.trsOf s = (f.trsOf s).map fun t => ⟨0, 0, (), t.nextstate⟩ := by
  unfold skeleton
  rw [trsOf_eq, trsOf_eq, List.getElem?_map]
  cases f.states[s]? <;> rfl
theorem skeleton_finOf (f : Fst W) (s) : f.skeleton.finOf s = (f.finOf s).map fun _ => () := by
  unfold skeleton
  rw [finOf_eq, finOf_eq, List.getElem?_map]
  cases f.states[s]? <;> rfl
theorem skeleton_edge (f : Fst W) : f.skeleton.Edge = f.Edge := by
  funext a b
  apply propext
  constructor
  · rintro ⟨t, ht, hn⟩
    rw [skeleton_trsOf] at ht
    obtain ⟨t', h1, rfl⟩ := List.mem_map.1 ht
    exact ⟨t', h1, hn⟩
  · rintro ⟨t, ht, hn⟩
    exact ⟨⟨0, 0, (), t.nextstate⟩, by rw [skeleton_trsOf]; exact List.mem_map.2 ⟨t, ht, rfl⟩, hn⟩
theorem skeleton_num (f : Fst W) : f.skeleton.numStates = f.numStates := by simp [skeleton, numStates]

instance : Zero Unit := ⟨()⟩
instance : One Unit := ⟨()⟩

theorem skeleton_linear (f : Fst W) : f.skeleton.IsLinear ↔ f.IsLinear := by
  have e3 : f.skeleton.IsFinal = f.IsFinal := by funext a; simp [IsFinal, skeleton_finOf]
  unfold IsLinear
  rw [skeleton_num, e3]
  refine imp_congr_right fun _ => and_congr_right fun _ => forall_congr' fun s => imp_congr_right fun _ => ?_
  split
  · simp [skeleton_trsOf]
  · refine and_congr_right fun _ => ?_
    rw [skeleton_trsOf]
    constructor
    · rintro ⟨t, ht, hn⟩
      cases hl : f.trsOf s with
      | nil => simp [hl] at ht
      | cons a l =>
        rw [hl] at ht
        simp only [List.map_cons, List.cons.injEq, List.map_eq_nil_iff] at ht
        obtain ⟨rfl, rfl⟩ := ht
        exact ⟨a, rfl, hn⟩
    · rintro ⟨t, ht, hn⟩
      rw [ht]
      exact ⟨_, rfl, hn⟩

variable {f : Fst W} {g : Fst V}

theorem SameGraph.skeleton (h : SameGraph f g) (s) : g.skeleton.trsOf s = f.skeleton.trsOf s ∧
    g.skeleton.finOf s = f.skeleton.finOf s := by
  constructor
  · rw [skeleton_trsOf, skeleton_trsOf]
    have := congrArg (List.map fun q => (⟨0, 0, (), q⟩ : Tr Unit)) (h.next s)
    rwa [List.map_map, List.map_map] at this
  · rw [skeleton_finOf, skeleton_finOf]
    have := h.fin s
    cases hg : g.finOf s <;> cases hf : f.finOf s <;> simp [hf, hg] at this ⊢

theorem SameGraph.edge (h : SameGraph f g) : g.Edge = f.Edge := by
  rw [← skeleton_edge f, ← skeleton_edge g]
  funext a b
  simp only [Edge, (h.skeleton a).1]

theorem SameGraph.wf (h : SameGraph f g) (hf : f.WF) : g.WF where
  start_lt i hi := by rw [h.num]; rw [h.start] at hi; exact hf.start_lt i hi
  next_lt s t ht := by
    have : f.Edge s t.nextstate := by rw [← h.edge]; exact ⟨t, ht, rfl⟩
    obtain ⟨t', h1, h2⟩ := this
    rw [h.num, ← h2]
    exact hf.next_lt s t' h1

theorem topSorted_iff [Zero W] [One W] (f : Fst W) : f.Holds .topSorted ↔ ∀ a b, f.Edge a b → a < b := by
  constructor
  · rintro h a b ⟨t, ht, rfl⟩; exact h a t ht
  · intro h s t ht; exact h s _ ⟨t, ht, rfl⟩

variable [Zero W] [One W] [Zero V] [One V]

theorem SameGraph.holds (h : SameGraph f g) (b) (hb : graphOnly b = true) : g.Holds b ↔ f.Holds b := by
  have e1 : g.Reach = f.Reach := by simp [Reach, h.edge]
  have e2 : g.OnCycle = f.OnCycle := by funext a; simp [OnCycle, h.edge]
  have e3 : g.IsFinal = f.IsFinal := by funext a; simp [IsFinal, h.fin]
  have e4 : g.Accessible = f.Accessible := by funext a; simp [Accessible, h.start, e1]
  have e5 : g.Coaccessible = f.Coaccessible := by funext a; simp [Coaccessible, e1, e3]
  have e6 : g.Holds .topSorted ↔ f.Holds .topSorted := by rw [topSorted_iff, topSorted_iff, h.edge]
  have e8 : g.IsLinear ↔ f.IsLinear := by
    rw [← skeleton_linear, ← skeleton_linear f]
    unfold IsLinear
    have hst : g.skeleton.start = f.skeleton.start := h.start
    simp only [skeleton_num, h.num, hst, IsFinal, (h.skeleton _).1, (h.skeleton _).2]
  cases b <;> simp only [graphOnly, Bool.false_eq_true] at hb
  case topSorted => exact e6
  case notTopSorted => exact not_congr e6
  all_goals simp only [Holds, e2, e4, e5, e8, h.start, h.num]

theorem holds_outOnly (ho : ∀ s, (g.trsOf s).map (·.olabel) = (f.trsOf s).map (·.olabel)) (b) (hb : outOnly b = true) :
    g.Holds b ↔ f.Holds b := by
  have hex : (∃ s, ∃ t ∈ g.trsOf s, t.olabel = EPS) ↔ ∃ s, ∃ t ∈ f.trsOf s, t.olabel = EPS := by
    refine exists_congr fun s => ?_
    have := ho s
    have e : ∀ {U : Type _} (l : List (Tr U)), (∃ t ∈ l, t.olabel = EPS) ↔ EPS ∈ l.map (·.olabel) := by
      intro U l; simp
    have e' : ∀ (l : List (Tr W)), (∃ t ∈ l, t.olabel = EPS) ↔ EPS ∈ l.map (·.olabel) := by
      intro l; simp
    rw [e, e', ho]
  cases b <;> simp only [outOnly, Bool.false_eq_true] at hb
  case oEpsilons => exact hex
  case noOEpsilons => exact not_congr hex
  all_goals simp only [Holds, ho]

end Fst
end Verif
