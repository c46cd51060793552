import Verif.Lemmas.MergedInto
import Mathlib.Data.Fintype.Card

/-! # Languages of FSTs with merged states -/

namespace Verif
set_option linter.unusedSectionVars false
universe u v
variable {W : Type u}

namespace Fst

theorem Reads.append {f : Fst W} {s x q y r} (h : f.Reads s x q) (h' : f.Reads q y r) : f.Reads s (x ++ y) r := by
  induction h with
  | nil => exact h'
  | cons ht _ ih => exact .cons ht (ih h')

theorem Reads.lt {f : Fst W} (hw : f.WF) {s x q} (h : f.Reads s x q) (hs : s < f.numStates) : q < f.numStates := by
  induction h with
  | nil => exact hs
  | cons ht _ ih => exact ih (hw.next_lt _ _ ht)

theorem Reads.split {f : Fst W} : ∀ {x s y r}, f.Reads s (x ++ y) r → ∃ q, f.Reads s x q ∧ f.Reads q y r := by
  intro x
  induction x with
  | nil => intro s y r h; exact ⟨s, .nil s, h⟩
  | cons a x ih =>
    intro s y r h
    cases h with
    | cons ht h' =>
      obtain ⟨q, h1, h2⟩ := ih h'
      exact ⟨q, .cons ht h1, h2⟩

theorem Deterministic.tr {f : Fst W} (hd : f.Deterministic) {s} {a b : Tr W} (ha : a ∈ f.trsOf s) (hb : b ∈ f.trsOf s) (h : a.ilabel = b.ilabel) : a = b :=
  List.inj_on_of_nodup_map (hd s) ha hb h

theorem Reads.unique {f : Fst W} (hd : f.Deterministic) {s x q} (h : f.Reads s x q) : ∀ {r}, f.Reads s x r → q = r := by
  induction h with
  | nil => intro r h; cases h; rfl
  | @cons s t x q ht _ ih =>
    intro r h
    generalize hy : t.ilabel :: x = y at h
    cases h with
    | nil => cases hy
    | cons ht' h' =>
      injection hy with h1 h2
      subst h2
      have := hd.tr ht ht' h1
      subst this
      exact ih h'

theorem reads_of_reach {f : Fst W} {s q} (h : f.Reach s q) : ∃ x, f.Reads s x q := by
  induction h using Relation.ReflTransGen.head_induction_on with
  | refl => exact ⟨[], .nil _⟩
  | head he _ ih =>
    obtain ⟨t, ht, rfl⟩ := he
    obtain ⟨x, hx⟩ := ih
    exact ⟨_, .cons ht hx⟩

theorem IsFinal.lt {f : Fst W} {q} (h : f.IsFinal q) : q < f.numStates := by
  by_contra hc
  unfold IsFinal at h
  rw [finOf_of_ge (by omega)] at h; cases h

theorem Reads.source_lt {f : Fst W} {s x q} (h : f.Reads s x q) (hq : q < f.numStates) : s < f.numStates := by
  cases h with
  | nil => exact hq
  | cons ht _ =>
    by_contra hc
    rw [trsOf_of_ge (by omega)] at ht; cases ht

/-- A deterministic acceptor whose states are all useful and have different languages is as small as any deterministic acceptor of the
same language. -/
theorem minimal_of_distinct {V : Type v} {h : Fst W} (hd : h.Deterministic) (hu : ∀ s, s < h.numStates → h.Accessible s ∧ h.Coaccessible s)
    (hdist : ∀ s s', s < h.numStates → s' < h.numStates → h.langFrom s = h.langFrom s' → s = s')
    {k : Fst V} (kw : k.WF) (kd : k.Deterministic) (hl : k.language = h.language) : h.numStates ≤ k.numStates := by
  have key : ∀ j : Fin h.numStates, ∃ q : Fin k.numStates, k.langFrom q = h.langFrom j := by
    rintro ⟨j, hj⟩
    obtain ⟨⟨i, hi, hr⟩, z, hz, hzf⟩ := hu j hj
    obtain ⟨x, hx⟩ := reads_of_reach hr
    obtain ⟨y, hy⟩ := reads_of_reach hz
    have hxy : x ++ y ∈ h.language := ⟨i, hi, z, hx.append hy, hzf⟩
    rw [← hl] at hxy
    obtain ⟨i', hi', r, hr', -⟩ := hxy
    obtain ⟨q, hq, -⟩ := hr'.split
    refine ⟨⟨q, hq.lt kw (kw.start_lt i' hi')⟩, ?_⟩
    have e1 : ∀ y, y ∈ k.langFrom q ↔ x ++ y ∈ k.language := by
      intro y
      constructor
      · rintro ⟨r, h1, h2⟩
        exact ⟨i', hi', r, hq.append h1, h2⟩
      · rintro ⟨i2, hi2, r, h1, h2⟩
        rw [hi'] at hi2; injection hi2 with hi2; subst hi2
        obtain ⟨q', h3, h4⟩ := h1.split
        have := hq.unique kd h3; subst this
        exact ⟨r, h4, h2⟩
    have e2 : ∀ y, y ∈ h.langFrom j ↔ x ++ y ∈ h.language := by
      intro y
      constructor
      · rintro ⟨r, h1, h2⟩
        exact ⟨i, hi, r, hx.append h1, h2⟩
      · rintro ⟨i2, hi2, r, h1, h2⟩
        rw [hi] at hi2; injection hi2 with hi2; subst hi2
        obtain ⟨q', h3, h4⟩ := h1.split
        have := hx.unique hd h3; subst this
        exact ⟨r, h4, h2⟩
    ext y
    show y ∈ k.langFrom q ↔ y ∈ h.langFrom j
    rw [e1, e2, hl]
  choose φ hφ using key
  have hinj : Function.Injective φ := by
    intro a b hab
    have : h.langFrom a = h.langFrom b := by rw [← hφ a, ← hφ b, hab]
    exact Fin.ext (hdist a b a.2 b.2 this)
  simpa using Fintype.card_le_of_injective φ hinj

namespace MergedInto
variable {f h : Fst W} {ν : Nat → Nat}

/-- Every string read before is still read. -/
theorem reads (m : MergedInto f h ν) {s x q} (hr : f.Reads s x q) : s < f.numStates → h.Reads (ν s) x (ν q) := by
  induction hr with
  | nil => intro _; exact .nil _
  | @cons s t x q ht h' ih =>
    intro hs
    have hm : ({ t with nextstate := ν t.nextstate } : Tr W) ∈ h.trsOf (ν s) := (m.trs s hs _).2 ⟨s, hs, rfl, t, ht, rfl⟩
    have hlt : t.nextstate < f.numStates ∨ ¬ t.nextstate < f.numStates := em _
    rcases hlt with hlt | hlt
    · exact Reads.cons (t := { t with nextstate := ν t.nextstate }) hm (ih hlt)
    · cases h' with
      | nil => exact Reads.cons (t := { t with nextstate := ν t.nextstate }) hm (.nil _)
      | cons ht' _ => rw [trsOf_of_ge (by omega)] at ht'; cases ht'

theorem langFrom_sub (m : MergedInto f h ν) {s} (hs : s < f.numStates) : f.langFrom s ⊆ h.langFrom (ν s) := by
  rintro x ⟨q, h1, h2⟩
  refine ⟨ν q, m.reads h1 hs, ?_⟩
  unfold IsFinal
  rw [m.fin q h2.lt]; exact h2

theorem language_sub (m : MergedInto f h ν) : f.language ⊆ h.language := by
  rintro x ⟨i, hi, q, h1, h2⟩
  exact ⟨ν i, by rw [m.start, hi]; rfl, m.langFrom_sub (h1.source_lt h2.lt) ⟨q, h1, h2⟩⟩

/-- States that are merged can do the same steps. -/
def Bisim (f : Fst W) (ν : Nat → Nat) : Prop := ∀ s s', s < f.numStates → s' < f.numStates → ν s = ν s' →
  ∀ t0 ∈ f.trsOf s', ∃ t1 ∈ f.trsOf s, t1.ilabel = t0.ilabel ∧ ν t1.nextstate = ν t0.nextstate

theorem reads_back (m : MergedInto f h ν) (hw : f.WF) (b : Bisim f ν) {j x r} (hr : h.Reads j x r) :
    ∀ s, s < f.numStates → ν s = j → ∃ q, q < f.numStates ∧ f.Reads s x q ∧ ν q = r := by
  induction hr with
  | nil j => intro s hs he; exact ⟨s, hs, .nil _, he⟩
  | @cons j t x r ht _ ih =>
    intro s hs he
    subst he
    obtain ⟨s', hs', he', t0, ht0, rfl⟩ := (m.trs s hs _).1 ht
    obtain ⟨t1, ht1, h1, h2⟩ := b s s' hs hs' he'.symm t0 ht0
    obtain ⟨q, h3, h4, h5⟩ := ih t1.nextstate (hw.next_lt s t1 ht1) h2
    refine ⟨q, h3, ?_, h5⟩
    have := Reads.cons ht1 h4
    rwa [h1] at this

theorem langFrom_eq (m : MergedInto f h ν) (hw : f.WF) (b : Bisim f ν) {s} (hs : s < f.numStates) : h.langFrom (ν s) = f.langFrom s := by
  apply Set.Subset.antisymm _ (m.langFrom_sub hs)
  rintro x ⟨r, h1, h2⟩
  obtain ⟨q, h3, h4, h5⟩ := m.reads_back hw b h1 s hs rfl
  refine ⟨q, h4, ?_⟩
  unfold IsFinal at *
  rw [← m.fin q h3, h5]; exact h2

theorem language_eq (m : MergedInto f h ν) (hw : f.WF) (b : Bisim f ν) : h.language = f.language := by
  apply Set.Subset.antisymm _ m.language_sub
  rintro x ⟨j, hj, hx⟩
  rw [m.start] at hj
  cases hi : f.start with
  | none => rw [hi] at hj; cases hj
  | some i =>
    rw [hi] at hj; injection hj with hj; subst hj
    exact ⟨i, hi, by rwa [m.langFrom_eq hw b (hw.start_lt i hi)] at hx⟩

theorem distinct (m : MergedInto f h ν) (hw : f.WF) (b : Bisim f ν)
    (hc : ∀ s s', s < f.numStates → s' < f.numStates → f.langFrom s = f.langFrom s' → ν s = ν s') :
    ∀ j j', j < h.numStates → j' < h.numStates → h.langFrom j = h.langFrom j' → j = j' := by
  intro j j' hj hj' he
  obtain ⟨s, hs, rfl⟩ := m.onto j hj
  obtain ⟨s', hs', rfl⟩ := m.onto j' hj'
  rw [m.langFrom_eq hw b hs, m.langFrom_eq hw b hs'] at he
  exact hc s s' hs hs' he

variable [One W]

theorem plain (m : MergedInto f h ν) (pf : f.Plain) : h.Plain := by
  refine ⟨?_, ?_, ?_⟩
  · intro j t ht
    have hj : j < h.numStates := by
      by_contra hc; rw [trsOf_of_ge (by omega)] at ht; cases ht
    obtain ⟨s, hs, rfl⟩ := m.onto j hj
    obtain ⟨s', _, _, t0, ht0, rfl⟩ := (m.trs s hs t).1 ht
    exact pf.acceptor s' t0 ht0
  · intro j t ht
    have hj : j < h.numStates := by
      by_contra hc; rw [trsOf_of_ge (by omega)] at ht; cases ht
    obtain ⟨s, hs, rfl⟩ := m.onto j hj
    obtain ⟨s', _, _, t0, ht0, rfl⟩ := (m.trs s hs t).1 ht
    exact pf.weight s' t0 ht0
  · intro j w hw
    have hj : j < h.numStates := by
      by_contra hc; rw [finOf_of_ge (by omega)] at hw; cases hw
    obtain ⟨s, hs, rfl⟩ := m.onto j hj
    rw [m.fin s hs] at hw
    exact pf.fin s w hw

theorem perm (m : MergedInto f h ν) (b : Bisim f ν) (pf : f.Plain) (hd : f.Deterministic) (hnd : ∀ j, (h.trsOf j).Nodup) {s} (hs : s < f.numStates) :
    (h.trsOf (ν s)).Perm ((f.trsOf s).map fun t => { t with nextstate := ν t.nextstate }) := by
  have hn2 : ((f.trsOf s).map fun t => ({ t with nextstate := ν t.nextstate } : Tr W)).Nodup := by
    apply List.Nodup.of_map (·.ilabel)
    rw [List.map_map]
    exact hd s
  rw [List.perm_ext_iff_of_nodup (hnd _) hn2]
  intro t
  rw [m.trs s hs, List.mem_map]
  constructor
  · rintro ⟨s', hs', he, t0, ht0, rfl⟩
    obtain ⟨t1, ht1, h1, h2⟩ := b s s' hs hs' he.symm t0 ht0
    refine ⟨t1, ht1, ?_⟩
    have a1 := pf.acceptor s t1 ht1
    have a0 := pf.acceptor s' t0 ht0
    have w1 := pf.weight s t1 ht1
    have w0 := pf.weight s' t0 ht0
    cases t0; cases t1
    simp only at *
    simp [h1, h2, a1, a0, w1, w0]
  · rintro ⟨t0, ht0, rfl⟩
    exact ⟨s, hs, rfl, t0, ht0, rfl⟩

theorem deterministic (m : MergedInto f h ν) (b : Bisim f ν) (pf : f.Plain) (hd : f.Deterministic) (hnd : ∀ j, (h.trsOf j).Nodup) : h.Deterministic := by
  intro j
  by_cases hj : j < h.numStates
  · obtain ⟨s, hs, rfl⟩ := m.onto j hj
    rw [((m.perm b pf hd hnd hs).map _).nodup_iff, List.map_map]
    exact hd s
  · rw [trsOf_of_ge (by omega)]; exact List.nodup_nil

theorem accPaths [Mul W] (m : MergedInto f h ν) (hw : f.WF) (b : Bisim f ν) (pf : f.Plain) (hd : f.Deterministic) (hnd : ∀ j, (h.trsOf j).Nodup)
    (k : Nat) : h.accPaths k = f.accPaths k := by
  have key : ∀ s, s < f.numStates → h.pathsFrom k (ν s) = f.pathsFrom k s := by
    intro s hs
    have := pathsFrom_sim (f := f) (g := h) ν (fun t => { t with nextstate := ν t.nextstate }) id (fun s => s < f.numStates)
      (fun s hs => Multiset.coe_eq_coe.2 (m.perm b pf hd hnd hs))
      (fun s _ t ht => ⟨hw.next_lt s t ht, rfl⟩) (fun _ _ _ _ _ => rfl)
      (fun s hs => by simp [pathsFrom_zero, m.fin s hs]) k s hs
    simpa using this
  cases hi : f.start with
  | none => rw [accPaths_none hi, accPaths_none (by rw [m.start, hi]; rfl)]
  | some i => rw [accPaths_some hi, accPaths_some (i := ν i) (by rw [m.start, hi]; rfl)]; exact key i (hw.start_lt i hi)

end MergedInto

theorem trUnique_nodup [DecidableEq W] (g : Fst W) (hw : ∀ s, ∀ a ∈ g.trsOf s, ∀ b ∈ g.trsOf s, a.weight = b.weight) (j : StateId) :
    (g.trUnique.trsOf j).Nodup := by
  rw [(trUnique_spec g).1]
  exact nodup_dedup_sorted _ (hw j)

end Fst
end Verif
