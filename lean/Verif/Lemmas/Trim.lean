import Verif.Lemmas.SccVisit
import Verif.Lemmas.Truthful
import Verif.Lemmas.Wf
import Verif.Lemmas.Path
import Verif.Lemmas.DelStates

/-!
# Trimming: deletion of useless states
-/

namespace Verif
universe u
variable {W : Type u}
namespace Fst

theorem targetsOk_of_wf {f : Fst W} (hw : f.WF) : f.targetsOk = true := by
  unfold targetsOk
  rw [List.all_eq_true]
  intro st hst
  rw [List.all_eq_true]
  intro t ht
  obtain ⟨q, hq, e⟩ := List.getElem_of_mem hst
  have : f.trsOf q = st.trs := by simp [trsOf, List.getElem?_eq_getElem hq, e]
  exact decide_eq_true (hw.next_lt q t (by rw [this]; exact ht))

theorem wf_of_targetsOk {f : Fst W} (hs : ∀ i, f.start = some i → i < f.numStates) (h : f.targetsOk = true) : f.WF where
  start_lt := hs
  next_lt := by
    intro s t ht
    unfold targetsOk at h
    rw [List.all_eq_true] at h
    have hlt := Scc.trsOf_lt ht
    have : f.trsOf s = (f.states[s]'hlt).trs := by
      simp [trsOf, List.getElem?_eq_getElem (show s < f.states.length from hlt)]; rfl
    have h1 := h _ (List.getElem_mem (l := f.states) hlt)
    rw [List.all_eq_true] at h1
    exact of_decide_eq_true (h1 t (this ▸ ht))

/-- From a state that is not coaccessible there is no path to a final state. -/
theorem pathsFrom_dead [Mul W] {f : Fst W} (n) {s} (h : ¬ f.Coaccessible s) : f.pathsFrom n s = 0 := by
  induction n generalizing s with
  | zero =>
    rw [pathsFrom_zero]
    cases hf : f.finOf s with
    | none => rfl
    | some w => exact absurd ⟨s, .refl, by simp [IsFinal, hf]⟩ h
  | succ n ih =>
    rw [pathsFrom_succ, Multiset.eq_zero_iff_forall_notMem]
    intro p hp
    obtain ⟨t, ht, hp⟩ := Multiset.mem_bind.1 hp
    have : ¬ f.Coaccessible t.nextstate := by
      rintro ⟨q, hq, hfin⟩
      exact h ⟨q, .head ⟨t, by simpa using ht, rfl⟩ hq, hfin⟩
    rw [ih this] at hp
    simp at hp

/-- Dropping transitions whose targets have no path to a final state changes no path. -/
theorem pathsFrom_trim [Mul W] {f g : Fst W} (σ : Nat → Nat) (S : Nat → Prop) (ds : List StateId)
    (htr : ∀ s, S s → g.trsOf (σ s) = ((f.trsOf s).filter fun t => t.nextstate ∉ ds).map fun t => { t with nextstate := σ t.nextstate })
    (hnext : ∀ s, S s → ∀ t ∈ f.trsOf s, t.nextstate ∉ ds → S t.nextstate)
    (hdead : ∀ s, S s → ∀ t ∈ f.trsOf s, t.nextstate ∈ ds → ¬ f.Coaccessible t.nextstate)
    (hfin : ∀ s, S s → g.finOf (σ s) = f.finOf s) (n s) (hs : S s) : g.pathsFrom n (σ s) = f.pathsFrom n s := by
  induction n generalizing s with
  | zero => simp [pathsFrom_zero, hfin s hs]
  | succ n ih =>
    rw [pathsFrom_succ, pathsFrom_succ, htr s hs]
    have key : ∀ l : List (Tr W), (∀ t ∈ l, t ∈ f.trsOf s) →
        (((l.filter fun t => t.nextstate ∉ ds).map fun t => ({ t with nextstate := σ t.nextstate } : Tr W) : List (Tr W)) : Multiset (Tr W)).bind
          (fun t => (g.pathsFrom n t.nextstate).map fun p => t.asPath.cat p) =
        (l : Multiset (Tr W)).bind (fun t => (f.pathsFrom n t.nextstate).map fun p => t.asPath.cat p) := by
      intro l hl
      induction l with
      | nil => simp
      | cons t l ihl =>
        have hl' := ihl fun t ht => hl t (List.mem_cons_of_mem _ ht)
        have ht := hl t (by simp)
        rw [← Multiset.cons_coe, Multiset.cons_bind]
        by_cases hd : t.nextstate ∈ ds
        · rw [List.filter_cons_of_neg (by simpa using hd), hl', pathsFrom_dead n (hdead s hs t ht hd)]
          simp
        · rw [List.filter_cons_of_pos (by simpa using hd), List.map_cons, ← Multiset.cons_coe, Multiset.cons_bind, hl',
            ih _ (hnext s hs t ht hd)]
          rfl
    exact key _ fun _ h => h

/-- The states to delete. -/
def useless (f : Fst W) : List StateId :=
  let v := f.sccVisit (fun _ => true)
  (List.range f.numStates).filter fun s => !v.accessC s || !v.coaccess s

theorem mem_useless {f : Fst W} (hw : f.WF) (s) : s ∈ f.useless ↔ s < f.numStates ∧ ¬ (f.Accessible s ∧ f.Coaccessible s) := by
  unfold useless
  simp only [List.mem_filter, List.mem_range]
  refine and_congr_right fun hs => ?_
  cases hi : f.start with
  | none =>
    have h1 : ¬ f.Accessible s := by rintro ⟨i, h, -⟩; rw [hi] at h; cases h
    have h2 : (f.sccVisit fun _ => true).accessC s = false := by
      unfold sccVisit Dfs.visit; rw [hi]; rfl
    simp [h1, h2]
  | some i =>
    have R := Scc.sccVisit_spec hw hi (fun _ => true)
    have h1 : (f.sccVisit fun _ => true).accessC s = true ↔ f.Accessible s := by
      rw [R.access s hs, Scc.rch_true]
      constructor
      · intro h; exact ⟨i, hi, h⟩
      · rintro ⟨j, hj, h⟩; rw [hi] at hj; cases hj; exact h
    have h2 : (f.sccVisit fun _ => true).coaccess s = true ↔ f.Coaccessible s := by
      rw [R.coaccess s hs, Scc.coAcc_true]
    rw [← h1, ← h2]
    cases (f.sccVisit fun _ => true).accessC s <;> cases (f.sccVisit fun _ => true).coaccess s <;> simp

theorem accessible_step {f : Fst W} {s} (h : f.Accessible s) {t : Tr W} (ht : t ∈ f.trsOf s) : f.Accessible t.nextstate := by
  obtain ⟨i, hi, hr⟩ := h
  exact ⟨i, hi, hr.tail ⟨t, ht, rfl⟩⟩

/-- Deleting exactly the useless states. -/
structure Trimmed (f g : Fst W) (ds : List StateId) : Prop where
  ds_iff : ∀ s, s ∈ ds ↔ s < f.numStates ∧ ¬ (f.Accessible s ∧ f.Coaccessible s)
  num : g.numStates = (survivors f.numStates ds).length
  st : ∀ i s, (survivors f.numStates ds)[i]? = some s → g.finOf i = f.finOf s ∧ g.trsOf i = survivingTrs ds (f.trsOf s)
  start : g.start = f.start.bind (fun i => if i ∈ ds then none else some (newNumber ds i))

theorem Trimmed.accPaths [Mul W] {f g : Fst W} {ds} (hw : f.WF) (h : Trimmed f g ds) (n) : g.accPaths n = f.accPaths n := by
  cases hi : f.start with
  | none => rw [accPaths_none hi, accPaths_none (by rw [h.start, hi]; rfl)]
  | some i =>
    have hacc : f.Accessible i := ⟨i, hi, .refl⟩
    rw [accPaths_some hi]
    by_cases hd : i ∈ ds
    · rw [accPaths_none (by rw [h.start, hi]; simp [hd])]
      have := ((h.ds_iff i).1 hd).2
      rw [pathsFrom_dead n (fun hc => this ⟨hacc, hc⟩)]
    · rw [accPaths_some (i := newNumber ds i) (by rw [h.start, hi]; simp [hd])]
      refine pathsFrom_trim (newNumber ds) (fun s => s < f.numStates ∧ f.Accessible s ∧ s ∉ ds) ds ?_ ?_ ?_ ?_ n i ⟨hw.start_lt i hi, hacc, hd⟩
      · rintro s ⟨h1, h2, h3⟩
        exact (h.st _ s (survivors_get ds h1 h3)).2
      · rintro s ⟨h1, h2, h3⟩ t ht h4
        exact ⟨hw.next_lt s t ht, accessible_step h2 ht, h4⟩
      · rintro s ⟨h1, h2, h3⟩ t ht h4 hc
        exact ((h.ds_iff _).1 h4).2 ⟨accessible_step h2 ht, hc⟩
      · rintro s ⟨h1, h2, h3⟩
        exact (h.st _ s (survivors_get ds h1 h3)).1

/-- All states of a trimmed FST are useful. -/
theorem Trimmed.useful {f g : Fst W} {ds} (hw : f.WF) (h : Trimmed f g ds) {q} (hq : q < g.numStates) :
    g.Accessible q ∧ g.Coaccessible q := by
  rw [h.num] at hq
  obtain ⟨s, hs⟩ : ∃ s, (survivors f.numStates ds)[q]? = some s := ⟨_, List.getElem?_eq_getElem hq⟩
  obtain ⟨h1, h2, rfl⟩ := survivors_get_inv ds hs
  have hu : ∀ s, s < f.numStates → (s ∉ ds ↔ f.Accessible s ∧ f.Coaccessible s) := by
    intro s hs
    rw [h.ds_iff]
    constructor
    · intro h'; by_contra hc; exact h' ⟨hs, hc⟩
    · intro h' hc; exact hc.2 h'
  have hedge : ∀ a b, a < f.numStates → a ∉ ds → b ∉ ds → f.Edge a b → g.Edge (newNumber ds a) (newNumber ds b) := by
    rintro a b ha hda hdb ⟨t, ht, rfl⟩
    refine ⟨{ t with nextstate := newNumber ds t.nextstate }, ?_, rfl⟩
    rw [(h.st _ a (survivors_get ds ha hda)).2]
    unfold survivingTrs
    exact List.mem_map.2 ⟨t, List.mem_filter.2 ⟨ht, by simpa using hdb⟩, rfl⟩
  have hreach : ∀ a b, f.Reach a b → f.Accessible a → f.Coaccessible b → a < f.numStates →
      g.Reach (newNumber ds a) (newNumber ds b) := by
    intro a b hab
    induction hab using Relation.ReflTransGen.head_induction_on with
    | refl => intros; exact .refl
    | @head a c hac hcb ih =>
      intro ha hb hlt
      obtain ⟨t, ht, rfl⟩ := id hac
      have hcl := hw.next_lt a t ht
      have hca := accessible_step ha ht
      obtain ⟨z, hz, hfz⟩ := hb
      have hcc : f.Coaccessible t.nextstate := ⟨z, hcb.trans hz, hfz⟩
      have haa : f.Coaccessible a := ⟨z, .head hac (hcb.trans hz), hfz⟩
      exact .head (hedge a _ hlt ((hu a hlt).2 ⟨ha, haa⟩) ((hu _ hcl).2 ⟨hca, hcc⟩) hac) (ih hca ⟨z, hz, hfz⟩ hcl)
  obtain ⟨⟨i, hi, hr⟩, z, hz, hfz⟩ := (hu s h1).1 h2
  have hil := hw.start_lt i hi
  have hid : i ∉ ds := (hu i hil).2 ⟨⟨i, hi, .refl⟩, z, hr.trans hz, hfz⟩
  have hzl : z < f.numStates := by
    by_contra hc
    unfold IsFinal at hfz
    rw [finOf_of_ge (by omega)] at hfz
    cases hfz
  have hzd : z ∉ ds := (hu z hzl).2 ⟨⟨i, hi, hr.trans hz⟩, z, .refl, hfz⟩
  refine ⟨⟨newNumber ds i, by rw [h.start, hi]; simp [hid], ?_⟩, newNumber ds z, ?_, ?_⟩
  · exact hreach i s hr ⟨i, hi, .refl⟩ ⟨z, hz, hfz⟩ hil
  · exact hreach s z hz ⟨i, hi, hr⟩ ⟨z, .refl, hfz⟩ h1
  · unfold IsFinal; rw [(h.st _ z (survivors_get ds hzl hzd)).1]; exact hfz

end Fst
end Verif
