import Verif.Lemmas.DelStates

/-! # Start state, transition targets and ε counters along histories -/

namespace Verif
set_option linter.unusedSectionVars false
universe u
variable {W : Type u}
namespace Fst

/-- Number of ε labels in a list of transitions. -/
def epsCount (sel : Tr W → Nat) (ts : List (Tr W)) : Nat := (ts.filter (fun t => sel t = EPS)).length

theorem epsCount_nil (sel : Tr W → Nat) : epsCount sel [] = 0 := rfl
theorem epsCount_cons (sel : Tr W → Nat) (t ts) :
    epsCount sel (t :: ts) = (if sel t = EPS then 1 else 0) + epsCount sel ts := by
  unfold epsCount
  by_cases h : sel t = 0 <;> simp [List.filter_cons, h]; omega
theorem epsCount_append (sel : Tr W → Nat) (a b) : epsCount sel (a ++ b) = epsCount sel a + epsCount sel b := by
  simp [epsCount, List.filter_append]
theorem epsCount_perm (sel : Tr W → Nat) {a b : List (Tr W)} (h : a.Perm b) : epsCount sel a = epsCount sel b :=
  (h.filter _).length_eq
theorem epsCount_eq_zero (sel : Tr W → Nat) (a) : epsCount sel a = 0 ↔ ∀ t ∈ a, sel t ≠ 0 := by
  simp [epsCount]

theorem countersOk_iff (st : State W) : CountersOk st ↔
    st.niepsilons = epsCount (·.ilabel) st.trs ∧ st.noepsilons = epsCount (·.olabel) st.trs := Iff.rfl

theorem countEps_map (sel : Tr W → Nat) (ts : List (Tr W)) : countEps (ts.map sel) = epsCount sel ts := by
  induction ts with
  | nil => rfl
  | cons t ts ih =>
    rw [epsCount_cons, ← ih]
    unfold countEps
    rw [List.map_cons, List.countP_cons]
    by_cases h : sel t = 0 <;> simp [h]; omega

/-- All counters of the FST are exact. -/
def AllCounters (f : Fst W) : Prop := ∀ (s : Nat) (st : State W), f.states[s]? = some st → CountersOk st

theorem allCounters_modifySt {f : Fst W} (h : f.AllCounters) (s g)
    (hg : ∀ st, f.states[s]? = some st → CountersOk st → CountersOk (g st)) (p) :
    ({ f.modifySt s g with props := p } : Fst W).AllCounters := by
  intro q st hq
  have hq' : (f.modifySt s g).states[q]? = some st := hq
  rw [modifySt_get] at hq'
  split at hq'
  · rename_i e
    subst e
    cases hs : f.states[q]? with
    | none => rw [hs] at hq'; simp at hq'
    | some st' =>
      rw [hs] at hq'
      simp at hq'
      rw [← hq']
      exact hg st' hs (h q st' hs)
  · exact h q st hq'

theorem countersOk_new : CountersOk (State.new : State W) := by
  simp [CountersOk, State.new]

theorem allCounters_addStates {f : Fst W} (h : f.AllCounters) (n) : (f.addStates n).AllCounters := by
  intro q st hq
  simp only [addStates, List.getElem?_append] at hq
  split at hq
  · exact h q st hq
  · rw [List.getElem?_replicate] at hq
    split at hq
    · cases hq; exact countersOk_new
    · simp at hq

theorem countersOk_pushTr {st : State W} (h : CountersOk st) (t) : CountersOk (State.pushTr st t) := by
  rw [countersOk_iff] at *
  obtain ⟨h1, h2⟩ := h
  simp only [State.pushTr, epsCount_append, epsCount_cons, epsCount_nil]
  constructor
  · split <;> omega
  · split <;> omega

theorem dropCount_eq (sel : Tr W → Nat) (ds : List Nat) (hsel : ∀ t q, sel { t with nextstate := q } = sel t)
    (ts : List (Tr W)) :
    dropCount sel ds ts (epsCount sel ts) = epsCount sel (survivingTrs ds ts) := by
  have key : epsCount sel ts = epsCount sel (survivingTrs ds ts) +
      (ts.filter (fun t => decide (sel t = 0) && decide (t.nextstate ∈ ds))).length := by
    induction ts with
    | nil => rfl
    | cons t ts ih =>
      rw [epsCount_cons]
      by_cases hd : t.nextstate ∈ ds
      · have : survivingTrs ds (t :: ts) = survivingTrs ds ts := by simp [survivingTrs, hd]
        rw [this]
        by_cases e : sel t = 0 <;> simp [List.filter_cons, e, hd] <;> omega
      · have : survivingTrs ds (t :: ts) =
            { t with nextstate := newNumber ds t.nextstate } :: survivingTrs ds ts := by
          simp [survivingTrs, hd]
        rw [this, epsCount_cons]
        have e1 := hsel t (newNumber ds t.nextstate)
        simp only [e1]
        by_cases e : sel t = 0 <;> simp [List.filter_cons, e, hd] <;> omega
  unfold dropCount
  simp only [Bool.decide_and]
  omega

theorem countersOk_delSt {st : State W} (h : CountersOk st) (ds) : CountersOk (delSt ds st) := by
  rw [countersOk_iff] at *
  obtain ⟨h1, h2⟩ := h
  simp only [delSt]
  rw [h1, h2]
  exact ⟨dropCount_eq _ _ (fun _ _ => rfl) _, dropCount_eq _ _ (fun _ _ => rfl) _⟩

theorem allCounters_delStates {f g : Fst W} {ds} (h : f.AllCounters) (hg : f.delStates ds = .ok g) :
    g.AllCounters := by
  intro i st hi
  rw [delStates_get hg] at hi
  cases hs : (survivors f.numStates ds)[i]? with
  | none => rw [hs] at hi; simp at hi
  | some s =>
    rw [hs] at hi
    simp only [Option.bind_some, Option.map_eq_some_iff] at hi
    obtain ⟨st', h1, h2⟩ := hi
    rw [← h2]
    exact countersOk_delSt (h s st' h1) ds

theorem epsCount_eraseIdx (sel : Tr W → Nat) {ts : List (Tr W)} {i : Nat} {t : Tr W} (h : ts[i]? = some t) :
    epsCount sel (ts.eraseIdx i) = if sel t = EPS then epsCount sel ts - 1 else epsCount sel ts := by
  induction ts generalizing i with
  | nil => simp at h
  | cons a ts ih =>
    cases i with
    | zero =>
      simp at h; subst h
      rw [List.eraseIdx_zero, List.tail_cons, epsCount_cons]
      split <;> omega
    | succ i =>
      simp at h
      rw [List.eraseIdx_cons_succ, epsCount_cons, epsCount_cons, ih h]
      by_cases e : sel t = 0
      · have : 0 < epsCount sel ts := by
          rw [Nat.pos_iff_ne_zero]; intro hc
          rw [epsCount_eq_zero] at hc
          exact hc t (List.mem_of_getElem? h) e
        simp only [e, if_true]; omega
      · simp [e]

theorem delTrIdx_counters (st : State W) (is : List Nat) {st'} (h : CountersOk st) (he : delTrIdx st is = .ok st') :
    CountersOk st' := by
  induction is generalizing st' with
  | nil => simp [delTrIdx] at he; rw [← he]; exact h
  | cons i is ih =>
    rw [delTrIdx] at he
    split at he
    · simp at he
    · rename_i st1 h1
      have hc := ih h1
      split at he
      · simp at he
      · rename_i t ht
        cases he
        rw [countersOk_iff] at *
        simp only
        rw [epsCount_eraseIdx _ ht, epsCount_eraseIdx _ ht, hc.1, hc.2]
        exact ⟨rfl, rfl⟩

theorem allCounters_set {f : Fst W} (h : f.AllCounters) (s st) (hst : CountersOk st) (p) :
    ({ f with states := f.states.set s st, props := p } : Fst W).AllCounters := by
  intro q st' hq
  simp only [List.getElem?_set] at hq
  split at hq
  · split at hq
    · cases hq; exact hst
    · simp at hq
  · exact h q st' hq

theorem allCounters_delTrsIdSorted {f g : Fst W} {s is} (h : f.AllCounters) (he : f.delTrsIdSorted s is = .ok g) :
    g.AllCounters := by
  unfold delTrsIdSorted at he
  split at he
  · cases he; exact h
  · rename_i st hs
    split at he
    · simp at he
    · rename_i st' h1
      cases he
      exact allCounters_set h s st' (delTrIdx_counters st is (h s st hs) h1) _

theorem epsCount_set (sel : Tr W → Nat) {ts : List (Tr W)} {i : Nat} {t t' : Tr W} (h : ts[i]? = some t) :
    epsCount sel (ts.set i t') = updEps (sel t) (sel t') (epsCount sel ts) := by
  induction ts generalizing i with
  | nil => simp at h
  | cons a ts ih =>
    cases i with
    | zero =>
      simp at h; subst h
      rw [List.set_cons_zero, epsCount_cons, epsCount_cons]
      unfold updEps
      by_cases e : sel a = 0 <;> by_cases e' : sel t' = 0 <;> simp [e, e'] <;> omega
    | succ i =>
      simp at h
      rw [List.set_cons_succ, epsCount_cons, epsCount_cons, ih h]
      unfold updEps
      by_cases e : sel t = 0
      · have : 0 < epsCount sel ts := by
          rw [Nat.pos_iff_ne_zero]; intro hc
          rw [epsCount_eq_zero] at hc
          exact hc t (List.mem_of_getElem? h) e
        by_cases e' : sel t' = 0 <;> simp [e, e'] <;> omega
      · by_cases e' : sel t' = 0 <;> simp [e, e'] <;> omega

theorem epsCount_set_same (sel : Tr W → Nat) {ts : List (Tr W)} {i : Nat} {t t' : Tr W} (h : ts[i]? = some t)
    (he : sel t = sel t') : epsCount sel (ts.set i t') = epsCount sel ts := by
  induction ts generalizing i with
  | nil => simp at h
  | cons a ts ih =>
    cases i with
    | zero =>
      simp at h; subst h
      rw [List.set_cons_zero, epsCount_cons, epsCount_cons, he]
    | succ i =>
      simp at h
      rw [List.set_cons_succ, epsCount_cons, epsCount_cons, ih h]

section
variable [Zero W] [One W] [DecidableEq W]
theorem allCounters_replaceTr {f : Fst W} (h : f.AllCounters) {s idx t t' gi go p} (ht : (f.trsOf s)[idx]? = some t)
    (hi : gi = updEps t.ilabel t'.ilabel ∨ (gi = id ∧ t.ilabel = t'.ilabel))
    (ho : go = updEps t.olabel t'.olabel ∨ (go = id ∧ t.olabel = t'.olabel)) :
    (f.replaceTr s idx t' gi go p).AllCounters := by
  unfold replaceTr
  apply allCounters_modifySt h
  intro st hst hc
  rw [trsOf_eq_of_get hst] at ht
  rw [countersOk_iff] at *
  obtain ⟨h1, h2⟩ := hc
  simp only
  rw [h1, h2]
  constructor
  · rcases hi with rfl | ⟨rfl, e⟩
    · exact (epsCount_set _ ht).symm
    · exact (epsCount_set_same _ ht e).symm
  · rcases ho with rfl | ⟨rfl, e⟩
    · exact (epsCount_set _ ht).symm
    · exact (epsCount_set_same _ ht e).symm
end

theorem mem_dedupAux [DecidableEq W] (p : Tr W) (ts) {x} : x ∈ dedupAux p ts ↔ x = p ∨ x ∈ ts := by
  induction ts generalizing p with
  | nil => simp [dedupAux]
  | cons t ts ih =>
    rw [dedupAux]
    split
    · rename_i e; subst e; rw [ih]; simp
    · simp [ih]

theorem mem_dedupTrs [DecidableEq W] (ts : List (Tr W)) {x} : x ∈ dedupTrs ts ↔ x ∈ ts := by
  cases ts with
  | nil => rfl
  | cons t ts => simp [dedupTrs, mem_dedupAux]

theorem sortTrsBy_perm (le : Tr W → Tr W → Bool) (l : List (Tr W)) : (sortTrsBy le l).Perm l :=
  List.mergeSort_perm l le

theorem countersOk_uniqueSt [DecidableEq W] {st : State W} (h : CountersOk st) : CountersOk (uniqueSt st) := by
  unfold uniqueSt
  simp only
  split
  · rw [countersOk_iff]
    exact ⟨countEps_map _ _, countEps_map _ _⟩
  · rename_i hz
    simp only [ne_eq, not_or, not_not] at hz
    rw [countersOk_iff] at *
    obtain ⟨h1, h2⟩ := h
    simp only
    have hi : epsCount (·.ilabel) st.trs = 0 := by omega
    have ho : epsCount (·.olabel) st.trs = 0 := by omega
    rw [epsCount_eq_zero] at hi ho
    rw [hz.1, hz.2]
    constructor
    · symm; rw [epsCount_eq_zero]; intro t ht
      rw [mem_dedupTrs, (sortTrsBy_perm trLe st.trs).mem_iff] at ht
      exact hi t ht
    · symm; rw [epsCount_eq_zero]; intro t ht
      rw [mem_dedupTrs, (sortTrsBy_perm trLe st.trs).mem_iff] at ht
      exact ho t ht

theorem sumAux_counters [Add W] (p : Tr W) (ts ni no) (hi : ni = epsCount (·.ilabel) (p :: ts))
    (ho : no = epsCount (·.olabel) (p :: ts)) :
    (sumAux p ts ni no).2.1 = epsCount (·.ilabel) (sumAux p ts ni no).1 ∧
    (sumAux p ts ni no).2.2 = epsCount (·.olabel) (sumAux p ts ni no).1 := by
  have gen : ∀ (ts : List (Tr W)) (p : Tr W) (ni no ai ao : Nat), ni = ai + epsCount (·.ilabel) (p :: ts) →
      no = ao + epsCount (·.olabel) (p :: ts) →
      (sumAux p ts ni no).2.1 = ai + epsCount (·.ilabel) (sumAux p ts ni no).1 ∧
      (sumAux p ts ni no).2.2 = ao + epsCount (·.olabel) (sumAux p ts ni no).1 := by
    intro ts
    induction ts with
    | nil => intro p ni no ai ao h1 h2; simp [sumAux]; exact ⟨h1, h2⟩
    | cons t ts ih =>
      intro p ni no ai ao h1 h2
      rw [sumAux]
      split
      · rename_i e
        apply ih
        · rw [epsCount_cons, epsCount_cons] at h1
          rw [epsCount_cons]
          simp only
          split <;> simp_all <;> omega
        · rw [epsCount_cons, epsCount_cons] at h2
          rw [epsCount_cons]
          simp only
          split <;> simp_all <;> omega
      · simp only [epsCount_cons]
        have := ih t ni no (ai + if p.ilabel = 0 then 1 else 0) (ao + if p.olabel = 0 then 1 else 0)
          (by rw [h1, epsCount_cons]; omega) (by rw [h2, epsCount_cons]; omega)
        omega
  have := gen ts p ni no 0 0 (by omega) (by omega)
  omega

theorem countersOk_sumSt [Add W] {st : State W} (h : CountersOk st) : CountersOk (sumSt st) := by
  rw [countersOk_iff] at *
  unfold sumSt
  have hp := sortTrsBy_perm trLe st.trs
  have h1 : st.niepsilons = epsCount (·.ilabel) (sortTrsBy trLe st.trs) := by rw [epsCount_perm _ hp]; exact h.1
  have h2 : st.noepsilons = epsCount (·.olabel) (sortTrsBy trLe st.trs) := by rw [epsCount_perm _ hp]; exact h.2
  simp only
  cases hl : sortTrsBy trLe st.trs with
  | nil =>
    rw [hl] at h1 h2
    simp only [sumLoop]
    exact ⟨h1, h2⟩
  | cons t ts =>
    rw [hl] at h1 h2
    exact sumAux_counters t ts _ _ h1 h2

/-! ## One step of a history -/

variable [Zero W] [One W] [Add W] [DecidableEq W]

theorem step_counters {f g : Fst W} {op : Op W} {b} (h : f.AllCounters) (hs : step f op = some (g, b)) :
    g.AllCounters := by
  cases op with
  | setStart s =>
    simp only [step, setStartR, Option.some.injEq, Prod.mk.injEq] at hs
    obtain ⟨rfl, -⟩ := hs
    split <;> exact h
  | setFinal s w =>
    simp only [step, setFinalR, Option.some.injEq, Prod.mk.injEq] at hs
    obtain ⟨rfl, -⟩ := hs
    split
    · refine allCounters_modifySt h s _ ?_ _
      intro st _ hc
      exact hc
    · exact h
  | delFinal s =>
    simp only [step, delFinalR, Option.some.injEq, Prod.mk.injEq] at hs
    obtain ⟨rfl, -⟩ := hs
    split
    · refine allCounters_modifySt h s _ ?_ _
      intro st _ hc
      exact hc
    · exact h
  | takeFinal s =>
    simp only [step, takeFinalR, Option.some.injEq, Prod.mk.injEq] at hs
    obtain ⟨rfl, -⟩ := hs
    split
    · refine allCounters_modifySt h s _ ?_ _
      intro st _ hc
      exact hc
    · exact h
  | addState =>
    simp only [step, Option.some.injEq, Prod.mk.injEq] at hs
    obtain ⟨rfl, -⟩ := hs
    exact allCounters_addStates h 1
  | addStates n =>
    simp only [step, Option.some.injEq, Prod.mk.injEq] at hs
    obtain ⟨rfl, -⟩ := hs
    exact allCounters_addStates h n
  | addTr s t =>
    simp only [step, addTrR, Option.some.injEq, Prod.mk.injEq] at hs
    obtain ⟨rfl, -⟩ := hs
    split
    · exact allCounters_modifySt h s _ (fun st _ hc => countersOk_pushTr hc t) _
    · exact h
  | delTrs s =>
    simp only [step, delTrsR, Option.some.injEq, Prod.mk.injEq] at hs
    obtain ⟨rfl, -⟩ := hs
    split
    · exact allCounters_modifySt h s _ (fun st _ hc => by simp [CountersOk]) _
    · exact h
  | popTrs s =>
    simp only [step, popTrsR, Option.some.injEq, Prod.mk.injEq] at hs
    obtain ⟨rfl, -⟩ := hs
    split
    · exact allCounters_modifySt h s _ (fun st _ hc => by simp [CountersOk]) _
    · exact h
  | delState s =>
    simp only [step] at hs
    split at hs <;> simp only [Option.some.injEq, Prod.mk.injEq, reduceCtorEq] at hs
    · obtain ⟨rfl, -⟩ := hs
      rename_i he
      unfold delState at he
      split at he
      · exact allCounters_delStates (f := { f with props := f.props.deleteStates }) h he
      · simp at he
    · obtain ⟨rfl, -⟩ := hs; exact h
  | delStates ds =>
    simp only [step] at hs
    split at hs <;> simp only [Option.some.injEq, Prod.mk.injEq, reduceCtorEq] at hs
    · obtain ⟨rfl, -⟩ := hs
      rename_i he
      exact allCounters_delStates h he
    · obtain ⟨rfl, -⟩ := hs; exact h
  | delAllStates =>
    simp only [step, Option.some.injEq, Prod.mk.injEq] at hs
    obtain ⟨rfl, -⟩ := hs
    intro s st hst
    simp [delAllStates] at hst
  | delTrsIdSorted s is =>
    simp only [step] at hs
    split at hs
    · split at hs
      · simp only [Option.some.injEq, Prod.mk.injEq] at hs
        obtain ⟨rfl, -⟩ := hs
        rename_i he
        exact allCounters_delTrsIdSorted h he
      · simp at hs
    · simp at hs
  | setTrs s ts =>
    simp only [step] at hs
    split at hs
    · simp only [Option.some.injEq, Prod.mk.injEq] at hs
      obtain ⟨rfl, -⟩ := hs
      exact allCounters_modifySt h s _ (fun st _ hc => ⟨countEps_map _ _, countEps_map _ _⟩) _
    · simp at hs
  | setIlabel s i l =>
    simp only [step, setIlabelR, Option.some.injEq, Prod.mk.injEq] at hs
    obtain ⟨rfl, -⟩ := hs
    split
    · split
      · exact h
      · rename_i ht
        exact allCounters_replaceTr h ht (Or.inl rfl) (Or.inr ⟨rfl, rfl⟩)
    · exact h
  | setOlabel s i l =>
    simp only [step, setOlabelR, Option.some.injEq, Prod.mk.injEq] at hs
    obtain ⟨rfl, -⟩ := hs
    split
    · split
      · exact h
      · rename_i ht
        exact allCounters_replaceTr h ht (Or.inr ⟨rfl, rfl⟩) (Or.inl rfl)
    · exact h
  | setWeight s i w =>
    simp only [step, setWeightR, Option.some.injEq, Prod.mk.injEq] at hs
    obtain ⟨rfl, -⟩ := hs
    split
    · split
      · exact h
      · rename_i ht
        exact allCounters_replaceTr h ht (Or.inr ⟨rfl, rfl⟩) (Or.inr ⟨rfl, rfl⟩)
    · exact h
  | setNextstate s i q =>
    simp only [step, setNextstateR, Option.some.injEq, Prod.mk.injEq] at hs
    obtain ⟨rfl, -⟩ := hs
    split
    · split
      · exact h
      · rename_i ht
        exact allCounters_replaceTr h ht (Or.inr ⟨rfl, rfl⟩) (Or.inr ⟨rfl, rfl⟩)
    · exact h
  | setTr s i t =>
    simp only [step, setTrR, Option.some.injEq, Prod.mk.injEq] at hs
    obtain ⟨rfl, -⟩ := hs
    split
    · split
      · exact h
      · rename_i ht
        exact allCounters_replaceTr h ht (Or.inl rfl) (Or.inl rfl)
    · exact h
  | sortTrs s le =>
    simp only [step] at hs
    split at hs
    · simp only [Option.some.injEq, Prod.mk.injEq] at hs
      obtain ⟨rfl, -⟩ := hs
      refine allCounters_modifySt h s _ (fun st _ hc => ?_) f.props
      rw [countersOk_iff] at *
      exact ⟨hc.1.trans (epsCount_perm _ (sortTrsBy_perm le st.trs)).symm,
        hc.2.trans (epsCount_perm _ (sortTrsBy_perm le st.trs)).symm⟩
    · simp at hs
  | uniqueTrs s =>
    simp only [step] at hs
    split at hs
    · simp only [Option.some.injEq, Prod.mk.injEq] at hs
      obtain ⟨rfl, -⟩ := hs
      exact allCounters_modifySt h s _ (fun st _ hc => countersOk_uniqueSt hc) f.props
    · simp at hs
  | sumTrs s =>
    simp only [step] at hs
    split at hs
    · simp only [Option.some.injEq, Prod.mk.injEq] at hs
      obtain ⟨rfl, -⟩ := hs
      exact allCounters_modifySt h s _ (fun st _ hc => countersOk_sumSt hc) f.props
    · simp at hs

end Fst
end Verif
