import Verif.Spec.DelStates
import Verif.Lemmas.Access
import Verif.Lemmas.ListAux

/-! # `del_states` implements the specification -/

namespace Verif
set_option linter.unusedSectionVars false
universe u
variable {W : Type u}
open Fst

theorem newNumber_succ (ds : List StateId) (q) :
    newNumber ds (q + 1) = newNumber ds q + if q ∈ ds then 0 else 1 := by
  unfold newNumber
  rw [List.range_succ, List.filter_append]
  by_cases h : q ∈ ds <;> simp [h]

theorem newNumber_le (ds : List StateId) (q) : newNumber ds q ≤ q := by
  unfold newNumber
  exact Nat.le_trans (List.length_filter_le _ _) (by simp)

theorem newNumber_mono (ds : List StateId) {p q} (h : p ≤ q) : newNumber ds p ≤ newNumber ds q := by
  induction h with
  | refl => exact Nat.le_refl _
  | step _ ih => rw [newNumber_succ]; omega

theorem newNumber_lt (ds : List StateId) {p q} (h : p < q) (hp : p ∉ ds) : newNumber ds p < newNumber ds q := by
  have h1 := newNumber_mono ds (Nat.succ_le_of_lt h)
  rw [Nat.succ_eq_add_one, newNumber_succ] at h1
  simp [hp] at h1
  omega

theorem survivors_length (n : Nat) (ds) : (survivors n ds).length = newNumber ds n := rfl

theorem survivors_succ (n : Nat) (ds) :
    survivors (n + 1) ds = survivors n ds ++ if n ∈ ds then [] else [n] := by
  unfold survivors
  rw [List.range_succ, List.filter_append]
  by_cases h : n ∈ ds <;> simp [h]

/-- Surviving state `q` sits at position `newNumber ds q`. -/
theorem survivors_get (ds) {n q : Nat} (hq : q < n) (hd : q ∉ ds) :
    (survivors n ds)[newNumber ds q]? = some q := by
  induction n with
  | zero => omega
  | succ n ih =>
    rw [survivors_succ]
    by_cases hqn : q = n
    · subst hqn
      rw [List.getElem?_append_right (Nat.le_of_eq (survivors_length _ _))]
      simp [survivors_length, hd]
    · have hlt : q < n := by omega
      rw [List.getElem?_append_left (by rw [survivors_length]; exact newNumber_lt ds hlt hd)]
      exact ih hlt

theorem survivors_get_inv (ds) {n i s : Nat} (h : (survivors n ds)[i]? = some s) :
    s < n ∧ s ∉ ds ∧ newNumber ds s = i := by
  have hm : s ∈ survivors n ds := List.mem_of_getElem? h
  simp only [survivors, List.mem_filter, List.mem_range, decide_eq_true_eq] at hm
  refine ⟨hm.1, hm.2, ?_⟩
  have h2 := survivors_get ds hm.1 hm.2
  have hnd : (survivors n ds).Nodup := List.Nodup.sublist List.filter_sublist List.nodup_range
  have hi : i < (survivors n ds).length := by
    by_contra hc
    rw [List.getElem?_eq_none (by omega)] at h; simp at h
  exact ((List.getElem?_inj hi hnd).mp (h.trans h2.symm)).symm

theorem marks_get (ds : List StateId) (l : List Int) (q : Nat) :
    (ds.foldl (fun l s => l.set s (-1)) l)[q]? = l[q]?.map (fun x => if q ∈ ds then -1 else x) := by
  induction ds generalizing l with
  | nil => simp
  | cons d ds ih =>
    rw [List.foldl_cons, ih, List.getElem?_set]
    by_cases h : d = q
    · subst h
      by_cases hl : d < l.length
      · simp [hl]
      · simp [hl]
    · have h' : q ≠ d := fun e => h e.symm
      simp [h, h']

theorem markDeleted_ok {n : Nat} {ds : List StateId} (h : ∀ s ∈ ds, s < n) :
    markDeleted n ds = .ok ((List.range' 0 n).map (fun s => if s ∈ ds then -1 else 0)) := by
  unfold markDeleted
  rw [if_pos (by simpa using h)]
  congr 1
  apply List.ext_getElem?
  intro q
  rw [marks_get ds]
  rw [← List.range_eq_range', getElem?_map_range, List.getElem?_replicate]
  by_cases hq : q < n <;> simp [hq]

theorem markDeleted_inv {n : Nat} {ds : List StateId} {m} (h : markDeleted n ds = .ok m) :
    ∀ s ∈ ds, s < n := by
  unfold markDeleted at h
  split at h
  · rename_i hh; simpa using hh
  · simp at h

/-- One swap step of the compaction. -/
theorem swap_step {sts : List (State W)} {ns s : Nat} (hns : ns ≤ s) (hs : s < sts.length) :
    let sts' := if s ≠ ns then swapAt sts ns s else sts
    sts'.length = sts.length ∧ sts'.take (ns + 1) = sts.take ns ++ [sts[s]] ∧
      ∀ q, s < q → sts'[q]? = sts[q]? := by
  intro sts'
  by_cases h : s = ns
  · subst h
    have : sts' = sts := by simp [sts']
    rw [this]
    refine ⟨rfl, ?_, fun _ _ => rfl⟩
    rw [List.take_add_one, List.getElem?_eq_getElem hs]; rfl
  · have hlt : ns < s := by omega
    have hnl : ns < sts.length := by omega
    have e : sts' = (sts.set ns sts[s]).set s sts[ns] := by
      simp only [sts', swapAt, ne_eq, h, not_false_eq_true, if_true, List.getElem?_eq_getElem hs,
        List.getElem?_eq_getElem hnl]
    rw [e]
    refine ⟨by simp, ?_, ?_⟩
    · rw [List.take_set_of_le (by omega)]
      rw [List.take_add_one, List.getElem?_set_self hnl, List.take_set_of_le (Nat.le_refl _)]
      rfl
    · intro q hq
      rw [List.getElem?_set_ne (by omega), List.getElem?_set_ne (by omega)]

theorem compactLoop_spec (ds : List StateId) : ∀ (k s : Nat) (sts : List (State W)), s + k = sts.length →
    let r := compactLoop ((List.range' s k).map (fun q => if q ∈ ds then (-1 : Int) else 0)) s (newNumber ds s) sts
    r.1 = (List.range' s k).map (fun q => if q ∈ ds then (-1 : Int) else (newNumber ds q : Int)) ∧
    r.2.2 = newNumber ds (s + k) ∧
    r.2.1.take r.2.2 = sts.take (newNumber ds s) ++
      ((List.range' s k).filter (fun q => q ∉ ds)).filterMap (fun q => sts[q]?) := by
  intro k
  induction k with
  | zero => intro s sts h; simp [compactLoop]
  | succ k ih =>
    intro s sts h
    rw [List.range'_succ, List.map_cons]
    by_cases hs : s ∈ ds
    · have hn : newNumber ds (s + 1) = newNumber ds s := by rw [newNumber_succ]; simp [hs]
      have := ih (s + 1) sts (by omega)
      rw [hn] at this
      obtain ⟨h1, h2, h3⟩ := this
      simp only [hs, if_true, compactLoop, ne_eq, not_true_eq_false, if_false]
      refine ⟨?_, ?_, ?_⟩
      · rw [h1]; simp [hs]
      · rw [h2]; congr 1; omega
      · rw [h3]; simp [hs]
    · have hn : newNumber ds (s + 1) = newNumber ds s + 1 := by rw [newNumber_succ]; simp [hs]
      simp only [hs, if_false, compactLoop]
      rw [if_pos (by decide)]
      obtain ⟨e1, e2, e3⟩ := swap_step (newNumber_le ds s) (show s < sts.length by omega)
      revert e1 e2 e3
      generalize (if s ≠ newNumber ds s then swapAt sts (newNumber ds s) s else sts) = sts'
      intro e1 e2 e3
      have := ih (s + 1) sts' (by rw [e1]; omega)
      rw [hn] at this
      obtain ⟨h1, h2, h3⟩ := this
      refine ⟨?_, ?_, ?_⟩
      · simp only [h1, List.map_cons, hs, if_false]
      · show (compactLoop _ _ _ _).2.2 = _
        rw [h2]; congr 1; omega
      · show List.take (compactLoop _ _ _ _).2.2 (compactLoop _ _ _ _).2.1 = _
        rw [h3, e2]
        have hf : ((List.range' (s + 1) k).filter (fun q => q ∉ ds)).filterMap (fun q => sts'[q]?) =
            ((List.range' (s + 1) k).filter (fun q => q ∉ ds)).filterMap (fun q => sts[q]?) := by
          apply filterMap_congr'
          intro q hq
          simp only [List.mem_filter, List.mem_range'_1] at hq
          exact e3 q (by omega)
        rw [hf]
        simp only [hs, List.filter_cons, not_false_eq_true, decide_true, if_true]
        rw [List.filterMap_cons, List.getElem?_eq_getElem (show s < sts.length by omega)]
        simp

/-- The renumbering table computed by `del_states`. -/
def delIds (n : Nat) (ds : List StateId) : List Int :=
  (List.range' 0 n).map (fun q => if q ∈ ds then (-1 : Int) else (newNumber ds q : Int))

theorem delIds_get (n : Nat) (ds : List StateId) (q : Nat) :
    (delIds n ds)[q]? = if q < n then some (if q ∈ ds then (-1 : Int) else (newNumber ds q : Int)) else none := by
  unfold delIds
  rw [← List.range_eq_range', getElem?_map_range]

theorem renameTr_delIds {n : Nat} {ds : List StateId} {t : Tr W} (h : t.nextstate < n) :
    renameTr (delIds n ds) t =
      .ok (if t.nextstate ∈ ds then none else some { t with nextstate := newNumber ds t.nextstate }) := by
  unfold renameTr
  rw [delIds_get, if_pos h]
  by_cases hd : t.nextstate ∈ ds
  · simp [hd]
  · simp only [hd, if_false]
    have : ((newNumber ds t.nextstate : Nat) : Int) ≠ -1 := by omega
    simp [this]

theorem renameTr_panic {n : Nat} {ds : List StateId} {t : Tr W} (h : ¬ t.nextstate < n) :
    renameTr (delIds n ds) t = .error .panic := by
  unfold renameTr
  rw [delIds_get, if_neg h]

/-- The counters after dropping the transitions to deleted states. -/
def dropCount (sel : Tr W → Label) (ds : List StateId) (ts : List (Tr W)) (n : Nat) : Nat :=
  n - (ts.filter (fun t => sel t = EPS ∧ t.nextstate ∈ ds)).length

theorem renameSt_ok {n : Nat} {ds : List StateId} (ts : List (Tr W)) (h : ∀ t ∈ ts, t.nextstate < n) (ni no : Nat) :
    renameSt (delIds n ds) ts ni no =
      .ok (survivingTrs ds ts, dropCount (·.ilabel) ds ts ni, dropCount (·.olabel) ds ts no) := by
  induction ts generalizing ni no with
  | nil => simp [renameSt, survivingTrs, dropCount]
  | cons t ts ih =>
    have ht := h t (by simp)
    have ih := ih (fun t' h' => h t' (by simp [h']))
    rw [renameSt, renameTr_delIds ht]
    by_cases hd : t.nextstate ∈ ds
    · simp only [hd, if_true]
      rw [ih]
      simp only [survivingTrs, dropCount, List.filter_cons, hd, not_true_eq_false, decide_false, and_true]
      congr 3
      · by_cases e : t.ilabel = 0 <;> simp [e]; omega
      · by_cases e : t.olabel = 0 <;> simp [e]; omega
    · simp only [hd, if_false]
      rw [ih]
      simp [survivingTrs, dropCount, List.filter_cons, hd]

theorem renameSt_inv {n : Nat} {ds : List StateId} (ts : List (Tr W)) {ni no r}
    (h : renameSt (delIds n ds) ts ni no = .ok r) : ∀ t ∈ ts, t.nextstate < n := by
  induction ts generalizing ni no r with
  | nil => simp
  | cons t ts ih =>
    rw [renameSt] at h
    by_cases ht : t.nextstate < n
    · rw [renameTr_delIds ht] at h
      by_cases hd : t.nextstate ∈ ds
      · simp only [hd, if_true] at h
        have := ih h
        simpa [ht] using this
      · simp only [hd, if_false] at h
        split at h
        · simp at h
        · rename_i h'
          have := ih h'
          simpa [ht] using this
    · rw [renameTr_panic ht] at h
      simp at h

/-- A state after deletion. -/
def delSt (ds : List StateId) (st : State W) : State W :=
  { st with
    trs := survivingTrs ds st.trs
    niepsilons := dropCount (·.ilabel) ds st.trs st.niepsilons
    noepsilons := dropCount (·.olabel) ds st.trs st.noepsilons }

theorem renameSts_ok {n : Nat} {ds : List StateId} (sts : List (State W))
    (h : ∀ st ∈ sts, ∀ t ∈ st.trs, t.nextstate < n) :
    renameSts (delIds n ds) sts = .ok (sts.map (delSt ds)) := by
  induction sts with
  | nil => rfl
  | cons st sts ih =>
    rw [renameSts, renameSt_ok st.trs (h st (by simp)), ih (fun st' h' => h st' (by simp [h']))]
    simp [delSt]

theorem renameSts_inv {n : Nat} {ds : List StateId} (sts : List (State W)) {r}
    (h : renameSts (delIds n ds) sts = .ok r) : ∀ st ∈ sts, ∀ t ∈ st.trs, t.nextstate < n := by
  induction sts generalizing r with
  | nil => simp
  | cons st sts ih =>
    rw [renameSts] at h
    split at h
    · simp at h
    · rename_i h1
      split at h
      · simp at h
      · rename_i h2
        simp only [List.mem_cons, forall_eq_or_imp]
        exact ⟨renameSt_inv _ h1, ih h2⟩

/-- `survivors`, as states. -/
theorem survivors_states (sts : List (State W)) (ds : List StateId) (i : Nat) :
    ((survivors sts.length ds).filterMap (fun q => sts[q]?))[i]? = (survivors sts.length ds)[i]?.bind (fun q => sts[q]?) := by
  have key : ∀ (l : List Nat), (∀ q ∈ l, q < sts.length) → ∀ i : Nat,
      (l.filterMap (fun q => sts[q]?))[i]? = l[i]?.bind (fun q => sts[q]?) := by
    intro l
    induction l with
    | nil => simp
    | cons a l ih =>
      intro h i
      have ha := h a (by simp)
      rw [List.filterMap_cons, List.getElem?_eq_getElem ha]
      cases i with
      | zero => simp [List.getElem?_eq_getElem ha]
      | succ i => simpa using ih (fun q hq => h q (by simp [hq])) i
  apply key
  intro q hq
  simp [survivors] at hq
  exact hq.1

theorem delStates_eq (f : Fst W) (ds : List StateId) (hd : ∀ s ∈ ds, s < f.numStates) :
    f.delStates ds =
      match renameSts (delIds f.numStates ds) ((survivors f.numStates ds).filterMap (fun q => f.states[q]?)) with
      | .error e => .error e
      | .ok sts =>
        match renameStart (delIds f.numStates ds) f.start with
        | .error e => .error e
        | .ok st => .ok ⟨sts, st, Props.deleteStates f.props⟩ := by
  unfold delStates
  rw [markDeleted_ok (n := f.states.length) hd]
  have h := compactLoop_spec (W := W) ds f.states.length 0 f.states (by omega)
  have h0 : newNumber ds 0 = 0 := rfl
  rw [h0] at h
  obtain ⟨h1, h2, h3⟩ := h
  simp only
  rw [h1, h3]
  simp only [List.take_zero, List.nil_append]
  rw [← List.range_eq_range']
  unfold delIds survivors numStates
  rw [← List.range_eq_range']
  rfl

theorem renameStart_delIds (n : Nat) (ds : List StateId) (o : Option StateId) (h : ∀ i, o = some i → i < n) :
    renameStart (delIds n ds) o = .ok (o.bind (fun i => if i ∈ ds then none else some (newNumber ds i))) := by
  cases o with
  | none => rfl
  | some i =>
    have hi := h i rfl
    simp only [renameStart]
    rw [delIds_get, if_pos hi]
    by_cases hd : i ∈ ds
    · simp [hd]
    · have : ((newNumber ds i : Nat) : Int) ≠ -1 := by omega
      simp [hd, this]

theorem renameStart_inv {n : Nat} {ds : List StateId} {o : Option StateId} {r}
    (h : renameStart (delIds n ds) o = .ok r) : ∀ i, o = some i → i < n := by
  intro i hi
  subst hi
  simp only [renameStart] at h
  rw [delIds_get] at h
  by_contra hc
  rw [if_neg hc] at h
  simp at h

/-- Success of `del_states`, completely characterised. -/
theorem delStates_ok (f : Fst W) (ds : List StateId) (hd : ∀ s ∈ ds, s < f.numStates)
    (hs : ∀ i, f.start = some i → i < f.numStates)
    (ht : ∀ s, s < f.numStates → s ∉ ds → ∀ t ∈ f.trsOf s, t.nextstate < f.numStates) :
    f.delStates ds = .ok
      ⟨((survivors f.numStates ds).filterMap (fun q => f.states[q]?)).map (delSt ds),
       f.start.bind (fun i => if i ∈ ds then none else some (newNumber ds i)),
       Props.deleteStates f.props⟩ := by
  rw [delStates_eq f ds hd, renameSts_ok, renameStart_delIds _ _ _ hs]
  intro st hst t htm
  simp only [List.mem_filterMap, survivors, List.mem_filter, List.mem_range, decide_eq_true_eq] at hst
  obtain ⟨q, ⟨hq, hqd⟩, hget⟩ := hst
  exact ht q hq hqd t (by rw [trsOf_eq_of_get hget]; exact htm)

theorem delStates_inv {f g : Fst W} {ds : List StateId} (h : f.delStates ds = .ok g) :
    (∀ s ∈ ds, s < f.numStates) ∧ (∀ i, f.start = some i → i < f.numStates) ∧
    (∀ s, s < f.numStates → s ∉ ds → ∀ t ∈ f.trsOf s, t.nextstate < f.numStates) := by
  have hd : ∀ s ∈ ds, s < f.numStates := by
    unfold delStates at h
    split at h
    · simp at h
    · rename_i hm; exact markDeleted_inv hm
  rw [delStates_eq f ds hd] at h
  split at h
  · simp at h
  · rename_i h1
    split at h
    · simp at h
    · rename_i h2
      refine ⟨hd, renameStart_inv h2, ?_⟩
      intro s hs hsd t htm
      have := renameSts_inv _ h1 (f.states[s]'hs) (by
        simp only [List.mem_filterMap, survivors, List.mem_filter, List.mem_range, decide_eq_true_eq]
        exact ⟨s, ⟨hs, hsd⟩, List.getElem?_eq_getElem (show s < f.states.length from hs)⟩)
      rw [trsOf_of_lt hs] at htm
      exact this t htm

theorem delStates_eq_of_ok {f g : Fst W} {ds : List StateId} (h : f.delStates ds = .ok g) :
    g = ⟨((survivors f.numStates ds).filterMap (fun q => f.states[q]?)).map (delSt ds),
       f.start.bind (fun i => if i ∈ ds then none else some (newNumber ds i)),
       Props.deleteStates f.props⟩ := by
  obtain ⟨h1, h2, h3⟩ := delStates_inv h
  rw [delStates_ok f ds h1 h2 h3] at h
  cases h; rfl

/-- The states after deletion: position `i` holds the `i`-th survivor. -/
theorem delStates_get {f g : Fst W} {ds : List StateId} (h : f.delStates ds = .ok g) (i : Nat) :
    g.states[i]? = (survivors f.numStates ds)[i]?.bind (fun q => (f.states[q]?).map (delSt ds)) := by
  rw [delStates_eq_of_ok h]
  simp only [List.getElem?_map]
  have := survivors_states f.states ds i
  unfold numStates
  rw [this]
  cases (survivors f.states.length ds)[i]? <;> simp

theorem delStates_numStates {f g : Fst W} {ds : List StateId} (h : f.delStates ds = .ok g) :
    g.numStates = newNumber ds f.numStates := by
  rw [delStates_eq_of_ok h]
  simp only [numStates, List.length_map]
  rw [← survivors_length]
  have key : ∀ (l : List Nat), (∀ q ∈ l, q < f.states.length) →
      (l.filterMap (fun q => f.states[q]?)).length = l.length := by
    intro l
    induction l with
    | nil => simp
    | cons a l ih =>
      intro h
      rw [List.filterMap_cons, List.getElem?_eq_getElem (h a (by simp))]
      simpa using ih (fun q hq => h q (by simp [hq]))
  apply key
  intro q hq
  simp [survivors] at hq
  exact hq.1

theorem delStates_trsOf {f g : Fst W} {ds : List StateId} (h : f.delStates ds = .ok g) {i s : Nat}
    (hi : (survivors f.numStates ds)[i]? = some s) : g.trsOf i = survivingTrs ds (f.trsOf s) := by
  have hs := (survivors_get_inv ds hi).1
  rw [trsOf_eq, delStates_get h, hi]
  have : s < f.states.length := hs
  simp [List.getElem?_eq_getElem this, delSt, trsOf]
theorem delStates_finOf {f g : Fst W} {ds : List StateId} (h : f.delStates ds = .ok g) {i s : Nat}
    (hi : (survivors f.numStates ds)[i]? = some s) : g.finOf i = f.finOf s := by
  have hs := (survivors_get_inv ds hi).1
  rw [finOf_eq, delStates_get h, hi]
  have : s < f.states.length := hs
  simp [List.getElem?_eq_getElem this, delSt, finOf]
theorem delStates_start {f g : Fst W} {ds : List StateId} (h : f.delStates ds = .ok g) :
    g.start = f.start.bind (fun i => if i ∈ ds then none else some (newNumber ds i)) := by
  rw [delStates_eq_of_ok h]
theorem delStates_props {f g : Fst W} {ds : List StateId} (h : f.delStates ds = .ok g) :
    g.props = Props.deleteStates f.props := by
  rw [delStates_eq_of_ok h]

end Verif
