import Verif.Model.Rational
import Verif.Lemmas.Wf
import Verif.Lemmas.Truthful

/-! # What the static operations build: transitions, final weights, start, counters -/

namespace Verif
set_option linter.unusedSectionVars false
universe u v
variable {W : Type u} {V : Type v}

theorem foldl_induct {α β : Type*} (P : β → Prop) (step : β → α → β) (l : List α) (b : β) (h0 : P b)
    (hs : ∀ b a, a ∈ l → P b → P (step b a)) : P (l.foldl step b) := by
  induction l generalizing b with
  | nil => exact h0
  | cons a l ih => exact ih _ (hs b a (by simp) h0) (fun b' a' ha' => hs b' a' (by simp [ha']))

/-- Induction over `for i in 0..n`. -/
theorem foldl_range_induct {β : Type*} (P : Nat → β → Prop) (step : β → Nat → β) (n : Nat) (b : β) (h0 : P 0 b)
    (hs : ∀ i b, i < n → P i b → P (i + 1) (step b i)) : P n ((List.range n).foldl step b) := by
  induction n with
  | zero => simpa using h0
  | succ n ih =>
    rw [List.range_succ, List.foldl_append]
    exact hs n _ (by omega) (ih (fun i b hi => hs i b (by omega)))

namespace Fst

@[simp] theorem setPropsMask_trsOf (f : Fst W) (p m q) : (f.setPropsMask p m).trsOf q = f.trsOf q := rfl
@[simp] theorem setPropsMask_finOf (f : Fst W) (p m q) : (f.setPropsMask p m).finOf q = f.finOf q := rfl
@[simp] theorem setPropsMask_numStates (f : Fst W) (p m) : (f.setPropsMask p m).numStates = f.numStates := rfl
@[simp] theorem setPropsMask_start (f : Fst W) (p m) : (f.setPropsMask p m).start = f.start := rfl
@[simp] theorem setPropsMask_states (f : Fst W) (p m) : (f.setPropsMask p m).states = f.states := rfl
theorem setPropsMask_all (f : Fst W) (p) : (f.setPropsMask p Props.allMask).props = p := by
  funext b; simp [setPropsMask, Props.allMask, Props.or, Props.and, Props.not]

theorem allCounters_states {f g : Fst W} (h : f.AllCounters) (e : g.states = f.states) : g.AllCounters := by
  intro s st hs; rw [e] at hs; exact h s st hs
theorem allCounters_setPropsMask {f : Fst W} (h : f.AllCounters) (p m) : (f.setPropsMask p m).AllCounters :=
  allCounters_states h rfl
theorem allCounters_setStart {f : Fst W} (h : f.AllCounters) (s) : (f.setStart s).AllCounters :=
  allCounters_states h rfl
theorem allCounters_new : (Fst.new : Fst W).AllCounters := by intro s st h; simp [Fst.new] at h
theorem allCounters_delTrs {f : Fst W} (h : f.AllCounters) (s) : (f.delTrs s).AllCounters := by
  refine allCounters_modifySt h s _ ?_ _
  intro st _ _; simp [CountersOk]
theorem allCounters_sortTrs {f : Fst W} (h : f.AllCounters) (s le) : (f.sortTrs s le).AllCounters := by
  have : f.sortTrs s le = { f.modifySt s (fun st => { st with trs := sortTrsBy le st.trs }) with props := f.props } := rfl
  rw [this]
  refine allCounters_modifySt h s _ ?_ _
  intro st _ hc
  rw [countersOk_iff] at *
  simp only
  rw [epsCount_perm _ (sortTrsBy_perm le st.trs), epsCount_perm _ (sortTrsBy_perm le st.trs)]
  exact hc
theorem allCounters_sumTrs [Add W] {f : Fst W} (h : f.AllCounters) (s) : (f.sumTrs s).AllCounters := by
  have : f.sumTrs s = { f.modifySt s sumSt with props := f.props } := rfl
  rw [this]
  exact allCounters_modifySt h s _ (fun st _ hc => countersOk_sumSt hc) _
theorem allCounters_uniqueTrs [DecidableEq W] {f : Fst W} (h : f.AllCounters) (s) : (f.uniqueTrs s).AllCounters := by
  have : f.uniqueTrs s = { f.modifySt s uniqueSt with props := f.props } := rfl
  rw [this]
  exact allCounters_modifySt h s _ (fun st _ hc => countersOk_uniqueSt hc) _

section
variable [Zero W] [One W] [DecidableEq W]
theorem allCounters_setFinal {f : Fst W} (h : f.AllCounters) (s w) : (f.setFinal s w).AllCounters := by
  refine allCounters_modifySt h s _ ?_ _
  intro st _ hc; exact hc
theorem allCounters_delFinal {f : Fst W} (h : f.AllCounters) (s) : (f.delFinal s).AllCounters := by
  refine allCounters_modifySt h s _ ?_ _
  intro st _ hc; exact hc
theorem allCounters_addTr {f : Fst W} (h : f.AllCounters) (s t) : (f.addTr s t).AllCounters := by
  refine allCounters_modifySt h s _ ?_ _
  intro st _ hc; exact countersOk_pushTr hc t
theorem allCounters_setTrs {f : Fst W} (h : f.AllCounters) (s ts) : (f.setTrs s ts).AllCounters := by
  refine allCounters_modifySt h s _ ?_ _
  intro st _ hc
  simp [countersOk_iff, countEps_map]

/-! ### Rewriting every transition in place -/

/-- `upd f s i` rewrites transition `i` of state `s` by `k` and nothing else. -/
structure Rewrites (upd : Fst W → Nat → Nat → Fst W) (k : Tr W → Tr W) : Prop where
  trs : ∀ f s i q, (upd f s i).trsOf q = if q = s then (f.trsOf s).modify i k else f.trsOf q
  fin : ∀ f s i q, (upd f s i).finOf q = f.finOf q
  num : ∀ f s i, (upd f s i).numStates = f.numStates
  start : ∀ f s i, (upd f s i).start = f.start
  counters : ∀ f s i, f.AllCounters → (upd f s i).AllCounters

theorem modify_all {α : Type*} (k : α → α) (l : List α) :
    (List.range l.length).foldl (fun l i => l.modify i k) l = l.map k := by
  have := foldl_range_induct (fun n (m : List α) => ∀ j, m[j]? = if j < n then l[j]?.map k else l[j]?)
    (fun l i => l.modify i k) l.length l (by simp) (by
      intro i b hi hb j
      rw [List.getElem?_modify, hb]
      by_cases hj : i = j
      · subst hj; simp
      · by_cases hj2 : j < i
        · simp [hj, hj2, Nat.lt_succ_of_lt hj2]
        · have : ¬ j < i + 1 := by omega
          simp [hj, hj2, this])
  apply List.ext_getElem?
  intro j
  rw [this j, List.getElem?_map]
  split
  · rfl
  · rename_i h; rw [List.getElem?_eq_none (by omega)]; rfl

theorem forTrs_spec {upd : Fst W → Nat → Nat → Fst W} {k : Tr W → Tr W} (hu : Rewrites upd k) (f : Fst W) (s : Nat) :
    (∀ q, (forTrs upd f s).trsOf q = if q = s then (f.trsOf s).map k else f.trsOf q) ∧
    (∀ q, (forTrs upd f s).finOf q = f.finOf q) ∧ (forTrs upd f s).numStates = f.numStates ∧
    (forTrs upd f s).start = f.start ∧ (f.AllCounters → (forTrs upd f s).AllCounters) := by
  have h1 := foldl_range_induct (fun n (g : Fst W) =>
      (∀ q, g.trsOf q = if q = s then (List.range n).foldl (fun l i => l.modify i k) (f.trsOf s) else f.trsOf q) ∧
      (∀ q, g.finOf q = f.finOf q) ∧ g.numStates = f.numStates ∧ g.start = f.start ∧
      (f.AllCounters → g.AllCounters)) (fun g i => upd g s i) (f.trsOf s).length f
      ⟨by intro q; simp only [List.range_zero, List.foldl_nil]; split
          · rename_i h; rw [h]
          · rfl, by simp, rfl, rfl, id⟩
      (by
        rintro i g hi ⟨a, b, c, d, e⟩
        refine ⟨?_, ?_, ?_, ?_, ?_⟩
        · intro q; rw [hu.trs, List.range_succ, List.foldl_append]
          by_cases h : q = s
          · simp [h, a s]
          · simp [h, a q]
        · intro q; rw [hu.fin, b]
        · rw [hu.num, c]
        · rw [hu.start, d]
        · intro h; exact hu.counters _ _ _ (e h))
  unfold forTrs
  rw [modify_all] at h1
  exact h1

theorem forStates_spec {upd : Fst W → Nat → Nat → Fst W} {k : Tr W → Tr W} (hu : Rewrites upd k) (f : Fst W) :
    (∀ q, (forStates (forTrs upd) f).trsOf q = (f.trsOf q).map k) ∧
    (∀ q, (forStates (forTrs upd) f).finOf q = f.finOf q) ∧ (forStates (forTrs upd) f).numStates = f.numStates ∧
    (forStates (forTrs upd) f).start = f.start ∧ (f.AllCounters → (forStates (forTrs upd) f).AllCounters) := by
  obtain ⟨h1, h2, h3, h4, h5⟩ := foldl_range_induct (fun n (g : Fst W) =>
      (∀ q, g.trsOf q = if q < n then (f.trsOf q).map k else f.trsOf q) ∧
      (∀ q, g.finOf q = f.finOf q) ∧ g.numStates = f.numStates ∧ g.start = f.start ∧
      (f.AllCounters → g.AllCounters)) (forTrs upd) f.numStates f
      ⟨by simp, by simp, rfl, rfl, id⟩
      (by
        rintro i g hi ⟨a, b, c, d, e⟩
        obtain ⟨a', b', c', d', e'⟩ := forTrs_spec hu g i
        refine ⟨?_, ?_, ?_, ?_, ?_⟩
        · intro q; rw [a']
          by_cases h : q = i
          · simp [h, a i]
          · rw [if_neg h, a q]
            have : q < i + 1 ↔ q < i := by omega
            simp [this]
        · intro q; rw [b', b]
        · rw [c', c]
        · rw [d', d]
        · intro h; exact e' (e h))
  unfold forStates
  refine ⟨?_, h2, h3, h4, h5⟩
  intro q
  rw [h1]
  split
  · rfl
  · rename_i h; rw [trsOf_of_ge (by omega)]; rfl

theorem modify_eq_set {α : Type*} {l : List α} {i : Nat} {a : α} (h : l[i]? = some a) (k : α → α) :
    l.modify i k = l.set i (k a) := by
  apply List.ext_getElem?
  intro j
  rw [List.getElem?_modify, List.getElem?_set]
  by_cases hj : i = j
  · subst hj
    obtain ⟨this, e⟩ := List.getElem?_eq_some_iff.1 h
    simp [this, e]
  · simp [hj]

theorem modify_none {α : Type*} {l : List α} {i : Nat} (h : l[i]? = none) (k : α → α) : l.modify i k = l := by
  apply List.ext_getElem?
  intro j
  rw [List.getElem?_modify]
  by_cases hj : i = j
  · subst hj; simp [h]
  · simp [hj]

/-- Swapping the labels of a transition. -/
def swapLabels (t : Tr W) : Tr W := { t with ilabel := t.olabel, olabel := t.ilabel }
/-- Projecting the labels of a transition. -/
def projLabels (ty : ProjectType) (t : Tr W) : Tr W :=
  match ty with
  | .projectInput => { t with olabel := t.ilabel }
  | .projectOutput => { t with ilabel := t.olabel }

theorem invertTr_rewrites : Rewrites (invertTr : Fst W → Nat → Nat → Fst W) swapLabels := by
  constructor
  · intro f s i q
    unfold invertTr
    split
    · rename_i h
      rw [modify_none h]
      split
      · rename_i e; rw [e]
      · rfl
    · rename_i t h
      unfold setLabels
      rw [h]
      simp only
      rw [replaceTr_trsOf, modify_eq_set h]
      rfl
  · intro f s i q
    unfold invertTr setLabels
    split
    · rfl
    · split <;> simp
  · intro f s i
    unfold invertTr setLabels
    split
    · rfl
    · split <;> simp
  · intro f s i
    unfold invertTr setLabels
    split
    · rfl
    · split <;> simp
  · intro f s i hc
    unfold invertTr setLabels
    split
    · exact hc
    · rename_i t h
      rw [h]
      exact allCounters_replaceTr hc h (Or.inl rfl) (Or.inl rfl)

theorem projectTr_rewrites (ty : ProjectType) : Rewrites (projectTr ty : Fst W → Nat → Nat → Fst W) (projLabels ty) := by
  have hlt : ∀ (f : Fst W) (s i : Nat) (t : Tr W), (f.trsOf s)[i]? = some t → s < f.states.length :=
    fun f s i t h => lt_of_mem_trsOf (List.mem_of_getElem? h)
  constructor
  · intro f s i q
    unfold projectTr
    split
    · rename_i h
      rw [modify_none h]
      split
      · rename_i e; rw [e]
      · rfl
    · rename_i t h
      have hl := hlt f s i t h
      cases ty
      · simp only [setOlabelR, hl, if_true, h]
        rw [replaceTr_trsOf, modify_eq_set h]; rfl
      · simp only [setIlabelR, hl, if_true, h]
        rw [replaceTr_trsOf, modify_eq_set h]; rfl
  · intro f s i q
    unfold projectTr
    split
    · rfl
    · rename_i t h
      have hl := hlt f s i t h
      cases ty <;> simp [setOlabelR, setIlabelR, hl, h]
  · intro f s i
    unfold projectTr
    split
    · rfl
    · rename_i t h
      have hl := hlt f s i t h
      cases ty <;> simp [setOlabelR, setIlabelR, hl, h]
  · intro f s i
    unfold projectTr
    split
    · rfl
    · rename_i t h
      have hl := hlt f s i t h
      cases ty <;> simp [setOlabelR, setIlabelR, hl, h]
  · intro f s i hc
    unfold projectTr
    split
    · exact hc
    · rename_i t h
      have hl := hlt f s i t h
      cases ty
      · simp only [setOlabelR, hl, if_true, h]
        exact allCounters_replaceTr hc h (Or.inr ⟨rfl, rfl⟩) (Or.inl rfl)
      · simp only [setIlabelR, hl, if_true, h]
        exact allCounters_replaceTr hc h (Or.inl rfl) (Or.inr ⟨rfl, rfl⟩)

end

/-! ### Rewriting the transition list of every state -/

/-- `upd f s` replaces the transition list of state `s` by `k` of it. -/
structure RewritesList (upd : Fst W → Nat → Fst W) (k : List (Tr W) → List (Tr W)) : Prop where
  nil : k [] = []
  trs : ∀ f s q, (upd f s).trsOf q = if q = s then k (f.trsOf s) else f.trsOf q
  fin : ∀ f s q, (upd f s).finOf q = f.finOf q
  num : ∀ f s, (upd f s).numStates = f.numStates
  start : ∀ f s, (upd f s).start = f.start
  counters : ∀ f s, f.AllCounters → (upd f s).AllCounters

theorem forStatesList_spec {upd : Fst W → Nat → Fst W} {k} (hu : RewritesList upd k) (f : Fst W) :
    (∀ q, ((List.range f.numStates).foldl upd f).trsOf q = k (f.trsOf q)) ∧
    (∀ q, ((List.range f.numStates).foldl upd f).finOf q = f.finOf q) ∧
    ((List.range f.numStates).foldl upd f).numStates = f.numStates ∧
    ((List.range f.numStates).foldl upd f).start = f.start ∧
    (f.AllCounters → ((List.range f.numStates).foldl upd f).AllCounters) := by
  obtain ⟨h1, h2, h3, h4, h5⟩ := foldl_range_induct (fun n (g : Fst W) =>
      (∀ q, g.trsOf q = if q < n then k (f.trsOf q) else f.trsOf q) ∧
      (∀ q, g.finOf q = f.finOf q) ∧ g.numStates = f.numStates ∧ g.start = f.start ∧
      (f.AllCounters → g.AllCounters)) upd f.numStates f
      ⟨by simp, by simp, rfl, rfl, id⟩
      (by
        rintro i g hi ⟨a, b, c, d, e⟩
        refine ⟨?_, ?_, ?_, ?_, ?_⟩
        · intro q; rw [hu.trs]
          by_cases h : q = i
          · simp [h, a i]
          · rw [if_neg h, a q]
            have : q < i + 1 ↔ q < i := by omega
            simp [this]
        · intro q; rw [hu.fin, b]
        · rw [hu.num, c]
        · rw [hu.start, d]
        · intro h; exact hu.counters _ _ (e h))
  refine ⟨?_, h2, h3, h4, h5⟩
  intro q
  rw [h1]
  split
  · rfl
  · rename_i h; rw [trsOf_of_ge (by omega), hu.nil]

theorem modifySt_rewritesList (g : State W → State W) (k : List (Tr W) → List (Tr W)) (hn : k [] = [])
    (hk : ∀ st, (g st).trs = k st.trs) (hf : ∀ st, (g st).fin = st.fin)
    (hc : ∀ (f : Fst W) s, f.AllCounters → (f.modifySt s g).AllCounters) :
    RewritesList (fun f s => f.modifySt s g) k where
  nil := hn
  trs f s q := by
    rw [modifySt_trsOf]
    by_cases h : q = s
    · subst h; simp only [if_true, trsOf_eq, hk]
      cases f.states[q]? <;> simp [hn]
    · simp [h]
  fin f s q := by
    rw [modifySt_finOf]
    split
    · simp [finOf_eq, hf]
    · rfl
  num f s := modifySt_numStates f s g
  start f s := rfl
  counters := hc

theorem sortTrsBy_nil (le : Tr W → Tr W → Bool) : sortTrsBy le ([] : List (Tr W)) = [] := by simp [sortTrsBy]

theorem sortTrs_rewrites (le : Tr W → Tr W → Bool) : RewritesList (fun (f : Fst W) s => f.sortTrs s le) (sortTrsBy le) :=
  modifySt_rewritesList _ _ (sortTrsBy_nil le) (fun _ => rfl) (fun _ => rfl) (fun _ s h => allCounters_sortTrs h s le)

theorem uniqueTrs_rewrites [DecidableEq W] :
    RewritesList (fun (f : Fst W) s => f.uniqueTrs s) (fun l => dedupTrs (sortTrsBy trLe l)) :=
  modifySt_rewritesList _ _ (by simp [sortTrsBy_nil, dedupTrs]) (fun st => by unfold uniqueSt; simp only; split <;> rfl)
    (fun st => by unfold uniqueSt; simp only; split <;> rfl) (fun _ s h => allCounters_uniqueTrs h s)

theorem sumAux_indep [Add W] (p : Tr W) (ts ni no ni' no') : (sumAux p ts ni no).1 = (sumAux p ts ni' no').1 := by
  induction ts generalizing p ni no ni' no' with
  | nil => rfl
  | cons t ts ih =>
    simp only [sumAux]
    split
    · exact ih _ _ _ _ _
    · simp only; rw [ih t ni no ni' no']

/-- The transition list computed by `sum_trs`. -/
def sumList [Add W] (l : List (Tr W)) : List (Tr W) := (sumLoop (sortTrsBy trLe l) 0 0).1

theorem sumTrs_rewrites [Add W] : RewritesList (fun (f : Fst W) s => f.sumTrs s) sumList :=
  modifySt_rewritesList _ _ (by simp [sumList, sortTrsBy_nil, sumLoop])
    (fun st => by
      unfold sumSt sumList
      simp only
      cases sortTrsBy trLe st.trs with
      | nil => rfl
      | cons t ts => exact sumAux_indep _ _ _ _ _ _)
    (fun st => rfl) (fun _ s h => allCounters_sumTrs h s)

end Fst
end Verif
