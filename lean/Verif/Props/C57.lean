import Verif.Lemmas.MinSteps
import Verif.Lemmas.KMerge
import Verif.Lemmas.SortEval
import Verif.Lemmas.LangEval

/-!
# C57, C58: minimization of unweighted acceptors

`acceptor_minimize` (algorithms/minimize.rs 177-212), which `minimize` runs on unweighted acceptors.
-/

namespace Verif
open Fst
universe u v w
variable {W : Type u} {V : Type v} [Zero W] [One W] [DecidableEq W] [Zero V] [One V] [DecidableEq V]

theorem Fst.LtOk.zero_ne_one {lt : W → W → Bool} (h : LtOk lt) : (0 : W) ≠ 1 := by
  intro e
  have := h.ne
  rw [← e, h.zero] at this
  cases this

/-- The mask of `acceptor_minimize`. -/
theorem minimize_props (f : Fst W) (hw : f.WF) (tf : f.Truthful) (hs : f.start ≠ none ∨ f.numStates = 0)
    (hz : ∀ s, f.finOf s ≠ some 0) :
    ∃ f' p, f.computeAndUpdate (Props.of [.acceptor, .unweighted, .acyclic]) = .ok (f', p) ∧ f'.states = f.states ∧ f'.start = f.start ∧ f'.Truthful ∧
      (p .acceptor = true ↔ f.Holds .acceptor) ∧ (p .unweighted = true ↔ f.Holds .unweighted) ∧ (p .acyclic = true ↔ f.Holds .acyclic) := by
  obtain ⟨f', p, h1, h2, h3, h4, h5, -⟩ := C07_update f hw tf hs (Props.of [.acceptor, .unweighted, .acyclic]) (fun _ => hz)
  refine ⟨f', p, h1, h3, h4, h5, ?_, ?_, ?_⟩ <;> rw [h2] <;> simp [Props.of_apply]

/-- C57 and C58. Let `f` be a well-formed deterministic acceptor with trivial weights whose stored flags are true (with a start state unless it
is empty). `acceptor_minimize` terminates: the loop over the queue of classes takes at most as many rounds as there are states. It succeeds,
and the result accepts the same strings, along the same paths; it is again a deterministic acceptor with trivial weights, its states are
all useful, its ε-counters and its flags are right.

If `f` is acyclic (and the acyclic algorithm is allowed), or all states list their transitions in one order of labels (for instance sorted), no two states of the result accept the same strings,
and no deterministic FST for this language has fewer states.

For an acyclic `f` the language is preserved even if `f` is not deterministic. -/
theorem C57_acceptor_minimize {lt : W → W → Bool} (hlt : LtOk lt) (rev : W → V) {merge : List (List (Tr V)) → List (Tr V)} (hmg : HeapMerge merge)
    (allowAcyclic : Bool) (f : Fst W) (hw : f.WF) (tf : f.Truthful) (hs : f.start ≠ none ∨ f.numStates = 0) (pf : f.Plain)
    (hd : f.Deterministic ∨ (allowAcyclic = true ∧ ∀ s, ¬ f.OnCycle s)) (n : Nat) (hn : f.numStates < n) :
    ∃ g, acceptorMinimize lt rev merge allowAcyclic f n = some (.ok g) ∧ g.language = f.language ∧ g.WF ∧ g.AllUseful ∧ g.Plain ∧ g.Truthful ∧
      (f.AllCounters → g.AllCounters) ∧ (f.Deterministic → g.Deterministic) ∧ (∀ [Mul W] k, f.Deterministic → g.accPaths k = f.accPaths k) ∧
      (f.Deterministic → (allowAcyclic = true ∧ ∀ s, ¬ f.OnCycle s) ∨ f.OneOrder →
        (∀ j j', j < g.numStates → j' < g.numStates → g.langFrom j = g.langFrom j' → j = j') ∧
        ∀ {X : Type w} (k : Fst X), k.WF → k.Deterministic → k.language = f.language → g.numStates ≤ k.numStates) := by
  have hne := hlt.zero_ne_one
  obtain ⟨f0, p, h1, h2, h3, h4, h5, h6, h7⟩ := minimize_props f hw tf hs (fun s h => hne (pf.fin s _ h))
  have eT : ∀ s, f0.trsOf s = f.trsOf s := by intro s; unfold trsOf; rw [h2]
  have eF : ∀ s, f0.finOf s = f.finOf s := by intro s; unfold finOf; rw [h2]
  have eN : f0.numStates = f.numStates := by unfold numStates; rw [h2]
  have m0 : Reordered f f0 := ⟨eN, h3, eF, fun s => by rw [eT]⟩
  have w0 := m0.wf hw
  have pA : p .acceptor = true := h5.2 fun s t ht => (pf.acceptor s t ht).symm
  have pU : p .unweighted = true := h6.2 ⟨fun s t ht => Or.inr (pf.weight s t ht), fun s x hx => Or.inr (pf.fin s x hx)⟩
  obtain ⟨c, ds, hc, -⟩ := C18_connect f0 w0
  obtain ⟨σ, tr⟩ := connect_trimOf w0 hc
  obtain ⟨wc, cc⟩ := C18_wf f0 c hc
  have uc : c.AllUseful := fun q hq => C18_trim f0 c w0 hc q hq
  have tc := C18_flags f0 c w0 h4 hc
  have pc := tr.plain (m0.plain pf)
  have lc : c.language = f.language := (tr.language wc).trans m0.language
  have c0 : f.AllCounters → c.AllCounters := by
    intro h; apply cc; unfold AllCounters at *; rw [h2]; exact h
  have nc : c.numStates ≤ f.numStates := by
    obtain ⟨c', ds, h1, h2, h3, -⟩ := C18_connect f0 w0
    rw [hc] at h1; cases h1
    rw [h3, ← eN]
    exact (List.length_filter_le _ _).trans (by simp)
  have dc : f.Deterministic → c.Deterministic := fun h => tr.deterministic (m0.deterministic h)
  have pathc : ∀ [Mul W] k, c.accPaths k = f.accPaths k := fun k => (C18_paths f0 c w0 hc k).trans (m0.accPaths k)
  have hrun : acceptorMinimize lt rev merge allowAcyclic f n = (if c.numStates = 0 then some (.ok c)
        else if allowAcyclic && p .acyclic then
          some (((c.trSort .ilabel).acyclicPartition lt).andThen fun p => ((c.trSort .ilabel).mergeStates p).andThen fun g => .ok g.trUnique)
        else
          match c.cyclicPartition rev merge n with
          | none => none
          | some r => some (r.andThen fun p => (c.mergeStates p).andThen fun g => .ok g.trUnique)) := by
    unfold acceptorMinimize
    rw [h1]
    show (if _ then _ else _) = _
    rw [if_neg (by simp [pA, pU]), hc]
    rfl
  rw [hrun]
  by_cases hz : c.numStates = 0
  · rw [if_pos hz]
    refine ⟨c, rfl, lc, wc, uc, pc, tc, c0, dc, fun k _ => pathc k, fun _ _ => ⟨fun j j' hj => by omega, fun k _ _ _ => by omega⟩⟩
  · rw [if_neg hz]
    obtain ⟨i, hi⟩ : ∃ i, c.start = some i := by
      obtain ⟨⟨i, hi, -⟩, -⟩ := uc 0 (by omega)
      exact ⟨i, hi⟩
    by_cases hac : (allowAcyclic && p .acyclic) = true
    · rw [if_pos hac]
      rw [Bool.and_eq_true] at hac
      have hcyc : ∀ s, ¬ f.OnCycle s := fun s h => (h7.1 hac.2) ⟨s, h⟩
      have ms := trSort_reordered c .ilabel
      obtain ⟨q, cls, hq, gp⟩ := acyclicPartition_ok hlt (c.trSort .ilabel) (ms.plain pc).fin (ms.wf wc)
        (ms.acyclic (tr.acyclic (m0.acyclic hcyc))) (ms.useful uc) (ms.start.trans hi)
      obtain ⟨g, hg, mz, hpath, hdist⟩ := merge_good (ms.wf wc) (ms.useful uc) (ms.plain pc) (ms.start.trans hi) gp (fun _ _ h => h)
      have hl : g.trUnique.language = f.language := mz.language.trans (ms.language.trans lc)
      have hdet : f.Deterministic → g.trUnique.Deterministic := fun h => mz.deterministic (ms.deterministic (dc h))
      refine ⟨g.trUnique, by rw [hq, R.andThen_ok, hg, R.andThen_ok], hl, mz.wf, mz.useful, mz.plain, mz.truthful (C12_flags c .ilabel tc),
        fun h => mz.counters ((trSort_spec c .ilabel).2.2.2.2 (c0 h)), hdet,
        fun k h => (hpath k (ms.deterministic (dc h))).trans ((ms.accPaths k).trans (pathc k)), fun h _ => ?_⟩
      have hd' := hdist fun e e' _ _ he => ⟨ms.deterministic (dc h), trSort_sorted c, he⟩
      exact ⟨hd', fun k kw kd kl => minimal_of_distinct (hdet h) mz.useful hd' kw kd (kl.trans hl.symm)⟩
    · rw [if_neg hac]
      have hD : f.Deterministic := by
        rcases hd with h | ⟨h, h'⟩
        · exact h
        · exact absurd (by rw [h, h7.2 fun ⟨s, hs⟩ => h' s hs]; rfl) hac
      have dC := dc hD
      obtain ⟨E, hE⟩ : ∃ E : Nat → Nat → Prop, E = fun e e' => (c.OneOrder ∧ c.langFrom e = c.langFrom e') ∨ e = e' := ⟨_, rfl⟩
      have hE1 : c.OneOrder → ∀ e e', E e e' ↔ c.langFrom e = c.langFrom e' := by
        intro h e e'; rw [hE]
        exact ⟨fun hx => hx.elim (·.2) (fun hx => by rw [hx]), fun hx => Or.inl ⟨h, hx⟩⟩
      have hE2 : ¬ c.OneOrder → ∀ e e', E e e' ↔ e = e' := by
        intro h e e'; rw [hE]
        exact ⟨fun hx => hx.elim (fun hx => absurd hx.1 h) id, Or.inr⟩
      obtain ⟨q, cls, hq, gp⟩ := cyclicPartition_ok rev hmg c wc dC E (by
          intro e e' h
          by_cases hsd : c.OneOrder
          · rw [hE1 hsd] at h ⊢; exact h.symm
          · rw [hE2 hsd] at h ⊢; exact h.symm) (by
          intro e e' he he' h
          by_cases hsd : c.OneOrder
          · have hl := (hE1 hsd e e').1 h
            unfold preKey
            obtain ⟨r, r1, r2⟩ := hsd
            rw [ilabels_of_lang wc dC r1 r2 (fun s hs => (uc s hs).2) hl]
            congr 1
            have : c.IsFinal e ↔ c.IsFinal e' := by rw [← langFrom_nil, ← langFrom_nil, hl]
            unfold IsFinal at this
            exact Bool.eq_iff_iff.2 this
          · rw [(hE2 hsd e e').1 h]) (by
          intro C hC a e e' s he he' h ⟨t, ht, ha, hts⟩ hCs
          by_cases hsd : c.OneOrder
          · have hl := (hE1 hsd e e').1 h
            obtain ⟨t', ht', hlab⟩ := labels_of_lang wc (fun s hs => (uc s hs).2) hl ht
            refine ⟨t'.nextstate, ⟨t', ht', hlab.trans ha, rfl⟩, ?_⟩
            subst hts
            exact hC t.nextstate t'.nextstate (wc.next_lt e t ht) (wc.next_lt e' t' ht')
              ((hE1 hsd _ _).2 (langFrom_next dC hl ht ht' hlab.symm)) hCs
          · rw [← (hE2 hsd e e').1 h]
            exact ⟨s, ⟨t, ht, ha, hts⟩, hCs⟩) n (by omega)
      obtain ⟨g, hg, mz, hpath, hdist⟩ := merge_good wc uc pc hi gp (fun e e' h => by
        unfold preKey at h
        exact congrArg Prod.fst h)
      have hl : g.trUnique.language = f.language := mz.language.trans lc
      refine ⟨g.trUnique, by rw [hq]; simp only [R.andThen_ok, hg], hl, mz.wf, mz.useful, mz.plain, mz.truthful tc,
        fun h => mz.counters (c0 h), fun h => mz.deterministic (dc h), fun k h => (hpath k (dc h)).trans (pathc k), fun _ hor => ?_⟩
      have hsd : c.OneOrder := by
        rcases hor with ⟨h, h'⟩ | h
        · exact absurd (by rw [h, h7.2 fun ⟨s, hs⟩ => h' s hs]; rfl) hac
        · obtain ⟨r, r1, r2⟩ := h
          exact tr.oneOrder ⟨r, r1, fun s => by rw [eT]; exact r2 s⟩
      have hd' := hdist fun e e' _ _ he => (hE1 hsd e e').2 he
      exact ⟨hd', fun k kw kd kl => minimal_of_distinct (mz.deterministic dC) mz.useful hd' kw kd (kl.trans hl.symm)⟩

/-- C58, in part (see `C58_unsorted_defect` for what is missing): the result is the smallest deterministic FST for its language if the input is acyclic or
all its states list their transitions in one order. -/
theorem C58_minimal_partial {lt : W → W → Bool} (hlt : LtOk lt) (rev : W → V) {merge : List (List (Tr V)) → List (Tr V)} (hmg : HeapMerge merge)
    (allowAcyclic : Bool) (f : Fst W) (hw : f.WF) (tf : f.Truthful) (hs : f.start ≠ none ∨ f.numStates = 0) (pf : f.Plain)
    (hd : f.Deterministic) (hor : (allowAcyclic = true ∧ ∀ s, ¬ f.OnCycle s) ∨ f.OneOrder) (n : Nat) (hn : f.numStates < n) :
    ∃ g, acceptorMinimize lt rev merge allowAcyclic f n = some (.ok g) ∧ g.Deterministic ∧ g.language = f.language ∧
      (∀ j j', j < g.numStates → j' < g.numStates → g.langFrom j = g.langFrom j' → j = j') ∧
      ∀ {X : Type w} (k : Fst X), k.WF → k.Deterministic → k.language = f.language → g.numStates ≤ k.numStates := by
  obtain ⟨g, h1, h2, -, -, -, -, -, h3, -, h4⟩ := C57_acceptor_minimize hlt rev hmg allowAcyclic f hw tf hs pf (Or.inl hd) n hn
  exact ⟨g, h1, h3 hd, h2, (h4 hd hor).1, (h4 hd hor).2⟩

/-- C57: any other FST is refused: a transducer, or one with a weight other than zero and one. -/
theorem C57_refuses (lt : W → W → Bool) (rev : W → V) (merge : List (List (Tr V)) → List (Tr V))
    (allowAcyclic : Bool) (f : Fst W) (hw : f.WF) (tf : f.Truthful) (hs : f.start ≠ none ∨ f.numStates = 0) (hz : ∀ s, f.finOf s ≠ some 0)
    (h : ¬ f.Holds .acceptor ∨ ¬ f.Holds .unweighted) (n : Nat) : acceptorMinimize lt rev merge allowAcyclic f n = some (.error .err) := by
  obtain ⟨f0, p, h1, h2, h3, h4, h5, h6, h7⟩ := minimize_props f hw tf hs hz
  have : (p .acceptor && p .unweighted) = false := by
    rcases h with h | h
    · rw [← h5] at h; simp [h]
    · rw [← h6] at h; simp [h]
  unfold acceptorMinimize
  rw [h1]
  simp [this]

/-! ## Instances and defects -/

/-- The comparison of weights for the instances: `1 < 0`, as for tropical weights. -/
def ltNat (a b : Nat) : Bool := decide (b < a)
theorem ltNat_ok : LtOk ltNat := ⟨rfl, rfl, rfl⟩

theorem plain_of_b {f : Fst Nat} (h : (f.states.all fun st => st.trs.all (fun t => t.olabel == t.ilabel && t.weight == 1) && st.fin.all (· == 1)) = true) : f.Plain := by
  rw [List.all_eq_true] at h
  have key : ∀ s, ∀ t ∈ f.trsOf s, t.olabel = t.ilabel ∧ t.weight = 1 := by
    intro s t ht
    have hs : s < f.states.length := lt_of_mem_trsOf ht
    have h1 := h _ (List.getElem_mem hs)
    rw [Bool.and_eq_true, List.all_eq_true] at h1
    have : f.trsOf s = (f.states[s]'hs).trs := by simp [trsOf, List.getElem?_eq_getElem hs]
    simpa using h1.1 t (this ▸ ht)
  refine ⟨fun s t ht => (key s t ht).1, fun s t ht => (key s t ht).2, fun s w hw => ?_⟩
  have hs : s < f.states.length := IsFinal.lt (by unfold IsFinal; rw [hw]; rfl)
  have h1 := h _ (List.getElem_mem hs)
  rw [Bool.and_eq_true] at h1
  have : f.finOf s = (f.states[s]'hs).fin := by simp [finOf, List.getElem?_eq_getElem hs]
  rw [← this, hw] at h1
  simpa using h1.2

theorem deterministic_of_b {W : Type u} {f : Fst W} (h : (f.states.all fun st => decide (st.trs.map (·.ilabel)).Nodup) = true) : f.Deterministic := by
  rw [List.all_eq_true] at h
  intro s
  by_cases hs : s < f.states.length
  · have : f.trsOf s = (f.states[s]'hs).trs := by simp [trsOf, List.getElem?_eq_getElem hs]
    rw [this]
    exact of_decide_eq_true (h _ (List.getElem_mem hs))
  · rw [trsOf_of_ge (by unfold numStates; omega)]; exact List.nodup_nil

theorem topSorted_of_b {W : Type u} {f : Fst W} (h : ((List.range f.numStates).all fun s => (f.trsOf s).all fun t => decide (s < t.nextstate)) = true) :
    ∀ s, ∀ t ∈ f.trsOf s, s < t.nextstate := by
  rw [List.all_eq_true] at h
  intro s t ht
  have := h s (List.mem_range.2 (lt_of_mem_trsOf ht))
  rw [List.all_eq_true] at this
  exact of_decide_eq_true (this t ht)

/-- An instance with cycles: states 1 and 2 accept the same strings. -/
def exMin : Fst Nat :=
  (((((((((Fst.new.addStates 3).setStart 0).setFinal 1 1).setFinal 2 1).addTr 0 ⟨1, 1, 1, 1⟩).addTr 0 ⟨2, 2, 1, 2⟩).addTr 1 ⟨1, 1, 1, 1⟩).addTr 1 ⟨2, 2, 1, 2⟩).addTr 2
    ⟨1, 1, 1, 1⟩).addTr 2 ⟨2, 2, 1, 2⟩

theorem exMin_truthful : exMin.Truthful := by
  unfold exMin
  repeat' first
    | apply truthful_new
    | (refine truthful_addTr ?_ (by decide) _)
    | (refine truthful_setFinal ?_ (by decide) _)
    | apply truthful_setStart
    | apply truthful_addStates
example : exMin.WF ∧ exMin.Truthful ∧ exMin.start ≠ none ∧ exMin.Plain ∧ exMin.Deterministic ∧ exMin.numStates < 4 :=
  ⟨Fst.wf_of_wfB (by decide), exMin_truthful, by decide, plain_of_b (by decide), deterministic_of_b (by decide), by decide⟩
example : ∃ g, acceptorMinimize ltNat id sortMerge true exMin 4 = some (.ok g) ∧ g.numStates = 2 ∧ g.trsOf 0 = [⟨1, 1, 1, 1⟩, ⟨2, 2, 1, 1⟩] := by
  have h : (match acceptorMinimize ltNat id sortMerge true exMin 4 with
    | some (.ok g) => decide (g.numStates = 2 ∧ g.trsOf 0 = [⟨1, 1, 1, 1⟩, ⟨2, 2, 1, 1⟩])
    | _ => false) = true := by
    unfold acceptorMinimize cyclicPartition
    simp only [trSort_eval, trUnique_eval]
    decide +kernel
  split at h
  · next g hg => exact ⟨g, hg, of_decide_eq_true h⟩
  · cases h

/-- An acyclic instance with two equal states. -/
def exMinA : Fst Nat :=
  (((((((Fst.new.addStates 4).setStart 0).setFinal 3 1).addTr 0 ⟨2, 2, 1, 2⟩).addTr 0 ⟨1, 1, 1, 1⟩).addTr 1 ⟨1, 1, 1, 3⟩).addTr 2 ⟨1, 1, 1, 3⟩)
theorem exMinA_truthful : exMinA.Truthful := by
  unfold exMinA
  repeat' first
    | apply truthful_new
    | (refine truthful_addTr ?_ (by decide) _)
    | (refine truthful_setFinal ?_ (by decide) _)
    | apply truthful_setStart
    | apply truthful_addStates
example : exMinA.WF ∧ exMinA.Truthful ∧ exMinA.start ≠ none ∧ exMinA.Plain ∧ exMinA.Deterministic ∧ ∀ s, ¬ exMinA.OnCycle s :=
  ⟨Fst.wf_of_wfB (by decide), exMinA_truthful, by decide, plain_of_b (by decide), deterministic_of_b (by decide),
    fun s h => Fst.acyclic_of_topSorted (f := exMinA) (topSorted_of_b (by decide)) ⟨s, h⟩⟩
example : ∃ g, acceptorMinimize ltNat id sortMerge true exMinA 5 = some (.ok g) ∧ g.numStates = 3 := by
  have h : (match acceptorMinimize ltNat id sortMerge true exMinA 5 with
    | some (.ok g) => decide (g.numStates = 3)
    | _ => false) = true := by
    unfold acceptorMinimize cyclicPartition
    simp only [trSort_eval, trUnique_eval]
    decide +kernel
  split at h
  · next g hg => exact ⟨g, hg, of_decide_eq_true h⟩
  · cases h

/-- A non-deterministic acceptor. -/
def exMinN : Fst Nat :=
  ((((((((Fst.new.addStates 4).setStart 0).setFinal 0 1).addTr 0 ⟨1, 1, 1, 1⟩).addTr 1 ⟨1, 1, 1, 2⟩).addTr 1 ⟨1, 1, 1, 3⟩).addTr 2 ⟨1, 1, 1, 3⟩).addTr 3
    ⟨1, 1, 1, 0⟩)

/-- Defect: the algorithm for cyclic FSTs is also run on non-deterministic FSTs (`allow_nondet`), where it merges states that do not accept the same
strings. The FST accepts strings of lengths 0, 3, 4, …; the result accepts one more string, of length 5. -/
theorem C57_nondeterministic_defect : exMinN.WF ∧ exMinN.Plain ∧ ∃ g, acceptorMinimize ltNat id sortMerge false exMinN 5 = some (.ok g) ∧
    [1, 1, 1, 1, 1] ∈ g.language ∧ [1, 1, 1, 1, 1] ∉ exMinN.language := by
  refine ⟨Fst.wf_of_wfB (by decide), plain_of_b (by decide), ?_⟩
  have h : (match acceptorMinimize ltNat id sortMerge false exMinN 5 with
    | some (.ok g) => g.start.elim false (g.accB [1, 1, 1, 1, 1])
    | _ => false) = true := by
    unfold acceptorMinimize cyclicPartition
    simp only [trSort_eval, trUnique_eval]
    decide +kernel
  split at h
  · next g hg => exact ⟨g, hg, mem_language_iff.2 h, by rw [mem_language_iff]; decide⟩
  · cases h

/-- `exMin` with the transitions of state 2 in the other order. -/
def exMinU : Fst Nat :=
  (((((((((Fst.new.addStates 3).setStart 0).setFinal 1 1).setFinal 2 1).addTr 0 ⟨1, 1, 1, 1⟩).addTr 0 ⟨2, 2, 1, 2⟩).addTr 1 ⟨1, 1, 1, 1⟩).addTr 1 ⟨2, 2, 1, 2⟩).addTr 2
    ⟨2, 2, 1, 2⟩).addTr 2 ⟨1, 1, 1, 1⟩

/-- Defect: a deterministic cyclic FST whose transitions are not sorted is not minimized: the first partition compares the lists of labels, not the sets.
The result has 3 states, but `exMin` has the same language and is minimized to 2 states. -/
theorem C58_unsorted_defect : exMinU.WF ∧ exMinU.Plain ∧ exMinU.Deterministic ∧ exMinU.language = exMin.language ∧
    (∃ g, acceptorMinimize ltNat id sortMerge true exMinU 4 = some (.ok g) ∧ g.numStates = 3) ∧
    ∃ g, acceptorMinimize ltNat id sortMerge true exMin 4 = some (.ok g) ∧ g.numStates = 2 := by
  refine ⟨Fst.wf_of_wfB (by decide), plain_of_b (by decide), deterministic_of_b (by decide), ?_, ?_, ?_⟩
  · refine Reordered.language ⟨rfl, rfl, ?_, ?_⟩
    · intro s
      match s with
      | 0 => rfl
      | 1 => rfl
      | 2 => rfl
      | _ + 3 => rfl
    · intro s
      match s with
      | 0 => decide
      | 1 => decide
      | 2 => decide
      | _ + 3 => exact .refl _
  · have h : (match acceptorMinimize ltNat id sortMerge true exMinU 4 with
      | some (.ok g) => decide (g.numStates = 3)
      | _ => false) = true := by
      unfold acceptorMinimize cyclicPartition
      simp only [trSort_eval, trUnique_eval]
      decide +kernel
    split at h
    · next g hg => exact ⟨g, hg, of_decide_eq_true h⟩
    · cases h
  · have h : (match acceptorMinimize ltNat id sortMerge true exMin 4 with
      | some (.ok g) => decide (g.numStates = 2)
      | _ => false) = true := by
      unfold acceptorMinimize cyclicPartition
      simp only [trSort_eval, trUnique_eval]
      decide +kernel
    split at h
    · next g hg => exact ⟨g, hg, of_decide_eq_true h⟩
    · cases h

/-- An acceptor with an arc of weight zero, which the flags call unweighted. -/
def exMinZ : Fst Nat :=
  (((((((Fst.new.addStates 4).setStart 0).setFinal 3 1).addTr 0 ⟨1, 1, 1, 1⟩).addTr 0 ⟨2, 2, 1, 2⟩).addTr 1 ⟨1, 1, 0, 3⟩).addTr 2 ⟨1, 1, 1, 3⟩)

/-- Defect: arcs of weight zero pass the test for trivial weights, but the partition does not look at the weights: a state with an arc of weight zero is
merged with one with an arc of weight one. The string `1 1` has only weight zero; afterwards it also has weight one. -/
theorem C57_zero_weight_defect : exMinZ.WF ∧ exMinZ.Deterministic ∧ exMinZ.Holds .unweighted ∧ exMinZ.weightOf 2 [1, 1] [1, 1] = 0 ∧
    ∃ g, acceptorMinimize ltNat id sortMerge true exMinZ 5 = some (.ok g) ∧ g.weightOf 2 [1, 1] [1, 1] = 1 := by
  refine ⟨Fst.wf_of_wfB (by decide), deterministic_of_b (by decide), ?_, by decide +kernel, ?_⟩
  · refine ⟨fun s t ht => ?_, fun s w hw => ?_⟩
    · have h : ((List.range exMinZ.numStates).all fun s => (exMinZ.trsOf s).all fun t => t.weight == 0 || t.weight == 1) = true := by decide
      rw [List.all_eq_true] at h
      have := h s (List.mem_range.2 (lt_of_mem_trsOf ht))
      rw [List.all_eq_true] at this
      simpa [TrivialW] using this t ht
    · have h : ((List.range exMinZ.numStates).all fun s => (exMinZ.finOf s).all (· == 1)) = true := by decide
      rw [List.all_eq_true] at h
      have := h s (List.mem_range.2 (IsFinal.lt (by unfold IsFinal; rw [hw]; rfl)))
      rw [hw] at this
      exact Or.inr (by simpa using this)
  · have h : (match acceptorMinimize ltNat id sortMerge true exMinZ 5 with
      | some (.ok g) => decide (g.weightOf 2 [1, 1] [1, 1] = 1)
      | _ => false) = true := by
      unfold acceptorMinimize cyclicPartition
      simp only [trSort_eval, trUnique_eval]
      decide +kernel
    split at h
    · next g hg => exact ⟨g, hg, of_decide_eq_true h⟩
    · cases h

end Verif
