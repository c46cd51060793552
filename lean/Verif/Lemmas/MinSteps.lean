import Verif.Lemmas.AcyclicMin
import Verif.Props.C07

/-!
# The steps of minimization around the partition

`connect`, `tr_sort` and the merge, seen from the languages of the states.
-/

namespace Verif
universe u v
variable {W : Type u}
namespace Fst

theorem Reads.reach {f : Fst W} {s x q} (h : f.Reads s x q) : f.Reach s q := by
  induction h with
  | nil => exact .refl
  | cons ht _ ih => exact .head ⟨_, ht, rfl⟩ ih

/-! ## Trimming -/

section trim
variable [Zero W] [One W] [DecidableEq W]

/-- `g` is the useful part of `f`; state `i` of `g` is state `σ i` of `f`. -/
structure TrimOf (f g : Fst W) (σ : Nat → Nat) : Prop where
  lt : ∀ i, i < g.numStates → σ i < f.numStates
  fin : ∀ i, i < g.numStates → g.finOf i = f.finOf (σ i)
  sub : ∀ i, i < g.numStates → ((g.trsOf i).map fun t => ({ t with nextstate := σ t.nextstate } : Tr W)).Sublist (f.trsOf (σ i))
  next : ∀ i, i < g.numStates → ∀ t ∈ f.trsOf (σ i), f.Coaccessible t.nextstate →
    ∃ j, j < g.numStates ∧ σ j = t.nextstate ∧ ({ t with nextstate := j } : Tr W) ∈ g.trsOf i
  start : ∀ i, g.start = some i → f.start = some (σ i)
  start' : ∀ i, f.start = some i → f.Coaccessible i → ∃ j, g.start = some j ∧ σ j = i

theorem connect_trimOf {f g : Fst W} (hw : f.WF) (hg : f.connect = .ok g) : ∃ σ, TrimOf f g σ := by
  obtain ⟨g', ds, h1, h2, h3, h4, h5⟩ := C18_connect f hw
  rw [hg] at h1; cases h1
  have hgw := (C18_wf f g hg).1
  have hget : ∀ i, i < g.numStates → ∃ s, (survivors f.numStates ds)[i]? = some s := fun i hi =>
    ⟨_, List.getElem?_eq_getElem (by omega)⟩
  have hσ : ∀ (i s : Nat), (survivors f.numStates ds)[i]? = some s → ((survivors f.numStates ds)[i]?).getD 0 = s := by
    intro i s h; rw [h]; rfl
  have hnum : ∀ s, s < f.numStates → s ∉ ds → newNumber ds s < g.numStates ∧ ((survivors f.numStates ds)[newNumber ds s]?).getD 0 = s := by
    intro s h1 h2
    have := survivors_get ds h1 h2
    exact ⟨by rw [h3]; exact (List.getElem?_eq_some_iff.1 this).1, hσ _ _ this⟩
  have hnds : ∀ s, s < f.numStates → f.Accessible s → f.Coaccessible s → s ∉ ds := by
    intro s hs ha hc hd
    exact ((h2 s).1 hd).2 ⟨ha, hc⟩
  refine ⟨fun i => ((survivors f.numStates ds)[i]?).getD 0, ?_, ?_, ?_, ?_, ?_, ?_⟩
  · intro i hi
    obtain ⟨s, hs⟩ := hget i hi
    simp only [hσ i s hs]
    exact (survivors_get_inv ds hs).1
  · intro i hi
    obtain ⟨s, hs⟩ := hget i hi
    simp only [hσ i s hs]
    exact (h4 i s hs).1
  · intro i hi
    obtain ⟨s, hs⟩ := hget i hi
    simp only [hσ i s hs]
    rw [(h4 i s hs).2, survivingTrs, List.map_map]
    have : ((f.trsOf s).filter fun t => t.nextstate ∉ ds).map ((fun t => ({ t with nextstate := ((survivors f.numStates ds)[t.nextstate]?).getD 0 } : Tr W)) ∘
        fun t => { t with nextstate := newNumber ds t.nextstate }) = ((f.trsOf s).filter fun t => t.nextstate ∉ ds).map id := by
      apply List.map_congr_left
      intro t ht
      rw [List.mem_filter] at ht
      have := (hnum t.nextstate (hw.next_lt s t ht.1) (by simpa using ht.2)).2
      simp only [Function.comp, this]; rfl
    rw [this, List.map_id]
    exact List.filter_sublist
  · intro i hi t ht hc
    obtain ⟨s, hs⟩ := hget i hi
    simp only [hσ i s hs] at ht
    obtain ⟨s1, s2, s3⟩ := survivors_get_inv ds hs
    have hacc : f.Accessible s := by
      by_contra hx
      exact s2 ((h2 s).2 ⟨s1, fun h => hx h.1⟩)
    have hnx := hw.next_lt s t ht
    have hnd := hnds t.nextstate hnx (accessible_step hacc ht) hc
    obtain ⟨n1, n2⟩ := hnum _ hnx hnd
    refine ⟨newNumber ds t.nextstate, n1, n2, ?_⟩
    rw [(h4 i s hs).2, survivingTrs]
    exact List.mem_map.2 ⟨t, List.mem_filter.2 ⟨ht, by simpa using hnd⟩, rfl⟩
  · intro j hj
    rw [h5] at hj
    cases hi : f.start with
    | none => rw [hi] at hj; cases hj
    | some i =>
      rw [hi, Option.bind_some] at hj
      split at hj
      · cases hj
      · next hd =>
        injection hj with hj; subst hj
        rw [(hnum i (hw.start_lt i hi) hd).2]
  · intro i hi hc
    have hlt := hw.start_lt i hi
    have hd := hnds i hlt ⟨i, hi, .refl⟩ hc
    exact ⟨newNumber ds i, by rw [h5, hi, Option.bind_some, if_neg hd], (hnum i hlt hd).2⟩

variable {f g : Fst W} {σ : Nat → Nat}

omit [Zero W] [One W] [DecidableEq W] in
theorem TrimOf.mem (m : TrimOf f g σ) {i t} (hi : i < g.numStates) (ht : t ∈ g.trsOf i) :
    ({ t with nextstate := σ t.nextstate } : Tr W) ∈ f.trsOf (σ i) :=
  (m.sub i hi).subset (List.mem_map_of_mem ht)

omit [Zero W] [One W] [DecidableEq W] in
theorem TrimOf.language (m : TrimOf f g σ) (gw : g.WF) : g.language = f.language := by
  have fwd : ∀ {i x q}, g.Reads i x q → i < g.numStates → f.Reads (σ i) x (σ q) := by
    intro i x q h
    induction h with
    | nil => intro _; exact .nil _
    | @cons i t x q ht _ ih =>
      intro hi
      exact Reads.cons (t := { t with nextstate := σ t.nextstate }) (m.mem hi ht) (ih (gw.next_lt i t ht))
  have bwd : ∀ {s x q}, f.Reads s x q → f.IsFinal q → ∀ i, i < g.numStates → σ i = s → ∃ r, g.Reads i x r ∧ r < g.numStates ∧ σ r = q := by
    intro s x q h
    induction h with
    | nil => intro _ i hi he; exact ⟨i, .nil _, hi, he⟩
    | @cons s t x q ht h ih =>
      intro hq i hi he
      subst he
      have hc : f.Coaccessible t.nextstate := by
        exact ⟨q, h.reach, hq⟩
      obtain ⟨j, j1, j2, j3⟩ := m.next i hi t ht hc
      obtain ⟨r, r1, r2, r3⟩ := ih hq j j1 j2
      exact ⟨r, Reads.cons (t := { t with nextstate := j }) j3 r1, r2, r3⟩
  apply Set.Subset.antisymm
  · rintro x ⟨i, hi, q, hx, hq⟩
    refine ⟨σ i, m.start i hi, σ q, fwd hx (gw.start_lt i hi), ?_⟩
    unfold IsFinal at *
    rw [← m.fin q (IsFinal.lt hq)]; exact hq
  · rintro x ⟨i, hi, q, hx, hq⟩
    have hc : f.Coaccessible i := by
      exact ⟨q, hx.reach, hq⟩
    obtain ⟨j, j1, j2⟩ := m.start' i hi hc
    obtain ⟨r, r1, r2, r3⟩ := bwd hx hq j (gw.start_lt j j1) j2
    refine ⟨j, j1, r, r1, ?_⟩
    unfold IsFinal at *
    rw [m.fin r r2, r3]; exact hq

omit [Zero W] [DecidableEq W] in
theorem TrimOf.plain (m : TrimOf f g σ) (pf : f.Plain) : g.Plain := by
  refine ⟨fun i t ht => ?_, fun i t ht => ?_, fun i w hw => ?_⟩
  · have := pf.acceptor _ _ (m.mem (lt_of_mem_trsOf ht) ht); exact this
  · have := pf.weight _ _ (m.mem (lt_of_mem_trsOf ht) ht); exact this
  · have : i < g.numStates := IsFinal.lt (by unfold IsFinal; rw [hw]; rfl)
    rw [m.fin i this] at hw
    exact pf.fin _ _ hw

omit [Zero W] [One W] [DecidableEq W] in
theorem TrimOf.labels (m : TrimOf f g σ) (i) : ((g.trsOf i).map (·.ilabel)).Sublist ((f.trsOf (σ i)).map (·.ilabel)) := by
  by_cases hi : i < g.numStates
  · have := (m.sub i hi).map (·.ilabel)
    rw [List.map_map] at this
    exact this
  · rw [trsOf_of_ge (by omega)]; exact List.nil_sublist _

omit [Zero W] [One W] [DecidableEq W] in
theorem TrimOf.deterministic (m : TrimOf f g σ) (hd : f.Deterministic) : g.Deterministic := fun i => (hd _).sublist (m.labels i)

omit [Zero W] [One W] [DecidableEq W] in
theorem TrimOf.oneOrder (m : TrimOf f g σ) (hd : f.OneOrder) : g.OneOrder := by
  obtain ⟨r, h1, h2⟩ := hd
  exact ⟨r, h1, fun i => (h2 _).sublist (m.labels i)⟩

omit [Zero W] [One W] [DecidableEq W] in
theorem TrimOf.acyclic (m : TrimOf f g σ) (h : ∀ s, ¬ f.OnCycle s) (i) : ¬ g.OnCycle i := by
  intro hc
  have key : ∀ a b, Relation.TransGen g.Edge a b → Relation.TransGen f.Edge (σ a) (σ b) := by
    intro a b hab
    have edge : ∀ a b, g.Edge a b → f.Edge (σ a) (σ b) := by
      rintro a b ⟨t, ht, rfl⟩
      exact ⟨_, m.mem (lt_of_mem_trsOf ht) ht, rfl⟩
    induction hab with
    | single h => exact .single (edge _ _ h)
    | tail _ h ih => exact ih.tail (edge _ _ h)
  exact h _ (key _ _ hc)

end trim

/-! ## Reordering the transitions -/

/-- The same FST up to the order of transitions. -/
structure Reordered (f g : Fst W) : Prop where
  num : g.numStates = f.numStates
  start : g.start = f.start
  fin : ∀ s, g.finOf s = f.finOf s
  trs : ∀ s, (g.trsOf s).Perm (f.trsOf s)

theorem Reordered.symm {f g : Fst W} (m : Reordered f g) : Reordered g f :=
  ⟨m.num.symm, m.start.symm, fun s => (m.fin s).symm, fun s => (m.trs s).symm⟩

theorem trSort_reordered (f : Fst W) (c : SortSide) : Reordered f (f.trSort c) := by
  obtain ⟨h1, h2, h3, h4, -⟩ := trSort_spec f c
  exact ⟨h3, h4, h2, fun s => by rw [h1]; exact sortTrsBy_perm _ _⟩

theorem trSort_sorted (f : Fst W) : (f.trSort .ilabel).ILabelSorted := by
  obtain ⟨-, -, -, -, h, -⟩ := C12_tr_sort f .ilabel
  intro s
  rw [List.pairwise_map]
  exact h s

section
variable {f g : Fst W}

theorem Reordered.wf (m : Reordered f g) (hw : f.WF) : g.WF := by
  refine ⟨fun i hi => ?_, fun s t ht => ?_⟩
  · rw [m.num]; exact hw.start_lt i (m.start ▸ hi)
  · rw [m.num]; exact hw.next_lt s t ((m.trs s).mem_iff.1 ht)

theorem Reordered.plain [One W] (m : Reordered f g) (pf : f.Plain) : g.Plain :=
  ⟨fun s t ht => pf.acceptor s t ((m.trs s).mem_iff.1 ht), fun s t ht => pf.weight s t ((m.trs s).mem_iff.1 ht),
    fun s w h => pf.fin s w (by rw [← m.fin]; exact h)⟩

theorem Reordered.deterministic (m : Reordered f g) (hd : f.Deterministic) : g.Deterministic := fun s =>
  ((m.trs s).map _).nodup_iff.2 (hd s)

theorem Reordered.edge (m : Reordered f g) (a b) : g.Edge a b ↔ f.Edge a b := by
  constructor
  · rintro ⟨t, ht, rfl⟩; exact ⟨t, (m.trs a).mem_iff.1 ht, rfl⟩
  · rintro ⟨t, ht, rfl⟩; exact ⟨t, (m.trs a).mem_iff.2 ht, rfl⟩

theorem Reordered.edge_eq (m : Reordered f g) : g.Edge = f.Edge := by
  funext a b; exact propext (m.edge a b)

theorem Reordered.useful (m : Reordered f g) (hu : f.AllUseful) : g.AllUseful := by
  intro s hs
  obtain ⟨⟨i, hi, h1⟩, q, h2, h3⟩ := hu s (m.num ▸ hs)
  refine ⟨⟨i, m.start.trans hi, ?_⟩, q, ?_, ?_⟩
  · unfold Reach; rw [m.edge_eq]; exact h1
  · unfold Reach; rw [m.edge_eq]; exact h2
  · unfold IsFinal; rw [m.fin]; exact h3

theorem Reordered.acyclic (m : Reordered f g) (h : ∀ s, ¬ f.OnCycle s) (s) : ¬ g.OnCycle s := by
  unfold OnCycle; rw [m.edge_eq]; exact h s

theorem Reordered.reads (m : Reordered f g) {s x q} (h : f.Reads s x q) : g.Reads s x q := by
  induction h with
  | nil => exact .nil _
  | cons ht _ ih => exact .cons ((m.trs _).mem_iff.2 ht) ih

theorem Reordered.langFrom_sub (m : Reordered f g) (s) : f.langFrom s ⊆ g.langFrom s := by
  rintro x ⟨q, h1, h2⟩
  exact ⟨q, m.reads h1, by unfold IsFinal; rw [m.fin]; exact h2⟩

theorem Reordered.langFrom (m : Reordered f g) (s) : g.langFrom s = f.langFrom s :=
  Set.Subset.antisymm (m.symm.langFrom_sub s) (m.langFrom_sub s)

theorem Reordered.language (m : Reordered f g) : g.language = f.language := by
  unfold Fst.language
  simp only [m.start, m.langFrom]

theorem Reordered.accPaths [Mul W] (m : Reordered f g) (n) : g.accPaths n = f.accPaths n :=
  accPaths_perm m.start m.trs m.fin n

end

/-! ## Merging the classes of a good partition -/

section merge
variable [Zero W] [One W] [DecidableEq W]

/-- What a merge of equivalent states gives. -/
structure Minimized (f h : Fst W) : Prop where
  wf : h.WF
  useful : h.AllUseful
  plain : h.Plain
  language : h.language = f.language
  deterministic : f.Deterministic → h.Deterministic
  counters : f.AllCounters → h.AllCounters
  truthful : f.Truthful → h.Truthful

theorem foldlM_R_keep {α : Type u} {β : Type v} {P : α → Prop} (g : α → β → R α) (hg : ∀ a b a', P a → g a b = .ok a' → P a') :
    ∀ (l : List β) (a a' : α), P a → l.foldlM g a = .ok a' → P a' := by
  intro l
  induction l with
  | nil => intro a a' ha h; cases h; exact ha
  | cons b l ih =>
    intro a a' ha h
    rw [List.foldlM_cons] at h
    cases hb : g a b with
    | error e => rw [hb] at h; cases h
    | ok a1 => rw [hb] at h; exact ih a1 a' (hg a b a1 ha hb) h

theorem R.ok_of_andThen {α : Type u} {β : Type v} {x : R α} {k : α → R β} {b : β} (h : R.andThen x k = .ok b) : ∃ a, x = .ok a ∧ k a = .ok b := by
  cases x with
  | error e => cases h
  | ok a => exact ⟨a, rfl, h⟩

theorem mergeStates_truthful {p : Part} {f g : Fst W} (ht : f.Truthful) (h : f.mergeStates p = .ok g) : g.Truthful := by
  unfold mergeStates at h
  obtain ⟨f1, h1, h⟩ := R.ok_of_andThen h
  have hred : ∀ s, ∀ a : Fst W, ∀ idx a', a.Truthful → redirect p s a idx = .ok a' → a'.Truthful := by
    intro s a idx a' ha h
    unfold redirect at h
    split at h
    · cases h; exact ha
    · next t hget =>
      obtain ⟨q, -, h⟩ := R.ok_of_andThen h
      injection h with h
      subst h
      have hs : s < a.states.length := lt_of_mem_trsOf (List.mem_of_getElem? hget)
      unfold setNextstateR
      rw [if_pos hs, hget]
      exact truthful_replaceTr ha hget fun b hb => updOk_keep ha (List.mem_of_getElem? hget) q b hb
  have hcopy : ∀ r, ∀ a : Fst W, ∀ t a', a.Truthful → copyTr p r a t = .ok a' → a'.Truthful := by
    intro r a t a' ha h
    unfold copyTr at h
    obtain ⟨q, -, h⟩ := R.ok_of_andThen h
    split at h
    · next hr => injection h with h; subst h; exact truthful_addTr ha hr _
    · cases h
  have helt : ∀ r, ∀ a : Fst W, ∀ s a', a.Truthful → mergeElt p r a s = .ok a' → a'.Truthful := by
    intro r a s a' ha h
    unfold mergeElt at h
    split at h
    · split at h
      · exact foldlM_R_keep (redirect p s) (hred s) _ _ _ ha h
      · cases h
    · cases hts : a.getTrsR s with
      | error e => rw [hts] at h; cases h
      | ok ts => rw [hts] at h; exact foldlM_R_keep (copyTr p r) (hcopy r) _ _ _ ha h
  have hcls : ∀ a : Fst W, ∀ c a', a.Truthful → mergeClass p a c = .ok a' → a'.Truthful := by
    intro a c a' ha h
    unfold mergeClass at h
    obtain ⟨l, -, h⟩ := R.ok_of_andThen h
    split at h
    · cases h; exact ha
    · exact foldlM_R_keep (mergeElt p _) (helt _) _ _ _ ha h
  have t1 := foldlM_R_keep (mergeClass p) hcls _ _ _ ht h1
  split at h
  · cases h
  · next i hi =>
    obtain ⟨r, -, h⟩ := R.ok_of_andThen h
    split at h
    · cases h
    · next hst =>
      have hr : r < f1.numStates := by
        unfold setStartR at hst
        split at hst
        · assumption
        · cases hst
      refine C18_flags _ g ?_ (truthful_setStart t1 r) h
      refine wf_of_targetsOk (fun i hi => ?_) ?_
      · have : r = i := by
          have : (f1.setStart r).start = some r := rfl
          rw [hi] at this; injection this with this; exact this.symm
        subst this; exact hr
      · unfold connect at h
        split at h
        · cases h
        · next hc =>
          have : (f1.setStart r).start ≠ none := by
            have : (f1.setStart r).start = some r := rfl
            rw [this]; simp
          by_contra hx
          exact hc ⟨this, by simpa using hx⟩

/-- Merging the classes of a good partition. -/
theorem merge_good {f : Fst W} (hw : f.WF) (hu : f.AllUseful) (pf : f.Plain) {i : StateId} (hi : f.start = some i) {K E p cls}
    (gp : GoodPartition f K E p cls) (hK : ∀ e e', K e e' → (f.finOf e).isSome = (f.finOf e').isSome) :
    ∃ g, f.mergeStates p = .ok g ∧ Minimized f g.trUnique ∧
      (∀ [Mul W] n, f.Deterministic → g.trUnique.accPaths n = f.accPaths n) ∧
      ((∀ e e', e < f.numStates → e' < f.numStates → f.langFrom e = f.langFrom e' → E e e') → ∀ j j', j < g.trUnique.numStates → j' < g.trUnique.numStates →
        g.trUnique.langFrom j = g.trUnique.langFrom j' → j = j') := by
  obtain ⟨ρ, hr⟩ := gp.reps
  have hfin : ∀ s s', s < f.numStates → s' < f.numStates → cls s = cls s' → f.finOf s = f.finOf s' := by
    intro s s' hs hs' hc
    have := hK _ _ (gp.key s s' hs hs' hc)
    cases h1 : f.finOf s with
    | none =>
      rw [h1] at this
      cases h2 : f.finOf s' with
      | none => rfl
      | some w => rw [h2] at this; cases this
    | some w =>
      rw [h1] at this
      cases h2 : f.finOf s' with
      | none => rw [h2] at this; cases this
      | some w' => rw [pf.fin s w h1, pf.fin s' w' h2]
  obtain ⟨g, ν, hg, m, hν, hcnt, huse, gw, -, htr⟩ := mergeStates_shape hr f rfl hw hu hi hfin
  have b : MergedInto.Bisim f ν := by
    intro s s' hs hs' he t ht
    obtain ⟨t', ht', h1, h2⟩ := gp.step s s' hs hs' ((hν s s' hs hs').1 he) t ht
    exact ⟨t', ht', h1, (hν _ _ (hw.next_lt s t' ht') (hw.next_lt s' t ht)).2 h2⟩
  have hpl := m.plain pf
  have hnd : ∀ j, (g.trUnique.trsOf j).Nodup := by
    intro j
    refine trUnique_nodup g (fun s x hx y hy => ?_) j
    have hmem : ∀ z, z ∈ g.trsOf s → z ∈ g.trUnique.trsOf s := by
      intro z hz
      rw [(trUnique_spec g).1, mem_dedupTrs]
      exact (sortTrsBy_perm _ _).mem_iff.2 hz
    rw [hpl.weight s x (hmem x hx), hpl.weight s y (hmem y hy)]
  refine ⟨g, hg, ⟨m.wf, huse, hpl, m.language_eq hw b, fun hd => m.deterministic b pf hd hnd, hcnt,
    fun ht => C13_tr_unique_flags g (mergeStates_truthful ht hg)⟩, fun n hd => m.accPaths hw b pf hd hnd n, ?_⟩
  intro hE
  exact m.distinct hw b fun s s' hs hs' he => (hν s s' hs hs').2 (gp.coarse s s' hs hs' (hE s s' hs hs' he))

end merge
end Fst
end Verif
