import Verif.Lemmas.MergeStates

/-! # The FST in which classes of states are merged -/

namespace Verif
set_option linter.unusedSectionVars false
universe u v
variable {W : Type u}

namespace Fst

theorem dedupAux_lt [DecidableEq W] {R : Tr W → Tr W → Prop} (hR : ∀ a b c, R a b → R b c → R a c) :
    ∀ (ts : List (Tr W)) (p : Tr W), (p :: ts).Pairwise (fun a b => a = b ∨ R a b) → (dedupAux p ts).Pairwise R := by
  intro ts
  induction ts with
  | nil => intro p _; simp [dedupAux]
  | cons t ts ih =>
    intro p hp
    rw [List.pairwise_cons, List.pairwise_cons] at hp
    obtain ⟨h1, h2, h3⟩ := hp
    simp only [dedupAux]
    split
    · rename_i heq
      subst heq
      exact ih t (List.pairwise_cons.2 ⟨h2, h3⟩)
    · rename_i hne
      rw [List.pairwise_cons]
      have hsub : ∀ x ∈ dedupAux t ts, x = t ∨ x ∈ ts := by
        intro x hx
        have : x ∈ dedupTrs (t :: ts) := hx
        rw [mem_dedupTrs] at this
        simpa using this
      have hpt : R p t := by
        rcases h1 t (by simp) with h | h
        · exact absurd h.symm hne
        · exact h
      refine ⟨fun x hx => ?_, ih t (List.pairwise_cons.2 ⟨h2, h3⟩)⟩
      rcases hsub x hx with rfl | hx
      · exact hpt
      · rcases h2 x hx with h | h
        · rw [← h]; exact hpt
        · exact hR _ _ _ hpt h

/-- With equal weights `tr_unique` leaves no copies. -/
theorem nodup_dedup_sorted [DecidableEq W] (l : List (Tr W)) (hw : ∀ a ∈ l, ∀ b ∈ l, a.weight = b.weight) :
    (dedupTrs (sortTrsBy trLe l)).Nodup := by
  have hs := List.pairwise_mergeSort (le := trLe) trLe_trans trLe_total l
  have hperm := sortTrsBy_perm trLe l
  have key : (sortTrsBy trLe l).Pairwise (fun a b => a = b ∨ (trLe a b = true ∧ a.key ≠ b.key)) := by
    have hmem : ∀ a ∈ sortTrsBy trLe l, a ∈ l := fun a ha => hperm.mem_iff.1 ha
    have : (sortTrsBy trLe l).Pairwise (fun a b => trLe a b = true) := hs
    refine List.Pairwise.imp_of_mem ?_ this
    intro a b ha hb hab
    by_cases hk : a.key = b.key
    · left
      have h3 := hw a (hmem a ha) b (hmem b hb)
      cases a; cases b
      simp only [Tr.key, Prod.mk.injEq] at hk
      simp only at h3
      simp [hk, h3]
    · exact Or.inr ⟨hab, hk⟩
  have htr : ∀ a b c : Tr W, (trLe a b = true ∧ a.key ≠ b.key) → (trLe b c = true ∧ b.key ≠ c.key) → (trLe a c = true ∧ a.key ≠ c.key) := by
    rintro a b c ⟨h1, h2⟩ ⟨h3, h4⟩
    refine ⟨trLe_trans _ _ _ h1 h3, fun h => ?_⟩
    rw [trLe_iff] at h1 h3
    simp only [Tr.key, Prod.mk.injEq, ne_eq] at *
    omega
  have : (dedupTrs (sortTrsBy trLe l)).Pairwise (fun a b => trLe a b = true ∧ a.key ≠ b.key) := by
    cases hl : sortTrsBy trLe l with
    | nil => simp [dedupTrs]
    | cons t ts =>
      rw [hl] at key
      exact dedupAux_lt htr ts t key
  exact this.imp fun h e => h.2 (by rw [e])

/-- `h` is `f` with states merged by `ν`. -/
structure MergedInto (f h : Fst W) (ν : Nat → Nat) : Prop where
  wf : h.WF
  start : h.start = f.start.map ν
  lt : ∀ s, s < f.numStates → ν s < h.numStates
  onto : ∀ j, j < h.numStates → ∃ s, s < f.numStates ∧ ν s = j
  fin : ∀ s, s < f.numStates → h.finOf (ν s) = f.finOf s
  trs : ∀ s, s < f.numStates → ∀ t, t ∈ h.trsOf (ν s) ↔
    ∃ s', s' < f.numStates ∧ ν s' = ν s ∧ ∃ t0 ∈ f.trsOf s', t = { t0 with nextstate := ν t0.nextstate }

variable [Zero W] [One W] [DecidableEq W]

/-- All states of `f` are useful. -/
def AllUseful (f : Fst W) : Prop := ∀ s, s < f.numStates → f.Accessible s ∧ f.Coaccessible s

theorem mergeStates_shape {p : Part} {n : Nat} {cls ρ : Nat → Nat} (h : Reps p n cls ρ) (f : Fst W) (hn : f.numStates = n) (hw : f.WF)
    (hu : f.AllUseful) {i : StateId} (hi : f.start = some i)
    (hfin : ∀ s s', s < n → s' < n → cls s = cls s' → f.finOf s = f.finOf s') :
    ∃ g ν, f.mergeStates p = .ok g ∧ MergedInto f g.trUnique ν ∧ (∀ s s', s < n → s' < n → (ν s = ν s' ↔ cls s = cls s')) ∧
      (f.AllCounters → g.trUnique.AllCounters) ∧ g.trUnique.AllUseful ∧ g.WF ∧ g.start = f.start.map ν ∧
      (∀ s, s < n → ∀ t, t ∈ g.trsOf (ν s) ↔ t ∈ g.trUnique.trsOf (ν s)) := by
  obtain ⟨g0, e0, a1, a2, a3, a4, a5, a6⟩ := mergeClasses h f hn hw
  have hin : i < n := hn ▸ hw.start_lt i hi
  have hρi := h.rho i hin
  have hst : (g0.setStartR (ρ i)).2 = .ok () := by
    unfold setStartR; rw [if_pos (by have : g0.states.length = n := a1; omega)]
  obtain ⟨g1, hg1⟩ : ∃ g1, g1 = g0.setStart (ρ i) := ⟨_, rfl⟩
  have b1 : g1.numStates = n := by rw [hg1]; exact a1
  have b2 : g1.start = some (ρ i) := by rw [hg1]; rfl
  have b3 : ∀ q, g1.finOf q = f.finOf q := by intro q; rw [hg1]; exact a3 q
  have b4 : ∀ q, g1.trsOf q = g0.trsOf q := by intro q; rw [hg1]; rfl
  have hrt : ∀ s, s < n → ∀ t, t ∈ g1.trsOf (ρ s) ↔ ∃ s', s' < n ∧ ρ s' = ρ s ∧ ∃ t0 ∈ f.trsOf s', t = redTr ρ t0 := by
    intro s hs t
    rw [b4]
    exact a4 (ρ s) (h.rho s hs).1 (h.rho s hs).2.2 t
  have hwf1 : g1.WF := by
    refine ⟨fun j hj => ?_, fun s t ht => ?_⟩
    · rw [b2] at hj; injection hj with hj; subst hj; rw [b1]; exact hρi.1
    · rw [b1]
      by_cases hs : s < n
      · by_cases hr : ρ s = s
        · rw [← hr] at ht
          obtain ⟨s', hs', -, t0, ht0, rfl⟩ := (hrt s hs t).1 ht
          exact (h.rho _ (hn ▸ hw.next_lt s' t0 ht0)).1
        · rw [b4, a5 s hs hr] at ht
          exact hn ▸ hw.next_lt s t ht
      · rw [trsOf_of_ge (by rw [b1]; omega)] at ht; cases ht
  have hedge : ∀ a b, f.Edge a b → g1.Edge (ρ a) (ρ b) := by
    rintro a b ⟨t, ht, rfl⟩
    have ha : a < n := by
      by_contra hc
      rw [trsOf_of_ge (by rw [hn]; omega)] at ht; cases ht
    exact ⟨redTr ρ t, (hrt a ha _).2 ⟨a, ha, rfl, t, ht, rfl⟩, rfl⟩
  have hreach : ∀ a b, f.Reach a b → g1.Reach (ρ a) (ρ b) := by
    intro a b hab
    induction hab with
    | refl => exact .refl
    | tail _ he ih => exact ih.tail (hedge _ _ he)
  have huse : ∀ s, s < n → g1.Accessible (ρ s) ∧ g1.Coaccessible (ρ s) := by
    intro s hs
    obtain ⟨⟨j, hj, hr⟩, q, hq, hqf⟩ := hu s (hn ▸ hs)
    rw [hi] at hj; injection hj with hj; subst hj
    refine ⟨⟨ρ i, b2, hreach _ _ hr⟩, ρ q, hreach _ _ hq, ?_⟩
    have hqn : q < n := by
      by_contra hc
      unfold IsFinal at hqf
      rw [finOf_of_ge (by rw [hn]; omega)] at hqf; cases hqf
    unfold IsFinal at *
    rw [b3, hfin (ρ q) q (h.rho q hqn).1 hqn (h.rho q hqn).2.1]; exact hqf
  obtain ⟨g, ds, c1, c2, c3, c4, c5⟩ := C18_connect g1 hwf1
  rw [b1] at c3 c4
  have hds : ∀ s, s < n → ρ s ∉ ds := by
    intro s hs hc
    exact ((c2 _).1 hc).2 (huse s hs)
  have hreps : ∀ s, s < n → s ∉ ds → ρ s = s := by
    intro s hs hd
    have hacc : g1.Accessible s := by
      by_contra hc
      exact hd ((c2 s).2 ⟨by rw [b1]; exact hs, fun hx => hc hx.1⟩)
    obtain ⟨j, hj, hr⟩ := hacc
    rw [b2] at hj; injection hj with hj; subst hj
    have : ∀ x, g1.Reach (ρ i) x → ρ x = x ∧ x < n := by
      intro x hx
      induction hx with
      | refl => exact ⟨hρi.2.2, hρi.1⟩
      | tail _ he ih =>
        obtain ⟨t, ht, rfl⟩ := he
        rw [← ih.1] at ht
        obtain ⟨s', hs', -, t0, ht0, rfl⟩ := (hrt _ ih.2 t).1 ht
        have := h.rho _ (hn ▸ hw.next_lt s' t0 ht0)
        exact ⟨this.2.2, this.1⟩
    exact (this s hr).1
  have hget : ∀ s, s < n → (survivors n ds)[newNumber ds (ρ s)]? = some (ρ s) := fun s hs => survivors_get ds (h.rho s hs).1 (hds s hs)
  have hnum : ∀ a b, a < n → b < n → (newNumber ds (ρ a) = newNumber ds (ρ b) ↔ cls a = cls b) := by
    intro a b ha hb
    rw [← h.same_iff ha hb]
    constructor
    · intro he
      have h1 := hget a ha
      rw [he, hget b hb] at h1
      injection h1 with h1; exact h1.symm
    · intro he; rw [he]
  obtain ⟨u1, u2, u3, u4, u5⟩ := trUnique_spec g
  have hum : ∀ s t, t ∈ g.trUnique.trsOf s ↔ t ∈ g.trsOf s := by
    intro s t; rw [u1, mem_dedupTrs]; exact (sortTrsBy_perm _ _).mem_iff
  have hgwf := C18_wf g1 g c1
  have hgtr : ∀ s, s < n → ∀ t, t ∈ g.trsOf (newNumber ds (ρ s)) ↔
      ∃ s', s' < n ∧ newNumber ds (ρ s') = newNumber ds (ρ s) ∧ ∃ t0 ∈ f.trsOf s', t = { t0 with nextstate := newNumber ds (ρ t0.nextstate) } := by
    intro s hs t
    rw [(c4 _ _ (hget s hs)).2]
    simp only [survivingTrs, List.mem_map, List.mem_filter, decide_eq_true_eq]
    constructor
    · rintro ⟨t1, ⟨h1, h2⟩, rfl⟩
      obtain ⟨s', hs', he, t0, ht0, rfl⟩ := (hrt s hs t1).1 h1
      exact ⟨s', hs', by rw [he], t0, ht0, rfl⟩
    · rintro ⟨s', hs', he, t0, ht0, rfl⟩
      have hc := (hnum s' s hs' hs).1 he
      exact ⟨redTr ρ t0, ⟨(hrt s hs _).2 ⟨s', hs', h.same hs' hs hc, t0, ht0, rfl⟩, hds _ (hn ▸ hw.next_lt s' t0 ht0)⟩, rfl⟩
  have hstart : g.start = some (newNumber ds (ρ i)) := by
    rw [c5, b2]
    show (if ρ i ∈ ds then none else some (newNumber ds (ρ i))) = _
    rw [if_neg (hds i hin)]
  refine ⟨g, fun s => newNumber ds (ρ s), ?_, ⟨?_, ?_, ?_, ?_, ?_, ?_⟩, hnum, ?_, ?_, ?_, ?_, fun s _ t => (hum _ t).symm⟩
  · show R.andThen _ _ = _
    rw [e0, R.andThen_ok]
    simp only [a2, hi, repOfState_eq h hin, R.andThen_ok, hst]
    rw [← hg1]; exact c1
  · refine ⟨fun j hj => ?_, fun s t ht => ?_⟩
    · rw [u3]; exact hgwf.1.start_lt j (u4 ▸ hj)
    · rw [u3]; exact hgwf.1.next_lt s t ((hum s t).1 ht)
  · rw [u4, hstart, hi]; rfl
  · intro s hs
    rw [u3, c3]
    have := hget s (hn ▸ hs)
    exact (List.getElem?_eq_some_iff.1 this).1
  · intro j hj
    rw [u3, c3] at hj
    obtain ⟨s, hs⟩ : ∃ s, (survivors n ds)[j]? = some s := ⟨_, List.getElem?_eq_getElem hj⟩
    obtain ⟨h1, h2, h3⟩ := survivors_get_inv ds hs
    exact ⟨s, hn ▸ h1, by rw [hreps s h1 h2]; exact h3⟩
  · intro s hs
    rw [hn] at hs
    rw [u2, (c4 _ _ (hget s hs)).1, b3]
    exact hfin _ _ (h.rho s hs).1 hs (h.rho s hs).2.1
  · intro s hs t
    rw [hn] at hs ⊢
    rw [hum]
    exact hgtr s hs t
  · intro hc
    apply u5
    apply hgwf.2
    rw [hg1]
    exact allCounters_setStart (a6 hc) _
  · intro s hs
    rw [u3] at hs
    have hx := C18_trim g1 g hwf1 c1 s hs
    have e : g.trUnique.Edge = g.Edge := by funext a b; simp [Edge, hum]
    have e1 : g.trUnique.Reach = g.Reach := by simp [Reach, e]
    have e3 : g.trUnique.IsFinal = g.IsFinal := by funext a; simp [IsFinal, u2]
    unfold Accessible Coaccessible at *
    rw [e1, e3, u4]; exact hx
  · exact hgwf.1
  · rw [hstart, hi]; rfl

end Fst
end Verif
