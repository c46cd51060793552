import Verif.Lemmas.Renum
import Verif.Lemmas.DecHist
import Verif.Lemmas.Truthful
import Verif.Props.C14

/-! # C20: state_sort renumbers the states -/

namespace Verif
set_option linter.unusedSectionVars false
universe u
open Fst
variable {W : Type u} [Zero W] [One W] [DecidableEq W]

namespace Fst

theorem addRenumbered_spec (order : List Nat) (s2 : Nat) (ts : List (Tr W)) (g : Fst W) (hs : s2 < g.numStates)
    (ht : ∀ t ∈ ts, t.nextstate < order.length) :
    ∃ h, addRenumbered order s2 g ts = .ok h ∧ h.numStates = g.numStates ∧ h.start = g.start ∧
      (∀ q, h.finOf q = g.finOf q) ∧
      (∀ q, h.trsOf q = if q = s2 then g.trsOf s2 ++ ts.map (fun t => { t with nextstate := order[t.nextstate]?.getD 0 })
        else g.trsOf q) ∧ (g.AllCounters → h.AllCounters) := by
  induction ts generalizing g with
  | nil =>
    refine ⟨g, rfl, rfl, rfl, fun _ => rfl, fun q => ?_, id⟩
    split
    · rename_i h; simp [h]
    · rfl
  | cons t ts ih =>
    have h1 := ht t (by simp)
    have e : order[t.nextstate]? = some order[t.nextstate] := List.getElem?_eq_getElem h1
    simp only [addRenumbered, renumTr, e, hs, if_true]
    obtain ⟨h, a, b, c, d, e', k⟩ := ih (g.addTr s2 { t with nextstate := order[t.nextstate] }) (by simpa using hs)
      (fun t' h' => ht t' (by simp [h']))
    refine ⟨h, a, by simpa using b, by simpa using c, by simpa using d, ?_, fun x => k (allCounters_addTr x _ _)⟩
    intro q
    rw [e', addTr_trsOf, addTr_trsOf]
    by_cases hq : q = s2
    · simp [hq, hs, e]
    · simp [hq]

/-- Invariant of `state_sort`: the new place of every finished state holds its renumbered content, all other places are
untouched. -/
structure SortInv (f : Fst W) (order : List Nat) (st : Option Nat) (g : Fst W) (done : List Bool) : Prop where
  num : g.numStates = f.numStates
  start : g.start = st
  len : done.length = f.numStates
  trs : ∀ p, p < f.numStates → g.trsOf (order[p]?.getD 0) = if done[p]? = some true
    then (f.trsOf p).map (fun t => { t with nextstate := order[t.nextstate]?.getD 0 }) else f.trsOf (order[p]?.getD 0)
  fin : ∀ p, p < f.numStates → g.finOf (order[p]?.getD 0) = if done[p]? = some true
    then f.finOf p else f.finOf (order[p]?.getD 0)
  cnt : f.AllCounters → g.AllCounters

/-- What is needed of `order`: it is a permutation of the state numbers. -/
structure IsPerm (order : List Nat) (n : Nat) : Prop where
  len : order.length = n
  lt : ∀ p, p < n → order[p]?.getD 0 < n
  inj : ∀ p q, p < n → q < n → order[p]?.getD 0 = order[q]?.getD 0 → p = q
  surj : ∀ q, q < n → ∃ p, p < n ∧ order[p]?.getD 0 = q

theorem isPerm_of_perm {order : List Nat} {n : Nat} (h : order.Perm (List.range n)) : IsPerm order n where
  len := by have := h.length_eq; simpa using this
  lt p hp := by
    have hl : p < order.length := by have := h.length_eq; simp at this; omega
    rw [List.getElem?_eq_getElem hl]
    exact List.mem_range.1 (h.subset (List.getElem_mem hl))
  inj p q hp hq e := by
    have hl : order.length = n := by have := h.length_eq; simpa using this
    have hn : order.Nodup := h.nodup_iff.2 List.nodup_range
    rw [List.getElem?_eq_getElem (by omega), List.getElem?_eq_getElem (by omega)] at e
    exact (List.Nodup.getElem_inj_iff hn).1 e
  surj q hq := by
    have hl : order.length = n := by have := h.length_eq; simpa using this
    obtain ⟨p, hp, e⟩ := List.mem_iff_getElem.1 (h.symm.subset (List.mem_range.2 hq))
    exact ⟨p, by omega, by rw [List.getElem?_eq_getElem hp, e]; rfl⟩

theorem sortCycle_spec {f : Fst W} {order : List Nat} (hp : IsPerm order f.numStates) (hw : f.WF) {st : Option Nat}
    (k : Nat) (g : Fst W) (done : List Bool) (s1 : Nat) (fin1 fin2 : Option W) (ta tb : List (Tr W))
    (hk : done.count false < k) (hs1 : s1 < f.numStates) (inv : SortInv f order st g done)
    (hc : done[s1]? = some false → fin1 = f.finOf s1 ∧ ta = f.trsOf s1)
    (hcl : ∀ p : Nat, p < f.numStates → done[p]? = some true → done[order[p]?.getD 0]? = some true ∨ order[p]?.getD 0 = s1) :
    ∃ (h : Fst W) (done' : List Bool), sortCycle order k g done s1 fin1 fin2 ta tb = .ok (h, done') ∧
      SortInv f order st h done' ∧ done'[s1]? = some true ∧ (∀ p : Nat, done[p]? = some true → done'[p]? = some true) ∧
      ∀ p : Nat, p < f.numStates → done'[p]? = some true → done'[order[p]?.getD 0]? = some true := by
  induction k generalizing g done s1 fin1 fin2 ta tb with
  | zero => omega
  | succ k ih =>
    unfold sortCycle
    have hl1 : s1 < done.length := by rw [inv.len]; exact hs1
    cases hd : done[s1]? with
    | none => rw [List.getElem?_eq_none_iff] at hd; omega
    | some d =>
      cases d with
      | true =>
        refine ⟨g, done, rfl, inv, hd, fun _ h => h, fun p hp h => ?_⟩
        rcases hcl p hp h with h' | h'
        · exact h'
        · rw [h']; exact hd
      | false =>
        obtain ⟨rfl, rfl⟩ := hc hd
        have ho : s1 < order.length := by rw [hp.len]; exact hs1
        have e2 : order[s1]? = some order[s1] := List.getElem?_eq_getElem ho
        have hs2 : order[s1] < f.numStates := by have := hp.lt s1 hs1; rwa [e2] at this
        generalize hs2e : order[s1] = s2 at *
        have hs2d : s2 < done.length := by rw [inv.len]; exact hs2
        have ed2 : done[s2]? = some done[s2] := List.getElem?_eq_getElem hs2d
        simp only [e2, ed2]
        have hs2g : s2 < g.numStates := by rw [inv.num]; exact hs2
        rw [if_pos hs2g]
        -- the untouched content of `s2`
        have gt : g.trsOf s2 = f.trsOf s2 := by
          have := inv.trs s1 hs1
          rw [e2, hd] at this; simpa using this
        have gf : g.finOf s2 = f.finOf s2 := by
          have := inv.fin s1 hs1
          rw [e2, hd] at this; simpa using this
        obtain ⟨g1, hg1⟩ : ∃ g1, g1 = g.putFinal s2 (f.finOf s1) := ⟨_, rfl⟩
        have n1 : g1.numStates = g.numStates := by rw [hg1]; cases f.finOf s1 <;> simp [putFinal]
        have t1 : ∀ q, g1.trsOf q = g.trsOf q := by intro q; rw [hg1]; cases f.finOf s1 <;> simp [putFinal]
        have f1 : ∀ q, g1.finOf q = if q = s2 then f.finOf s1 else g.finOf q := by
          intro q; rw [hg1]
          cases f.finOf s1 with
          | none => simp [putFinal, delFinal_finOf]
          | some v => simp [putFinal, setFinal_finOf, hs2g]
        have a1 : g1.start = g.start := by rw [hg1]; cases f.finOf s1 <;> simp [putFinal]
        have c1 : g.AllCounters → g1.AllCounters := by
          intro h; rw [hg1]
          cases f.finOf s1 with
          | none => exact allCounters_delFinal h _
          | some v => exact allCounters_setFinal h _ _
        obtain ⟨h, b1, b2, b3, b4, b5, b6⟩ := addRenumbered_spec order s2 (f.trsOf s1) (g1.delTrs s2)
          (by simp [n1, hs2g]) (fun t ht => by rw [hp.len]; exact hw.next_lt s1 t ht)
        rw [← hg1, b1]
        simp only
        have inv' : SortInv f order st h (done.set s1 true) := by
          refine ⟨?_, ?_, by simp [inv.len], ?_, ?_, ?_⟩
          · rw [b2]; simp [n1, inv.num]
          · rw [b3]; simp [a1, inv.start]
          · intro p hpl
            rw [b5]
            by_cases hpe : p = s1
            · subst hpe
              rw [e2]
              simp [delTrs_trsOf, hl1]
            · have hne : order[p]?.getD 0 ≠ s2 := by
                intro e
                apply hpe
                apply hp.inj p s1 hpl hs1
                rw [e, e2]; rfl
              rw [if_neg hne, delTrs_trsOf, if_neg hne, t1, List.getElem?_set_ne (Ne.symm hpe)]
              exact inv.trs p hpl
          · intro p hpl
            rw [b4, delTrs_finOf, f1]
            by_cases hpe : p = s1
            · subst hpe
              rw [e2]
              simp [hl1]
            · have hne : order[p]?.getD 0 ≠ s2 := by
                intro e
                apply hpe
                apply hp.inj p s1 hpl hs1
                rw [e, e2]; rfl
              rw [if_neg hne, List.getElem?_set_ne (Ne.symm hpe)]
              exact inv.fin p hpl
          · intro hcnt; exact b6 (allCounters_delTrs (c1 (inv.cnt hcnt)) _)
        have hcount : (done.set s1 true).count false < k := by
          have : (done.set s1 true).count false + 1 = done.count false := by
            rw [List.count_set hl1]
            have hg : done[s1] = false := by
              rw [List.getElem?_eq_getElem hl1] at hd; simpa using hd
            have : 0 < done.count false := List.count_pos_iff.2 (by rw [← hg]; exact List.getElem_mem hl1)
            simp [hg]
            omega
          omega
        obtain ⟨h', d', r1, r2, r3, r4, r5⟩ := ih h (done.set s1 true) s2
          (if done[s2] then fin2 else g.finOf s2) (if done[s2] then fin2 else g.finOf s2)
          (if done[s2] then tb else g.trsOf s2) (f.trsOf s1) hcount hs2 inv' (by
          intro hnd
          by_cases he : s2 = s1
          · rw [he, List.getElem?_set_self hl1] at hnd; simp at hnd
          · rw [List.getElem?_set_ne (Ne.symm he), ed2] at hnd
            have hnd : done[s2] = false := by simpa using hnd
            rw [hnd]
            exact ⟨by simpa using gf, by simpa using gt⟩) (by
          intro p hpl hpd
          by_cases he : p = s1
          · right; rw [he, e2]; rfl
          · rw [List.getElem?_set_ne (Ne.symm he)] at hpd
            left
            by_cases he' : order[p]?.getD 0 = s1
            · rw [he', List.getElem?_set_self hl1]
            · rw [List.getElem?_set_ne (Ne.symm he')]
              rcases hcl p hpl hpd with h' | h'
              · exact h'
              · exact absurd h' he')
        refine ⟨h', d', r1, r2, r4 s1 (by rw [List.getElem?_set_self hl1]), fun p hpd => r4 p ?_, r5⟩
        by_cases he : p = s1
        · rw [he, List.getElem?_set_self hl1]
        · rw [List.getElem?_set_ne (Ne.symm he)]; exact hpd

theorem stateSort_spec {f : Fst W} {order : List Nat} (hp : IsPerm order f.numStates) (hw : f.WF) {i : Nat}
    (hi : f.start = some i) : ∃ g, f.stateSort order = .ok g ∧
      g.numStates = f.numStates ∧ g.start = some (order[i]?.getD 0) ∧
      (∀ p, p < f.numStates → g.trsOf (order[p]?.getD 0) =
        (f.trsOf p).map fun t => { t with nextstate := order[t.nextstate]?.getD 0 }) ∧
      (∀ p, p < f.numStates → g.finOf (order[p]?.getD 0) = f.finOf p) ∧
      g.props = f.props.and Props.statesortMask ∧ (f.AllCounters → g.AllCounters) := by
  have hil := hw.start_lt i hi
  have hil' : i < order.length := by rw [hp.len]; exact hil
  have ho : order[i]? = some order[i] := List.getElem?_eq_getElem hil'
  have hol : order[i] < f.numStates := by have := hp.lt i hil; rwa [ho] at this
  obtain ⟨g, done, h1, h2, h3, -⟩ := foldl_range_induct (fun k (a : R (Fst W × List Bool)) =>
      ∃ (g : Fst W) (done : List Bool), a = .ok (g, done) ∧
      SortInv f order (some order[i]) g done ∧ (∀ p, p < k → done[p]? = some true) ∧
      ∀ p : Nat, p < f.numStates → done[p]? = some true → done[order[p]?.getD 0]? = some true) (sortFrom order) f.numStates
      (.ok (f.setStart order[i], List.replicate order.length false))
      ⟨_, _, rfl, ⟨by simp, by simp, by simp [hp.len], by
          intro p hpl; simp [hp.len, hpl], by intro p hpl; simp [hp.len, hpl], fun h => allCounters_setStart h _⟩, by
          intro p hp; omega, by intro p hpl h; simp [hp.len, hpl] at h⟩ (by
      rintro k a hk ⟨g, done, rfl, inv, hd, hcl⟩
      unfold sortFrom
      simp only
      have hl : k < done.length := by rw [inv.len]; exact hk
      cases hdk : done[k]? with
      | none => rw [List.getElem?_eq_none_iff] at hdk; omega
      | some d =>
        cases d with
        | true =>
          refine ⟨g, done, rfl, inv, fun p hpk => ?_, hcl⟩
          by_cases he : p = k
          · rw [he, hdk]
          · exact hd p (by omega)
        | false =>
          simp only
          -- content of `k` is still the original one: its preimage is not done, or `k` itself would be
          have hc : done[k]? = some false → g.finOf k = f.finOf k ∧ g.trsOf k = f.trsOf k := by
            intro _
            obtain ⟨p, hpl, hpe⟩ := hp.surj k hk
            have hnd : ¬ done[p]? = some true := by
              intro h
              have := hcl p hpl h
              rw [hpe, hdk] at this; simp at this
            have e1 := inv.fin p hpl
            have e2 := inv.trs p hpl
            rw [hpe, if_neg hnd] at e1 e2
            exact ⟨e1, e2⟩
          obtain ⟨h, d', r1, r2, r3, r4, r5⟩ := sortCycle_spec hp hw (order.length + 1) g done k (g.finOf k) none (g.trsOf k) []
            (by have := List.count_le_length (a := false) (l := done); rw [inv.len] at this; rw [hp.len]; omega) hk inv hc
            (fun p hpl h => Or.inl (hcl p hpl h))
          refine ⟨h, d', r1, r2, fun p hpk => ?_, r5⟩
          by_cases he : p = k
          · rw [he]; exact r3
          · exact r4 p (hd p (by omega)))
  unfold stateSort
  rw [if_neg (by simp [hp.len]), hi]
  simp only [ho, if_pos hol, h1]
  refine ⟨_, rfl, by simp [h2.num], by simp [h2.start], ?_, ?_, Fst.setPropsMask_all _ _, fun h => allCounters_states (h2.cnt h) rfl⟩
  · intro p hpl; simp [h2.trs p hpl, h3 p hpl]
  · intro p hpl; simp [h2.fin p hpl, h3 p hpl]

end Fst

/-- C20: for every permutation `order`, `state_sort` succeeds and returns the FST in which state `s` is called `order[s]`:
same start state, transitions in the same order, same final weights. -/
theorem C20_state_sort (f : Fst W) (hw : f.WF) (order : List StateId) (hp : order.Perm (List.range f.numStates))
    (hs : f.start ≠ none) : ∃ g τ, f.stateSort order = .ok g ∧ Fst.Renum f g (fun s => order[s]?.getD 0) τ ∧
      (f.AllCounters → g.AllCounters) := by
  obtain ⟨i, hi⟩ := Option.ne_none_iff_exists'.1 hs
  have ip := Fst.isPerm_of_perm hp
  obtain ⟨g, h1, h2, h3, h4, h5, -, h7⟩ := Fst.stateSort_spec ip hw hi
  have hτ : ∀ q, ∃ p, q < f.numStates → p < f.numStates ∧ order[p]?.getD 0 = q := by
    intro q
    by_cases hq : q < f.numStates
    · obtain ⟨p, h⟩ := ip.surj q hq; exact ⟨p, fun _ => h⟩
    · exact ⟨0, fun h => absurd h hq⟩
  choose τ hτ using hτ
  refine ⟨g, τ, h1, ⟨h2, ip.lt, fun s hs => (hτ s hs).1, fun s hs => ?_, fun s hs => (hτ s hs).2, h4, h5, ?_⟩, h7⟩
  · exact ip.inj _ _ (hτ _ (ip.lt s hs)).1 hs (hτ _ (ip.lt s hs)).2
  · rw [h3, hi]; rfl

/-- C20: hence the accepting paths are the same. -/
theorem C20_paths [Mul W] (f : Fst W) (hw : f.WF) (order : List StateId) (hp : order.Perm (List.range f.numStates)) :
    ∃ g, f.stateSort order = .ok g ∧ ∀ n, g.accPaths n = f.accPaths n := by
  by_cases hs : f.start = none
  · refine ⟨f, ?_, fun _ => rfl⟩
    unfold stateSort
    rw [if_neg (by have := hp.length_eq; simpa using this), hs]
  · obtain ⟨g, τ, h1, h2, -⟩ := C20_state_sort f hw order hp hs
    exact ⟨g, h1, fun n => h2.accPaths hw n⟩

/-- C20: an order of the wrong length is rejected. -/
theorem C20_bad_length (f : Fst W) (order : List StateId) (h : order.length ≠ f.numStates) :
    f.stateSort order = .error .err := by
  unfold stateSort; rw [if_pos h]

/-- C51 for `state_sort`. -/
theorem C20_flags (f g : Fst W) (hw : f.WF) (order : List StateId) (hp : order.Perm (List.range f.numStates))
    (tf : f.Truthful) (hg : f.stateSort order = .ok g) : g.Truthful := by
  by_cases hs : f.start = none
  · unfold stateSort at hg
    rw [if_neg (by have := hp.length_eq; simpa using this), hs] at hg
    cases hg; exact tf
  · obtain ⟨g', τ, h1, h2, -⟩ := C20_state_sort f hw order hp hs
    obtain ⟨i, hi⟩ := Option.ne_none_iff_exists'.1 hs
    obtain ⟨g'', h1', -, -, -, -, hpr, -⟩ := Fst.stateSort_spec (Fst.isPerm_of_perm hp) hw hi
    rw [hg] at h1 h1'
    cases h1; cases h1'
    intro b hb
    rw [hpr, Props.and_apply, Bool.and_eq_true] at hb
    exact h2.holds hw b hb.2 (tf b hb.1)

/-- Limitation: without a start state `state_sort` leaves the numbering alone, although it reports success. -/
theorem C20_no_start : ∃ f : Fst Nat, f.WF ∧ f.stateSort [1, 0] = .ok f ∧ f.finOf 0 ≠ f.finOf 1 :=
  ⟨(Fst.new.addStates 2).setFinal 0 5, Fst.wf_of_wfB (by decide), rfl, by decide⟩

/-- A non-trivial instance: rotation of three states. -/
def exRot : Fst Nat := ((((Fst.new.addStates 3).setStart 0).setFinal 2 7).addTr 0 ⟨1, 2, 3, 1⟩).addTr 1 ⟨4, 5, 6, 2⟩
example : exRot.WF ∧ [1, 2, 0].Perm (List.range exRot.numStates) := ⟨Fst.wf_of_wfB (by decide), by decide⟩
example : ∃ g, exRot.stateSort [1, 2, 0] = .ok g ∧ g.start = some 1 ∧ g.trsOf 2 = [⟨4, 5, 6, 0⟩] ∧ g.finOf 0 = some 7 ∧
    g.accPaths 2 = {([1, 4], [2, 5], 126)} := ⟨_, rfl, by decide⟩

end Verif
