import Verif.Props.C47

/-!
# C49: `check_path_in_fst`

The function compares output labels at the index of the input labels (fst_path.rs 129). It is right when the two indices always agree: when
every transition has ε on both sides or on neither, as in an acceptor. `C49_wrong_yes`, `C49_wrong_no` and `C49_panics` show what
happens otherwise, `C49_startless` that it is wrong for FSTs without start state.
-/

namespace Verif
universe u
variable {W : Type u} [Monoid W] [DecidableEq W]
open Fst

/-- Every transition has ε on both sides or on neither. -/
def Fst.Paired (f : Fst W) : Prop := ∀ s, ∀ t ∈ f.trsOf s, (t.ilabel = EPS ↔ t.olabel = EPS)

/-- The entry pushed for a transition, when the indices agree. -/
def bfsExt (p : FstPath W) (b : Bfs W) (t : Tr W) : Option (Bfs W) :=
  if t.ilabel = EPS then some ⟨t.nextstate, b.weight * t.weight, b.inext, b.onext⟩
  else if p.ilabels[b.inext]? = some t.ilabel ∧ p.olabels[b.onext]? = some t.olabel then
    some ⟨t.nextstate, b.weight * t.weight, b.inext + 1, b.onext + 1⟩
  else none

theorem checkTr_paired (p : FstPath W) (b : Bfs W) (t : Tr W) (hb : b.inext = b.onext) (ht : t.ilabel = EPS ↔ t.olabel = EPS) :
    checkTr p b t = .ok (bfsExt p b t) := by
  obtain ⟨mo, hmo, hval⟩ : ∃ mo, matchOlabel p b t = .ok mo ∧ mo = decide (p.olabels[b.onext]? = some t.olabel) := by
    unfold matchOlabel index
    rcases Nat.lt_or_ge b.onext p.olabels.length with h | h
    · rw [if_pos h, hb, List.getElem?_eq_getElem h]
      exact ⟨_, rfl, by simp only [Option.some.injEq]; exact decide_eq_decide.2 eq_comm⟩
    · rw [if_neg (by omega), List.getElem?_eq_none h]
      exact ⟨_, rfl, by simp⟩
  unfold checkTr bfsExt matchIlabel
  rw [hmo, hval]
  by_cases h : t.ilabel = EPS
  · simp [h, ht.1 h]
  · have h' : t.olabel ≠ EPS := fun e => h (ht.2 e)
    simp only [h, h', false_and, if_false, ne_eq, not_false_eq_true, and_false, and_self]
    by_cases h1 : p.ilabels[b.inext]? = some t.ilabel <;> by_cases h2 : p.olabels[b.onext]? = some t.olabel <;> simp [h1, h2]

theorem checkTrs_paired (p : FstPath W) (b : Bfs W) (hb : b.inext = b.onext) (l : List (Tr W))
    (hl : ∀ t ∈ l, (t.ilabel = EPS ↔ t.olabel = EPS)) : checkTrs p b l = .ok (l.filterMap (bfsExt p b)) := by
  induction l with
  | nil => rfl
  | cons t l ih =>
    rw [checkTrs, checkTr_paired p b t hb (hl t (by simp)), ih fun t ht => hl t (by simp [ht])]
    simp only [List.filterMap_cons]
    cases bfsExt p b t <;> rfl

/-- The entries pushed for an entry. -/
def bfsExts (f : Fst W) (p : FstPath W) (b : Bfs W) : List (Bfs W) := (f.trsOf b.state).filterMap (bfsExt p b)

/-- The entries `k` levels further. -/
def bfsLevel (f : Fst W) (p : FstPath W) : Nat → List (Bfs W) → List (Bfs W)
  | 0, q => q
  | k + 1, q => bfsLevel f p k (q.flatMap (bfsExts f p))

theorem bfsExts_aligned {f : Fst W} {p : FstPath W} {b : Bfs W} (hb : b.inext = b.onext) : ∀ e ∈ bfsExts f p b, e.inext = e.onext := by
  intro e he
  obtain ⟨t, -, h⟩ := List.mem_filterMap.1 he
  unfold bfsExt at h
  split at h
  · injection h with h; subst h; exact hb
  · split at h
    · injection h with h; subst h; simp [hb]
    · cases h

theorem checkLoop_level {f : Fst W} (hp : f.Paired) (p : FstPath W) (a b : List (Bfs W)) (ha : ∀ e ∈ a, e.inext = e.onext) (n : Nat) :
    f.checkLoop p (a.length + n) (a ++ b) = if a.any (f.checkEnd p) then some (.ok true) else f.checkLoop p n (b ++ a.flatMap (bfsExts f p)) := by
  induction a generalizing b with
  | nil => simp
  | cons e a ih =>
    have h : (e :: a).length + n = (a.length + n) + 1 := by simp; omega
    rw [h]
    simp only [List.cons_append, checkLoop, List.any_cons]
    by_cases hc : f.checkEnd p e = true
    · simp [hc]
    · have hc : f.checkEnd p e = false := by simpa using hc
      rw [checkTrs_paired p e (ha e (by simp)) _ (fun t ht => hp _ t ht)]
      simp only [hc, Bool.false_eq_true, if_false, Bool.false_or]
      rw [List.append_assoc, ih _ fun e he => ha e (by simp [he])]
      rw [List.flatMap_cons, List.append_assoc]
      rfl

theorem checkLoop_levels {f : Fst W} (hp : f.Paired) (p : FstPath W) (k : Nat) (q : List (Bfs W)) (hq : ∀ e ∈ q, e.inext = e.onext) :
    ((∃ i < k, (bfsLevel f p i q).any (f.checkEnd p)) → EndsWith (fun n => f.checkLoop p n q) (.ok true)) ∧
    ((∀ i < k, (bfsLevel f p i q).any (f.checkEnd p) = false) → ∃ m, ∀ n, f.checkLoop p (m + n) q = f.checkLoop p n (bfsLevel f p k q)) := by
  induction k generalizing q with
  | zero => exact ⟨fun ⟨i, hi, _⟩ => absurd hi (Nat.not_lt_zero i), fun _ => ⟨0, fun n => by rw [Nat.zero_add]; rfl⟩⟩
  | succ k ih =>
    have hl := fun n => checkLoop_level hp p q [] hq n
    simp only [List.append_nil, List.nil_append] at hl
    obtain ⟨h1, h2⟩ := ih (q.flatMap (bfsExts f p)) (by
      intro e he
      obtain ⟨x, hx, he⟩ := List.mem_flatMap.1 he
      exact bfsExts_aligned (hq x hx) e he)
    constructor
    · rintro ⟨i, hi, hany⟩
      by_cases h0 : q.any (f.checkEnd p) = true
      · refine ⟨q.length, fun n hn => ?_⟩
        obtain ⟨m, rfl⟩ : ∃ m, n = q.length + m := ⟨n - q.length, by omega⟩
        simp only [hl, h0, if_true]
      · cases i with
        | zero => exact absurd hany h0
        | succ i =>
          obtain ⟨N, hN⟩ := h1 ⟨i, by omega, hany⟩
          refine ⟨q.length + N, fun n hn => ?_⟩
          obtain ⟨m, rfl⟩ : ∃ m, n = q.length + m := ⟨n - q.length, by omega⟩
          simp only [hl, h0]
          exact hN m (by omega)
    · intro hall
      obtain ⟨m, hm⟩ := h2 fun i hi => hall (i + 1) (by omega)
      have h0 := hall 0 (by omega)
      simp only [bfsLevel] at h0
      refine ⟨q.length + m, fun n => ?_⟩
      rw [Nat.add_assoc, hl, h0]
      exact hm n

/-- What is still to be read from an entry on. -/
def Todo (f : Fst W) (p : FstPath W) (n : Nat) (e : Bfs W) : Prop :=
  ∃ w, (p.ilabels.drop e.inext, p.olabels.drop e.onext, w) ∈ f.pathsFrom n e.state ∧ e.weight * w = p.weight

theorem strip_append_drop {l : List Label} {a : Label} (ha : a ≠ EPS) (k : Nat) (r : List Label) (h : strip a ++ r = l.drop k) :
    l[k]? = some a ∧ r = l.drop (k + 1) := by
  unfold strip at h
  rw [if_neg ha] at h
  have h1 : (l.drop k)[0]? = some a := by rw [← h]; rfl
  rw [List.getElem?_drop] at h1
  refine ⟨h1, ?_⟩
  rw [← List.tail_drop, ← h]
  rfl

theorem drop_append_strip {l : List Label} {a : Label} (ha : a ≠ EPS) (k : Nat) (h : l[k]? = some a) : l.drop k = strip a ++ l.drop (k + 1) := by
  obtain ⟨hk, he⟩ := List.getElem?_eq_some_iff.1 h
  unfold strip
  rw [if_neg ha, List.drop_eq_getElem_cons hk, he]
  rfl

theorem todo_zero {f : Fst W} {p : FstPath W} {e : Bfs W} : Todo f p 0 e ↔ f.checkEnd p e = true := by
  unfold Todo checkEnd
  rw [pathsFrom_zero]
  cases hf : f.finOf e.state with
  | none => simp
  | some w => simp [and_assoc, List.drop_eq_nil_iff]

theorem todo_succ {f : Fst W} (hp : f.Paired) {p : FstPath W} {n : Nat} {e : Bfs W} : Todo f p (n + 1) e ↔ ∃ x ∈ bfsExts f p e, Todo f p n x := by
  constructor
  · rintro ⟨w, hw, he⟩
    rw [pathsFrom_succ, Multiset.mem_bind] at hw
    obtain ⟨t, ht, hw⟩ := hw
    rw [Multiset.mem_map] at hw
    obtain ⟨⟨x, y, v⟩, hr, heq⟩ := hw
    simp only [Tr.asPath, PathT.cat, Prod.mk.injEq] at heq
    obtain ⟨hx, hy, rfl⟩ := heq
    have ht' := Multiset.mem_coe.1 ht
    have hpt := hp _ t ht'
    by_cases h : t.ilabel = EPS
    · refine ⟨⟨t.nextstate, e.weight * t.weight, e.inext, e.onext⟩, List.mem_filterMap.2 ⟨t, ht', by simp [bfsExt, h]⟩, v, ?_, by rw [mul_assoc]; exact he⟩
      have hx' : x = p.ilabels.drop e.inext := by rw [← hx]; simp [strip, h]
      have hy' : y = p.olabels.drop e.onext := by rw [← hy]; simp [strip, hpt.1 h]
      rw [← hx', ← hy']
      exact hr
    · obtain ⟨hi, hx'⟩ := strip_append_drop h _ _ hx
      obtain ⟨ho, hy'⟩ := strip_append_drop (fun e => h (hpt.2 e)) _ _ hy
      refine ⟨⟨t.nextstate, e.weight * t.weight, e.inext + 1, e.onext + 1⟩, List.mem_filterMap.2 ⟨t, ht', by simp [bfsExt, h, hi, ho]⟩, v, ?_,
        by rw [mul_assoc]; exact he⟩
      rw [← hx', ← hy']
      exact hr
  · rintro ⟨x, hx, w, hw, he⟩
    obtain ⟨t, ht, hb⟩ := List.mem_filterMap.1 hx
    have hpt := hp _ t ht
    unfold bfsExt at hb
    split at hb
    · next h =>
      injection hb with hb
      subst hb
      refine ⟨t.weight * w, ?_, by rw [← mul_assoc]; exact he⟩
      rw [pathsFrom_succ, Multiset.mem_bind]
      refine ⟨t, Multiset.mem_coe.2 ht, Multiset.mem_map.2 ⟨_, hw, ?_⟩⟩
      simp [Tr.asPath, PathT.cat, strip, h, hpt.1 h]
    · next h =>
      split at hb
      · next hm =>
        injection hb with hb
        subst hb
        refine ⟨t.weight * w, ?_, by rw [← mul_assoc]; exact he⟩
        rw [pathsFrom_succ, Multiset.mem_bind]
        refine ⟨t, Multiset.mem_coe.2 ht, Multiset.mem_map.2 ⟨_, hw, ?_⟩⟩
        simp only [Tr.asPath, PathT.cat]
        rw [drop_append_strip h _ hm.1, drop_append_strip (fun e => h (hpt.2 e)) _ hm.2]
      · cases hb

theorem todo_level {f : Fst W} (hp : f.Paired) {p : FstPath W} (n : Nat) (q : List (Bfs W)) :
    (∃ e ∈ q, Todo f p n e) ↔ (bfsLevel f p n q).any (f.checkEnd p) = true := by
  induction n generalizing q with
  | zero =>
    simp only [todo_zero, bfsLevel, List.any_eq_true]
  | succ n ih =>
    rw [bfsLevel, ← ih]
    simp only [todo_succ hp, List.mem_flatMap]
    constructor
    · rintro ⟨e, he, x, hx, h⟩; exact ⟨x, ⟨e, he, hx⟩, h⟩
    · rintro ⟨x, ⟨e, he, hx⟩, h⟩; exact ⟨e, he, x, hx, h⟩

theorem mem_bfsLevel {f : Fst W} {p : FstPath W} (k : Nat) (q : List (Bfs W)) (e : Bfs W) (h : e ∈ bfsLevel f p k q) :
    ∃ e0 ∈ q, ∃ c : Nat → StateId, c 0 = e0.state ∧ c k = e.state ∧ ∀ i < k, f.Edge (c i) (c (i + 1)) := by
  induction k generalizing q with
  | zero => exact ⟨e, h, fun _ => e.state, rfl, rfl, fun i hi => absurd hi (Nat.not_lt_zero i)⟩
  | succ k ih =>
    obtain ⟨e1, h1, c, h2, h3, h4⟩ := ih _ h
    obtain ⟨e0, h5, h6⟩ := List.mem_flatMap.1 h1
    obtain ⟨t, ht, hb⟩ := List.mem_filterMap.1 h6
    have hst : e1.state = t.nextstate := by
      unfold bfsExt at hb
      split at hb
      · injection hb with hb; rw [← hb]
      · split at hb
        · injection hb with hb; rw [← hb]
        · cases hb
    refine ⟨e0, h5, fun i => if i = 0 then e0.state else c (i - 1), rfl, by simp [h3], fun i hi => ?_⟩
    cases i with
    | zero => simp only [if_true, Nat.zero_add, Nat.one_ne_zero, if_false, Nat.sub_self, h2, hst]; exact ⟨t, ht, rfl⟩
    | succ i => simpa using h4 i (by omega)

/-- C49, for FSTs whose transitions have ε on both sides or on neither. If the FST has a successful path with these labels and this weight,
the function ends with `true` (also when there are cycles). -/
theorem C49_found_partial {f : Fst W} (hp : f.Paired) {i : StateId} (hi : f.start = some i) (p : FstPath W)
    (h : f.Accepts p.ilabels p.olabels p.weight) : EndsWith (f.checkPath p) (.ok true) := by
  obtain ⟨n, hn⟩ := h
  rw [accPaths_some hi] at hn
  have h1 := (todo_level hp (p := p) n [⟨i, 1, 0, 0⟩]).1 ⟨⟨i, 1, 0, 0⟩, by simp, p.weight, hn, one_mul _⟩
  obtain ⟨N, hN⟩ := (checkLoop_levels hp p (n + 1) [⟨i, 1, 0, 0⟩] (by simp)).1 ⟨n, by omega, h1⟩
  exact ⟨N, fun k hk => by unfold checkPath; rw [hi]; exact hN k hk⟩

/-- C49, same FSTs: when it returns `true` there is such a path, when it returns `false` there is none; it never panics. -/
theorem C49_sound_partial {f : Fst W} (hp : f.Paired) {i : StateId} (hi : f.start = some i) (p : FstPath W) (fuel : Nat) (r : R Bool)
    (h : f.checkPath p fuel = some r) : ∃ b, r = .ok b ∧ (b = true ↔ f.Accepts p.ilabels p.olabels p.weight) := by
  unfold checkPath at h
  rw [hi] at h
  simp only at h
  have hacc : f.Accepts p.ilabels p.olabels p.weight ↔ ∃ n, ∃ e ∈ [(⟨i, 1, 0, 0⟩ : Bfs W)], Todo f p n e := by
    unfold Accepts Todo
    simp [accPaths_some hi]
  have key : ∀ (n : Nat) (q : List (Bfs W)), (∀ e ∈ q, e.inext = e.onext) → ∀ r, f.checkLoop p n q = some r →
      ∃ b, r = .ok b ∧ (b = true ↔ ∃ n, ∃ e ∈ q, Todo f p n e) := by
    intro n
    induction n with
    | zero =>
      intro q _ r hr
      cases q with
      | nil => simp only [checkLoop, Option.some.injEq] at hr; exact ⟨false, hr.symm, by simp⟩
      | cons e q => simp [checkLoop] at hr
    | succ n ih =>
      intro q hq r hr
      cases q with
      | nil => simp only [checkLoop, Option.some.injEq] at hr; exact ⟨false, hr.symm, by simp⟩
      | cons e q =>
        simp only [checkLoop] at hr
        cases hc : f.checkEnd p e with
        | true =>
          rw [hc] at hr
          simp only [if_true, Option.some.injEq] at hr
          exact ⟨true, hr.symm, iff_of_true rfl ⟨0, e, by simp, todo_zero.2 hc⟩⟩
        | false =>
          rw [hc, checkTrs_paired p e (hq e (by simp)) _ (fun t ht => hp _ t ht)] at hr
          simp only [Bool.false_eq_true, if_false] at hr
          obtain ⟨b, hb, hiff⟩ := ih _ (by
            intro x hx
            rcases List.mem_append.1 hx with hx | hx
            · exact hq x (by simp [hx])
            · exact bfsExts_aligned (hq e (by simp)) x hx) r hr
          refine ⟨b, hb, hiff.trans ⟨?_, ?_⟩⟩
          · rintro ⟨m, x, hx, ht⟩
            rcases List.mem_append.1 hx with hx | hx
            · exact ⟨m, x, by simp [hx], ht⟩
            · exact ⟨m + 1, e, by simp, (todo_succ hp).2 ⟨x, hx, ht⟩⟩
          · rintro ⟨m, x, hx, ht⟩
            rcases List.mem_cons.1 hx with rfl | hx
            · cases m with
              | zero => rw [todo_zero] at ht; simp [hc] at ht
              | succ m =>
                obtain ⟨y, hy, hty⟩ := (todo_succ hp).1 ht
                exact ⟨m, y, List.mem_append_right _ hy, hty⟩
            · exact ⟨m, x, List.mem_append_left _ hx, ht⟩
  rw [hacc]
  exact key fuel _ (by simp) r h

/-- C49, same FSTs, without accessible cycle: the function ends, and tells whether there is such a path. -/
theorem C49_check_path_partial {f : Fst W} (hw : f.WF) (hp : f.Paired) {i : StateId} (hi : f.start = some i)
    (hac : ∀ s, f.Accessible s → ¬ f.OnCycle s) (p : FstPath W) :
    ∃ b, EndsWith (f.checkPath p) (.ok b) ∧ (b = true ↔ f.Accepts p.ilabels p.olabels p.weight) := by
  by_cases h : f.Accepts p.ilabels p.olabels p.weight
  · exact ⟨true, C49_found_partial hp hi p h, iff_of_true rfl h⟩
  · refine ⟨false, ?_, iff_of_false (by simp) h⟩
    have hno : ∀ k, (bfsLevel f p k [⟨i, 1, 0, 0⟩]).any (f.checkEnd p) = false := by
      intro k
      by_contra hc
      obtain ⟨e, he, w, ht, hwt⟩ := (todo_level hp k [⟨i, 1, 0, 0⟩]).2 (by simpa using hc)
      simp only [List.mem_singleton] at he
      subst he
      simp only [one_mul] at hwt
      subst hwt
      exact h ⟨k, by rw [accPaths_some hi]; exact ht⟩
    obtain ⟨m, hm⟩ := (checkLoop_levels hp p f.numStates [⟨i, 1, 0, 0⟩] (by simp)).2 fun k _ => hno k
    have hnil : bfsLevel f p f.numStates [⟨i, 1, 0, 0⟩] = [] := by
      rw [List.eq_nil_iff_forall_not_mem]
      intro e he
      obtain ⟨e0, h0, c, h1, -, h2⟩ := mem_bfsLevel _ _ e he
      simp only [List.mem_singleton] at h0
      subst h0
      obtain ⟨k, -, h3, h4⟩ := cycle_of_long hw le_rfl (c := c) (by rw [h1]; exact hw.start_lt i hi) h2
      exact hac _ ⟨i, hi, by rw [h1] at h4; exact h4⟩ h3
    refine ⟨m, fun n hn => ?_⟩
    obtain ⟨j, rfl⟩ : ∃ j, n = m + j := ⟨n - m, by omega⟩
    unfold checkPath
    rw [hi]
    simp only [hm, hnil]
    cases j <;> rfl

/-! ## What is false -/

/-- 1:ε 2:6 ε:7 ε:7. -/
def exCheck : Fst Nat :=
  ((((((Fst.new.addStates 5).setStart 0).addTr 0 ⟨1, 0, 1, 1⟩).addTr 1 ⟨2, 6, 1, 2⟩).addTr 2 ⟨0, 7, 1, 3⟩).addTr 3 ⟨0, 7, 1, 4⟩).setFinal 4 1

theorem exCheck_paths (n : Nat) : exCheck.accPaths n = if n = 4 then {([1, 2], [6, 7, 7], 1)} else 0 := by
  have hlong : ∀ m, 5 ≤ m → ∀ s, exCheck.pathsFrom m s = 0 := by
    intro m hm
    induction m, hm using Nat.le_induction with
    | base =>
      intro s
      by_cases hs : s < 5
      · have : ∀ s < 5, exCheck.pathsFrom 5 s = 0 := by decide +kernel
        exact this s hs
      · exact pathsFrom_ge (Nat.le_of_not_lt hs) 5
    | succ m _ ih => intro s; rw [pathsFrom_succ]; simp [ih]
  rcases Nat.lt_or_ge n 5 with h | h
  · have : ∀ n < 5, exCheck.accPaths n = if n = 4 then {([1, 2], [6, 7, 7], 1)} else 0 := by decide +kernel
    exact this n h
  · rw [accPaths_some (i := 0) rfl, hlong n h, if_neg (by omega)]

/-- The function finds a path that is not there. -/
theorem C49_wrong_yes : exCheck.checkPath ⟨[1, 2], [5, 6, 7], 1⟩ 10 = some (.ok true) ∧ ¬ exCheck.Accepts [1, 2] [5, 6, 7] 1 := by
  refine ⟨by decide +kernel, fun ⟨n, hn⟩ => ?_⟩
  rw [exCheck_paths] at hn
  split at hn
  · simp at hn
  · simp at hn

/-- The function does not find a path that is there. -/
theorem C49_wrong_no : exCheck.checkPath ⟨[1, 2], [6, 7, 7], 1⟩ 10 = some (.ok false) ∧ exCheck.Accepts [1, 2] [6, 7, 7] 1 :=
  ⟨by decide +kernel, 4, by rw [exCheck_paths]; simp⟩

/-- The function panics: the index of the input labels is outside of the output labels. -/
theorem C49_panics : exCheck.checkPath ⟨[1, 2], [6], 1⟩ 10 = some (.error .panic) := by decide +kernel

/-- For an FST without start state, the function finds the empty path with weight one, although there is none. -/
theorem C49_startless {f : Fst W} (h : f.start = none) (n : Nat) : f.checkPath FstPath.default n = some (.ok true) ∧ ¬ f.Accepts [] [] 1 := by
  refine ⟨by simp [checkPath, h, FstPath.isEmpty, FstPath.default], fun ⟨k, hk⟩ => ?_⟩
  rw [accPaths_none h] at hk
  cases hk

/-! ## Example -/

/-- An acceptor with an ε-transition. -/
def exChk2 : Fst Nat := ((((Fst.new.addStates 3).setStart 0).addTr 0 ⟨1, 2, 3, 1⟩).addTr 1 ⟨0, 0, 5, 2⟩).setFinal 2 2

example : ∃ b, EndsWith (exChk2.checkPath ⟨[1], [2], 30⟩) (.ok b) ∧ (b = true ↔ exChk2.Accepts [1] [2] 30) := by
  have hall : ∀ s, ∀ t ∈ exChk2.trsOf s, s < t.nextstate ∧ (t.ilabel = EPS ↔ t.olabel = EPS) := by
    intro s
    by_cases hs : s < 3
    · have : ∀ s < 3, ∀ t ∈ exChk2.trsOf s, s < t.nextstate ∧ (t.ilabel = EPS ↔ t.olabel = EPS) := by decide +kernel
      exact this s hs
    · rw [trsOf_eq, List.getElem?_eq_none (show exChk2.states.length ≤ s from Nat.le_of_not_lt hs)]
      intro t ht; cases ht
  refine C49_check_path_partial (Fst.wf_of_wfB (by decide)) (fun s t ht => (hall s t ht).2) rfl ?_ ⟨[1], [2], 30⟩
  intro s _ hc
  have : ∀ a b, Relation.TransGen exChk2.Edge a b → a < b := by
    intro a b h
    induction h with
    | single h => obtain ⟨t, ht, rfl⟩ := h; exact (hall _ t ht).1
    | tail _ h ih => obtain ⟨t, ht, rfl⟩ := h; exact lt_trans ih (hall _ t ht).1
  exact lt_irrefl s (this s s hc)

end Verif
