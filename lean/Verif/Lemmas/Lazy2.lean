import Verif.Spec.Lazy2
import Verif.Spec.Lazy
import Verif.Lemmas.RandLoop
import Verif.Lemmas.Shape

/-!
# Delayed FSTs that compute a state at once (`LazyFst2`)

For operations whose states are those of a given FST: histories of queries, and `compute`.
-/

namespace Verif
universe u v w
set_option linter.unusedSectionVars false
open Fst Lz

variable {W : Type u} {C : Type v} {σ : Type w} {K : CacheOps W C} {cinv : C → Prop}

/-- The operations `O m` (with fuel `m`) compute, for the states below `n`, rows with the property `Row`. -/
structure Op2Law (O : Nat → LazyOp2 σ W) (n : Nat) (st : Option StateId) (P : Props) (Row : StateId → List (Tr W) × Option W → Prop)
    (inv : σ → Prop) : Prop where
  start : ∀ o, inv o → ∃ o', inv o' ∧ ∀ m, (O m).computeStart o = (.ok st, o')
  row : ∀ o, inv o → ∀ s, s < n → ∃ x o' N, (∀ m, N ≤ m → (O m).computeTrsFinal s o = (.ok x, o')) ∧ Row s x ∧ inv o'
  props : ∀ m, (O m).props = P
  start_lt : ∀ i, st = some i → i < n
  next_lt : ∀ s x, Row s x → ∀ t ∈ x.1, t.nextstate < n

/-- What the cache holds. -/
structure Coh2 (K : CacheOps W C) (cinv : C → Prop) (n : Nat) (st : Option StateId) (Row : StateId → List (Tr W) × Option W → Prop) (inv : σ → Prop)
    (z : Lz C σ) (rows : StateId → Option (List (Tr W) × Option W)) : Prop where
  cache : cinv z.cache
  op : inv z.op
  start : ∀ r, K.getStart z.cache = some r → r = st
  trs : ∀ s, K.getTrs z.cache s = (rows s).map (·.1)
  fin : ∀ s, K.getFinal z.cache s = (rows s).map (·.2)
  ok : ∀ s x, rows s = some x → s < n ∧ Row s x

/-- Nothing is taken back. -/
def LeRows (r r' : StateId → Option (List (Tr W) × Option W)) : Prop := ∀ s x, r s = some x → r' s = some x

theorem LeRows.refl (r : StateId → Option (List (Tr W) × Option W)) : LeRows r r := fun _ _ h => h
theorem LeRows.trans {r r' r'' : StateId → Option (List (Tr W) × Option W)} (h : LeRows r r') (h' : LeRows r' r'') : LeRows r r'' :=
  fun s x e => h' s x (h s x e)

/-- The FST has these rows. -/
def HasRows (g : Fst W) (r : StateId → Option (List (Tr W) × Option W)) : Prop := ∀ s x, r s = some x → g.trsOf s = x.1 ∧ g.finOf s = x.2

variable {O : Nat → LazyOp2 σ W} {n : Nat} {st : Option StateId} {P : Props} {Row : StateId → List (Tr W) × Option W → Prop} {inv : σ → Prop}

theorem coh2_new (L : CacheLaw K cinv) {o : σ} (ho : inv o) : Coh2 K cinv n st Row inv ⟨K.empty, o⟩ (fun _ => none) := by
  refine ⟨L.inv_empty, ho, fun r h => ?_, fun s => ?_, fun s => ?_, fun s x h => by cases h⟩
  · rw [L.start_empty] at h; cases h
  · simp [L.trs_empty]
  · simp [L.fin_empty]

theorem start2_spec (L : CacheLaw K cinv) (H : Op2Law O n st P Row inv) {z : Lz C σ} {rows} (h : Coh2 K cinv n st Row inv z rows) :
    ∃ z', Coh2 K cinv n st Row inv z' rows ∧ ∀ m, z.start2 K (O m) = (.ok st, z') := by
  cases hs : K.getStart z.cache with
  | some r => exact ⟨z, h, fun m => by unfold start2; rw [hs, h.start r hs]⟩
  | none =>
    obtain ⟨o', h1, h2⟩ := H.start z.op h.op
    refine ⟨⟨K.insertStart z.cache st, o'⟩, ⟨L.inv_start _ _ h.cache, h1, fun r hr => ?_, fun s => ?_, fun s => ?_, h.ok⟩, fun m => ?_⟩
    · rw [L.start_start _ _ h.cache] at hr; exact (Option.some.inj hr).symm
    · rw [L.trs_start _ _ _ h.cache, h.trs]
    · rw [L.fin_start _ _ _ h.cache, h.fin]
    · unfold start2; rw [hs]; simp only; rw [h2 m]

/-- A state that is computed, or is in the cache. -/
theorem row2_spec (L : CacheLaw K cinv) (H : Op2Law O n st P Row inv) {z : Lz C σ} {rows} (h : Coh2 K cinv n st Row inv z rows) {s : StateId}
    (hs : s < n) : ∃ z' rows' x N, Coh2 K cinv n st Row inv z' rows' ∧ LeRows rows rows' ∧ rows' s = some x ∧
      (∀ q, q ≠ s → rows' q = rows q) ∧
      ∀ m, N ≤ m → z.getTrs2 K (O m) s = (.ok x.1, z') ∧ z.finalWeight2 K (O m) s = (.ok x.2, z') := by
  cases hr : rows s with
  | some x =>
    refine ⟨z, rows, x, 0, h, LeRows.refl _, hr, fun _ _ => rfl, fun m _ => ⟨?_, ?_⟩⟩
    · unfold getTrs2; rw [h.trs, hr]; rfl
    · unfold finalWeight2; rw [h.fin, hr]; rfl
  | none =>
    obtain ⟨⟨l, w⟩, o', N, h1, h2, h3⟩ := H.row z.op h.op s hs
    refine ⟨⟨K.insertFinal (K.insertTrs z.cache s l) s w, o'⟩, fun q => if q = s then some (l, w) else rows q, (l, w), N, ?_, ?_, ?_, ?_, ?_⟩
    · have hc := L.inv_trs z.cache s l h.cache
      refine ⟨L.inv_fin _ _ _ hc, h3, fun r hr' => ?_, fun q => ?_, fun q => ?_, fun q x hx => ?_⟩
      · rw [L.start_fin _ _ _ hc, L.start_trs _ _ _ h.cache] at hr'
        exact h.start r hr'
      · rw [L.trs_fin _ _ _ _ hc, L.trs_trs _ _ _ _ h.cache, h.trs]
        by_cases hq : q = s <;> simp [hq]
      · rw [L.fin_fin _ _ _ _ hc, L.fin_trs _ _ _ _ h.cache, h.fin]
        by_cases hq : q = s <;> simp [hq]
      · split at hx
        · rename_i e; subst e; cases hx; exact ⟨hs, h2⟩
        · exact h.ok q x hx
    · intro q x hx
      simp only
      rw [if_neg (by rintro rfl; rw [hr] at hx; cases hx)]
      exact hx
    · simp
    · intro q hq; simp [hq]
    · intro m hm
      constructor
      · unfold getTrs2; rw [h.trs, hr]; simp only [Option.map_none]; rw [h1 m hm]
      · unfold finalWeight2; rw [h.fin, hr]; simp only [Option.map_none]; rw [h1 m hm]

/-- The computed states are those asked for. -/
def Asked (before : List Query2) (rows : StateId → Option (List (Tr W) × Option W)) : Prop :=
  ∀ s, (rows s).isSome = before.any (·.computes s)

theorem asked_new : Asked [] (fun _ => none : StateId → Option (List (Tr W) × Option W)) := fun _ => rfl

theorem ask2_spec (L : CacheLaw K cinv) (H : Op2Law O n st P Row inv) {z : Lz C σ} {rows} (h : Coh2 K cinv n st Row inv z rows)
    {before : List Query2} (ha : Asked before rows) (q : Query2) (hq : q.Below n) :
    ∃ z' rows' N, Coh2 K cinv n st Row inv z' rows' ∧ LeRows rows rows' ∧ Asked (before ++ [q]) rows' ∧
      ∀ g : Fst W, g.start = st → HasRows g rows' → ∀ m, N ≤ m → z.ask2 K (O m) q = (g.answer before q, z') := by
  have same : (∀ s, q.computes s = false) → Asked (before ++ [q]) rows := by
    intro h s
    rw [List.any_append, ha s]
    simp [h s]
  have one : ∀ s rows' x, (∀ p, q.computes p = (s == p)) → rows' s = some x → (∀ p, p ≠ s → rows' p = rows p) → Asked (before ++ [q]) rows' := by
    intro s rows' x hc hs ho p
    rw [List.any_append, ← ha p]
    by_cases hp : p = s
    · subst hp; simp [hs, hc]
    · rw [ho p hp]; simp [hc, Ne.symm hp]
  have num : ∀ (s : StateId) (k : List (Tr W) → Nat) (g : Fst W), HasRows g rows →
      okOr (((rows s).map (·.1)).map k) = Fst.counted before s (k (g.trsOf s)) := by
    intro s k g hg
    unfold Fst.counted
    rw [← ha s]
    cases hr : rows s with
    | none => rfl
    | some x => rw [(hg s x hr).1]; rfl
  cases q with
  | start =>
    obtain ⟨z', h1, h2⟩ := start2_spec L H h
    refine ⟨z', rows, 0, h1, LeRows.refl _, same fun _ => rfl, fun g hg _ m _ => ?_⟩
    simp only [ask2, h2 m, Fst.answer, hg]
  | fin s =>
    obtain ⟨z', rows', x, N, h1, h2, h3, h4, h5⟩ := row2_spec L H h hq
    refine ⟨z', rows', N, h1, h2, one s rows' x (fun _ => rfl) h3 h4, fun g _ hg m hm => ?_⟩
    simp only [ask2, (h5 m hm).2, Fst.answer, (hg s x h3).2]
  | trs s =>
    obtain ⟨z', rows', x, N, h1, h2, h3, h4, h5⟩ := row2_spec L H h hq
    refine ⟨z', rows', N, h1, h2, one s rows' x (fun _ => rfl) h3 h4, fun g _ hg m hm => ?_⟩
    simp only [ask2, (h5 m hm).1, Fst.answer, (hg s x h3).1]
  | numTrs s =>
    refine ⟨z, rows, 0, h, LeRows.refl _, same fun _ => rfl, fun g _ hg m _ => ?_⟩
    simp only [ask2, Lz.numTrs, Fst.answer, L.num_trs _ _ h.cache, h.trs]
    rw [num s List.length g hg]
  | numIEps s =>
    refine ⟨z, rows, 0, h, LeRows.refl _, same fun _ => rfl, fun g _ hg m _ => ?_⟩
    simp only [ask2, Lz.numIEps, Fst.answer, L.num_ieps _ _ h.cache, h.trs]
    rw [num s (fun l => l.countP (fun t => t.ilabel == EPS)) g hg]
  | numOEps s =>
    refine ⟨z, rows, 0, h, LeRows.refl _, same fun _ => rfl, fun g _ hg m _ => ?_⟩
    simp only [ask2, Lz.numOEps, Fst.answer, L.num_oeps _ _ h.cache, h.trs]
    rw [num s (fun l => l.countP (fun t => t.olabel == EPS)) g hg]

theorem run2_spec (L : CacheLaw K cinv) (H : Op2Law O n st P Row inv) : ∀ (qs : List Query2) {z : Lz C σ} {rows}
    (_ : Coh2 K cinv n st Row inv z rows) {before : List Query2} (_ : Asked before rows) (_ : ∀ q ∈ qs, q.Below n),
    ∃ z' rows' N, Coh2 K cinv n st Row inv z' rows' ∧ LeRows rows rows' ∧
      ∀ g : Fst W, g.start = st → HasRows g rows' → ∀ m, N ≤ m → z.run2 K (O m) qs = (g.answers before qs, z')
  | [], z, rows, h, _, _, _ => ⟨z, rows, 0, h, LeRows.refl _, fun _ _ _ _ _ => rfl⟩
  | q :: qs, z, rows, h, before, ha, hq => by
    obtain ⟨z1, rows1, N1, h1, h2, h3, h4⟩ := ask2_spec L H h ha q (hq q (by simp))
    obtain ⟨z2, rows2, N2, h5, h6, h7⟩ := run2_spec L H qs h1 h3 (fun p hp => hq p (by simp [hp]))
    refine ⟨z2, rows2, max N1 N2, h5, h2.trans h6, fun g hg hr m hm => ?_⟩
    have e1 := h4 g hg (fun s x e => hr s x (h6 s x e)) m (by omega)
    have e2 := h7 g hg hr m (by omega)
    simp only [run2, e1, e2, Fst.answers]

/-! ## A machine with all the rows -/

/-- The FST with the given rows. -/
def rowsFst (n : Nat) (st : Option StateId) (P : Props) (x : StateId → List (Tr W) × Option W) : Fst W :=
  ⟨(List.range n).map fun s => ⟨(x s).2, (x s).1, (x s).1.countP (fun t => t.ilabel == EPS), (x s).1.countP (fun t => t.olabel == EPS)⟩, st, P⟩

theorem rowsFst_num (x : StateId → List (Tr W) × Option W) : (rowsFst n st P x).numStates = n := by
  simp [rowsFst, Fst.numStates]

theorem rowsFst_trs (x : StateId → List (Tr W) × Option W) (s : StateId) : (rowsFst n st P x).trsOf s = if s < n then (x s).1 else [] := by
  rw [trsOf_eq]
  by_cases h : s < n
  · simp [rowsFst, h]
  · simp [rowsFst, h]

theorem rowsFst_fin (x : StateId → List (Tr W) × Option W) (s : StateId) : (rowsFst n st P x).finOf s = if s < n then (x s).2 else none := by
  rw [finOf_eq]
  by_cases h : s < n
  · simp [rowsFst, h]
  · simp [rowsFst, h]

/-- All that is in the cache, and more, is in one FST. -/
theorem complete2 (H : Op2Law O n st P Row inv) {z : Lz C σ} {rows} (h : Coh2 K cinv n st Row inv z rows) :
    ∃ x : StateId → List (Tr W) × Option W, (∀ s, s < n → Row s (x s)) ∧ HasRows (rowsFst n st P x) rows := by
  have : ∀ s, ∃ x : List (Tr W) × Option W, (s < n → Row s x) ∧ ∀ y, rows s = some y → x = y := by
    intro s
    cases hr : rows s with
    | some y => exact ⟨y, fun _ => (h.ok s y hr).2, fun y' e => Option.some.inj e⟩
    | none =>
      by_cases hs : s < n
      · obtain ⟨x, -, -, -, h2, -⟩ := H.row z.op h.op s hs
        exact ⟨x, fun _ => h2, fun y e => by cases e⟩
      · exact ⟨([], none), fun e => absurd e hs, fun y e => by cases e⟩
  choose x hx hy using this
  refine ⟨x, hx, fun s y e => ?_⟩
  have hs := (h.ok s y e).1
  rw [rowsFst_trs, rowsFst_fin, if_pos hs, if_pos hs, hy s y e]
  exact ⟨rfl, rfl⟩

/-! ## `compute` -/

section
variable [Zero W] [One W] [DecidableEq W]

theorem scan2_spec (s : StateId) : ∀ (l : List (Tr W)) (q vis : List StateId) (out : Fst W), s < out.numStates → vis.Nodup →
    ∃ new vis' out', Lz.scan2 s l q vis out = (q ++ new, vis', out') ∧ (∀ x, x ∈ vis' ↔ x ∈ vis ∨ x ∈ new) ∧ vis'.Nodup ∧
      vis'.length = vis.length + new.length ∧ new.Nodup ∧ (∀ x ∈ new, x ∉ vis) ∧ (∀ x ∈ new, ∃ t ∈ l, t.nextstate = x) ∧
      (∀ t ∈ l, t.nextstate ∈ vis' ∧ t.nextstate < out'.numStates) ∧ out.numStates ≤ out'.numStates ∧ out'.start = out.start ∧
      (∀ x, out'.finOf x = out.finOf x) ∧ (∀ x, out'.trsOf x = if x = s then out.trsOf s ++ l else out.trsOf x) ∧
      (out.AllCounters → out'.AllCounters)
  | [], q, vis, out, hs, hn => ⟨[], vis, out, by simp [Lz.scan2], by simp, hn, rfl, by simp, by simp, by simp, by simp, le_rfl, rfl, fun _ => rfl,
      fun x => by split <;> simp [*], id⟩
  | t :: ts, q, vis, out, hs, hn => by
    rw [Lz.scan2]
    have hlt : t.nextstate < (out.addStates (t.nextstate + 1 - out.numStates)).numStates := by simp only [Fst.addStates_numStates]; omega
    have hs' : s < (out.addStates (t.nextstate + 1 - out.numStates)).numStates := by simp only [Fst.addStates_numStates]; omega
    have key : ∀ q1 vis1, vis1.Nodup → (∀ x, x ∈ vis1 ↔ x ∈ vis ∨ x = t.nextstate) →
        ∃ new vis' out', Lz.scan2 s ts q1 vis1 ((out.addStates (t.nextstate + 1 - out.numStates)).addTr s t) = (q1 ++ new, vis', out') ∧
        (∀ x, x ∈ vis' ↔ x ∈ vis1 ∨ x ∈ new) ∧ vis'.Nodup ∧
        vis'.length = vis1.length + new.length ∧ new.Nodup ∧ (∀ x ∈ new, x ∉ vis1) ∧ (∀ x ∈ new, ∃ u ∈ t :: ts, u.nextstate = x) ∧
        (∀ u ∈ t :: ts, u.nextstate ∈ vis' ∧ u.nextstate < out'.numStates) ∧ out.numStates ≤ out'.numStates ∧ out'.start = out.start ∧
        (∀ x, out'.finOf x = out.finOf x) ∧ (∀ x, out'.trsOf x = if x = s then out.trsOf s ++ t :: ts else out.trsOf x) ∧
        (out.AllCounters → out'.AllCounters) := by
      intro q1 vis1 hn1 hv1
      obtain ⟨new, vis', out', h1, h2, h3, h4, h5, h6, h7, h8, h9, h10, h11, h12, h13⟩ := scan2_spec s ts q1 vis1
        ((out.addStates (t.nextstate + 1 - out.numStates)).addTr s t) (by simpa using hs') hn1
      rw [Fst.addTr_numStates] at h9
      refine ⟨new, vis', out', h1, h2, h3, h4, h5, h6, ?_, ?_, ?_, ?_, ?_, ?_, ?_⟩
      · intro x hx
        obtain ⟨u, hu, e⟩ := h7 x hx
        exact ⟨u, by simp [hu], e⟩
      · intro u hu
        rcases List.mem_cons.1 hu with rfl | hu
        · exact ⟨(h2 _).2 (.inl ((hv1 _).2 (.inr rfl))), by omega⟩
        · exact h8 u hu
      · simp only [Fst.addStates_numStates] at h9; omega
      · rw [h10]; simp
      · intro x; rw [h11]; simp
      · intro x
        rw [h12]
        by_cases hx : x = s
        · rw [if_pos hx, if_pos hx, Fst.addTr_trsOf, if_pos ⟨rfl, hs'⟩, Fst.addStates_trsOf]
          simp
        · rw [if_neg hx, if_neg hx, Fst.addTr_trsOf, if_neg (by tauto), Fst.addStates_trsOf]
      · exact fun hc => h13 (Fst.allCounters_addTr (Fst.allCounters_addStates hc _) _ _)
    by_cases hm : t.nextstate ∈ vis
    · simp only [hm, if_true]
      obtain ⟨new, vis', out', h⟩ := key q vis hn (fun x => ⟨.inl, by rintro (h | rfl) <;> assumption⟩)
      exact ⟨new, vis', out', h⟩
    · simp only [hm, if_false]
      obtain ⟨new, vis', out', h1, h2, h3, h4, h5, h6, h7, h8⟩ := key (q ++ [t.nextstate]) (t.nextstate :: vis) (List.nodup_cons.2 ⟨hm, hn⟩)
        (fun x => by simp only [List.mem_cons]; tauto)
      refine ⟨t.nextstate :: new, vis', out', by rw [h1]; simp, fun x => ?_, h3, by rw [h4]; simp; omega, ?_, ?_, ?_, h8⟩
      · rw [h2 x]; simp only [List.mem_cons]; tauto
      · exact List.nodup_cons.2 ⟨fun h => h6 _ h (by simp), h5⟩
      · intro x hx
        rcases List.mem_cons.1 hx with rfl | hx
        · exact hm
        · exact fun h => h6 x hx (by simp [h])
      · intro x hx
        rcases List.mem_cons.1 hx with rfl | hx
        · exact ⟨t, by simp, rfl⟩
        · exact h7 x hx

/-- What is known inside the loop. -/
structure Comp2 (n : Nat) (i : StateId) (rows : StateId → Option (List (Tr W) × Option W)) (q vis : List StateId) (out : Fst W) : Prop where
  vis_lt : ∀ s ∈ vis, s < n ∧ s < out.numStates
  nodup : vis.Nodup
  qdup : q.Nodup
  sub : ∀ s ∈ q, s ∈ vis
  start : out.start = some i
  first : i ∈ vis
  done : ∀ s ∈ vis, s ∉ q → ∃ x, rows s = some x ∧ out.trsOf s = x.1 ∧ out.finOf s = x.2 ∧ ∀ t ∈ x.1, t.nextstate ∈ vis
  todo : ∀ s, s ∉ vis ∨ s ∈ q → out.trsOf s = [] ∧ out.finOf s = none
  counters : out.AllCounters

theorem computeLoop2_spec (L : CacheLaw K cinv) (H : Op2Law O n st P Row inv) {i : StateId} : ∀ (k : Nat) (q vis : List StateId) (out : Fst W)
    (z : Lz C σ) (rows), (n - vis.length) + q.length ≤ k → Coh2 K cinv n st Row inv z rows → Comp2 n i rows q vis out →
    ∃ vis' out' z' rows' N, Coh2 K cinv n st Row inv z' rows' ∧ LeRows rows rows' ∧ Comp2 n i rows' [] vis' out' ∧
      ∀ m, N ≤ m → ∀ j, k < j → computeLoop2 K (O m) j q vis out z = some (.ok out', z') := by
  intro k
  induction k with
  | zero =>
    intro q vis out z rows hk hc hi
    have : q = [] := List.eq_nil_of_length_eq_zero (by omega)
    subst this
    refine ⟨vis, out, z, rows, 0, hc, LeRows.refl _, hi, fun m _ j hj => ?_⟩
    obtain ⟨j, rfl⟩ : ∃ j', j = j' + 1 := ⟨j - 1, by omega⟩
    rfl
  | succ k ih =>
    intro q vis out z rows hk hc hi
    cases q with
    | nil =>
      refine ⟨vis, out, z, rows, 0, hc, LeRows.refl _, hi, fun m _ j hj => ?_⟩
      obtain ⟨j, rfl⟩ : ∃ j', j = j' + 1 := ⟨j - 1, by omega⟩
      rfl
    | cons s q =>
      have hsv := hi.sub s (by simp)
      obtain ⟨hsn, hso⟩ := hi.vis_lt s hsv
      obtain ⟨z1, rows1, x, N1, a1, a2, a3, a4, a5⟩ := row2_spec L H hc hsn
      obtain ⟨z2, rows2, x', N2, b1, b2, b3, b4, b5⟩ := row2_spec L H a1 hsn
      obtain rfl : x' = x := by
        have := b2 s x a3
        rw [b3] at this
        exact Option.some.inj this
      obtain ⟨new, vis', out', h1, h2, h3, h4, h5, h6, h7, h8, h9, h10, h11, h12, h13⟩ := scan2_spec s x'.1 q vis out hso hi.nodup
      have hx := (b1.ok s x' b3).2
      have hvn : ∀ y ∈ vis', y < n := by
        intro y hy
        rcases (h2 y).1 hy with hy | hy
        · exact (hi.vis_lt y hy).1
        · obtain ⟨t, ht, rfl⟩ := h7 y hy
          exact H.next_lt s x' hx t ht
      have hlen : vis'.length ≤ n := by
        have := (List.subperm_of_subset h3 (fun y hy => List.mem_range.2 (hvn y hy))).length_le
        simpa using this
      have hq := List.nodup_cons.1 hi.qdup
      have htodo := hi.todo s (.inr (by simp))
      have hi' : Comp2 n i rows2 (q ++ new) vis' (Lz.putFinal out' s x'.2) := by
        refine ⟨fun y hy => ⟨hvn y hy, ?_⟩, h3, ?_, ?_, ?_, ?_, ?_, ?_, ?_⟩
        · rw [putFinal_num]
          rcases (h2 y).1 hy with hy | hy
          · exact lt_of_lt_of_le (hi.vis_lt y hy).2 h9
          · obtain ⟨t, ht, rfl⟩ := h7 y hy
            exact (h8 t ht).2
        · refine List.nodup_append'.2 ⟨hq.2, h5, fun y hy hy' => h6 y hy' (hi.sub y (by simp [hy]))⟩
        · intro y hy
          rcases List.mem_append.1 hy with hy | hy
          · exact (h2 y).2 (.inl (hi.sub y (by simp [hy])))
          · exact (h2 y).2 (.inr hy)
        · rw [putFinal_start, h10, hi.start]
        · exact (h2 i).2 (.inl hi.first)
        · intro y hy hyq
          rw [putFinal_trsOf, putFinal_finOf _ _ _ (by omega) (by rw [h11]; exact htodo.2), h12, h11]
          by_cases hys : y = s
          · subst hys
            refine ⟨x', b3, by rw [if_pos rfl, htodo.1, List.nil_append], by rw [if_pos rfl], fun t ht => (h8 t ht).1⟩
          · rw [if_neg hys, if_neg hys]
            have hyv : y ∈ vis := by
              rcases (h2 y).1 hy with h | h
              · exact h
              · exact absurd (List.mem_append.2 (.inr h)) hyq
            obtain ⟨w, c1, c2, c3, c4⟩ := hi.done y hyv (by
              rintro h
              rcases List.mem_cons.1 h with h | h
              · exact hys h
              · exact hyq (List.mem_append.2 (.inl h)))
            exact ⟨w, b2 _ _ (a2 _ _ c1), c2, c3, fun t ht => (h2 _).2 (.inl (c4 t ht))⟩
        · intro y hy
          rw [putFinal_trsOf, putFinal_finOf _ _ _ (by omega) (by rw [h11]; exact htodo.2), h12, h11]
          have hys : y ≠ s := by
            rintro rfl
            rcases hy with hy | hy
            · exact hy ((h2 y).2 (.inl hsv))
            · rcases List.mem_append.1 hy with hy | hy
              · exact hq.1 hy
              · exact h6 y hy hsv
          rw [if_neg hys, if_neg hys]
          refine hi.todo y ?_
          rcases hy with hy | hy
          · exact .inl fun h => hy ((h2 y).2 (.inl h))
          · rcases List.mem_append.1 hy with hy | hy
            · exact .inr (by simp [hy])
            · exact .inl (h6 y hy)
        · cases hx2 : x'.2 with
          | none => exact h13 hi.counters
          | some w => exact Fst.allCounters_setFinal (h13 hi.counters) _ _
      obtain ⟨vis'', out'', z'', rows'', N, c1, c2, c3, c4⟩ := ih (q ++ new) vis' (Lz.putFinal out' s x'.2) z2 rows2
        (by
          have := hi.nodup
          simp only [List.length_append, List.length_cons] at *
          omega) b1 hi'
      refine ⟨vis'', out'', z'', rows'', max N (max N1 N2), c1, (a2.trans b2).trans c2, c3, fun m hm j hj => ?_⟩
      obtain ⟨j, rfl⟩ : ∃ j', j = j' + 1 := ⟨j - 1, by omega⟩
      rw [computeLoop2, (a5 m (by omega)).1]
      simp only
      rw [h1]
      simp only
      rw [(b5 m (by omega)).2]
      exact c4 m (by omega) j (by omega)

/-- What `compute` returns: the rows of the states that can be reached, and the flags of the operation. -/
theorem compute2_spec (L : CacheLaw K cinv) (H : Op2Law O n st P Row inv) {z : Lz C σ} {rows} (h : Coh2 K cinv n st Row inv z rows) {i : StateId}
    (hi : st = some i) : ∃ vis out z' rows' N, Coh2 K cinv n st Row inv z' rows' ∧ LeRows rows rows' ∧ Comp2 n i rows' [] vis out ∧
      ∀ m, N ≤ m → ∀ j, n < j → compute2 K (O m) j z = some (.ok (out.setProps P), z') := by
  obtain ⟨z1, h1, h2⟩ := start2_spec L H h
  have hin := H.start_lt i hi
  have h0 : Comp2 n i rows [i] [i] (((Fst.new : Fst W).addStates (i + 1)).setStart i) := by
    refine ⟨by simp [hin], by simp, by simp, by simp, rfl, by simp, by simp, fun s _ => ?_,
      Fst.allCounters_setStart (Fst.allCounters_addStates Fst.allCounters_new _) _⟩
    simp only [Fst.setStart_trsOf, Fst.setStart_finOf, Fst.addStates_trsOf, Fst.addStates_finOf]
    exact ⟨trsOf_of_ge (Nat.zero_le s), finOf_of_ge (Nat.zero_le s)⟩
  obtain ⟨vis, out, z', rows', N, c1, c2, c3, c4⟩ := computeLoop2_spec L H n [i] [i] _ z1 rows (by simp only [List.length_singleton]; omega) h1 h0
  refine ⟨vis, out, z', rows', N, c1, c2, c3, fun m hm j hj => ?_⟩
  unfold compute2
  rw [h2 m, hi]
  simp only
  rw [c4 m hm j hj]
  simp only [H.props m]

end
end Verif
