import Verif.Lemmas.LazyThreads

/-! # C36: lazy FST answers do not depend on the query history -/

namespace Verif
universe u v w x
variable {W : Type u} {C : Type v} {σ : Type w} {T : Type x}
open Lz

/-- C36: all three cache implementations obey the law of caches. -/
theorem C36_caches : (∃ inv, CacheLaw (vecCache (W := W)) inv) ∧ (∃ inv, CacheLaw (mapCache (W := W)) inv) ∧
    (∃ inv, CacheLaw (lastCache (vecCache (W := W))) inv) ∧ (∃ inv, CacheLaw (lastCache (mapCache (W := W))) inv) :=
  ⟨⟨_, vecCache_law⟩, ⟨_, mapCache_law⟩, ⟨_, lastCache_law vecCache_law⟩, ⟨_, lastCache_law mapCache_law⟩⟩

/-- C36: an operation that numbers its tuples with a state table obeys the law of operations, for the machine it computes. -/
theorem C36_table_op [DecidableEq T] (O : TupleOp T W) (M : Machine T W) (hstart : O.start = .ok M.start)
    (htrs : ∀ t, M.Reach t → O.trs t = .ok (M.trs t)) (hfin : ∀ t, M.Reach t → O.fin t = .ok (M.fin t)) :
    ∃ inv, OpLaw (O.withTable BiMap.findId BiMap.findTuple) M BiMap.tup inv ∧ inv BiMap.new :=
  ⟨_, TupleOp.law BiMap.law BiMap.findTuple_eq O M hstart htrs hfin, BiMap.ok_new, fun s t h => by simp [BiMap.tup, BiMap.new] at h⟩

/-- C36: whatever a client asks a fresh lazy FST, in whatever order, however often, with the cache cleared in between or not, every
answer is the value the operation computes: there is one naming of tuples by ids, the same for the whole history and one to one,
under which all answers are those of the machine. In particular no query fails or panics. -/
theorem C36_history {K : CacheOps W C} {cinv : C → Prop} {O : LazyOp σ W} {M : Machine T W} {name : σ → StateId → Option T}
    {oinv : σ → Prop} (L : CacheLaw K cinv) (OL : OpLaw O M name oinv) {o : σ} (ho : oinv o) (h : List Query)
    (hf : Fair K O (fun _ => False) ⟨K.empty, o⟩ h) :
    ∃ nm, OneName nm ∧ ∀ p ∈ ((⟨K.empty, o⟩ : Lz C σ).run K O h).1, Correct M nm p.1 p.2 := by
  obtain ⟨h1, _, h3⟩ := run_coh L OL h _ _ (coh_fresh L ho) (fun _ hs => hs.elim) hf
  exact ⟨_, OL.one _ h1.op, h3⟩

/-- C36: a query repeated later in the history, whatever was asked in between, gets literally the same answer. -/
theorem C36_repeat {K : CacheOps W C} {cinv : C → Prop} {O : LazyOp σ W} {M : Machine T W} {name : σ → StateId → Option T}
    {oinv : σ → Prop} (L : CacheLaw K cinv) (OL : OpLaw O M name oinv) {o : σ} (ho : oinv o) (h : List Query)
    (hf : Fair K O (fun _ => False) ⟨K.empty, o⟩ h) {q : Query} {a b : Answer W} (hq : q = .start ∨ ∃ s, q = .fin s ∨ q = .trs s)
    (ha : (q, a) ∈ ((⟨K.empty, o⟩ : Lz C σ).run K O h).1) (hb : (q, b) ∈ ((⟨K.empty, o⟩ : Lz C σ).run K O h).1) : a = b := by
  obtain ⟨nm, h1, h2⟩ := C36_history L OL ho h hf
  have ca := h2 _ ha
  have cb := h2 _ hb
  rcases hq with rfl | ⟨s, rfl | rfl⟩
  · cases a <;> cases b <;> simp only [Correct] at ca cb
    obtain ⟨r, rfl, hr⟩ := ca
    obtain ⟨r', rfl, hr'⟩ := cb
    generalize M.start = ms at hr hr'
    cases hr with
    | none => cases hr'; rfl
    | some e =>
      cases hr' with
      | some e' => rw [h1 _ _ _ e e']
  · cases a <;> cases b <;> simp only [Correct] at ca cb
    obtain ⟨t, e, rfl⟩ := ca
    obtain ⟨t', e', rfl⟩ := cb
    rw [e] at e'; injection e' with e'; rw [e']
  · cases a <;> cases b <;> simp only [Correct] at ca cb
    obtain ⟨t, l, e, rfl, hl⟩ := ca
    obtain ⟨t', l', e', rfl, hl'⟩ := cb
    rw [e] at e'; injection e' with e'; subst e'
    rw [names_unique h1 hl hl']

/-- C36, the counting queries: right after the transitions of a state were asked for, they give the right counts. -/
theorem C36_counts {K : CacheOps W C} {cinv : C → Prop} {O : LazyOp σ W} {M : Machine T W} {name : σ → StateId → Option T}
    {oinv : σ → Prop} (L : CacheLaw K cinv) (OL : OpLaw O M name oinv) {o : σ} (ho : oinv o) (h : List Query)
    (hf : Fair K O (fun _ => False) ⟨K.empty, o⟩ h) {s : StateId} {l : List (Tr W)}
    (hl : (((⟨K.empty, o⟩ : Lz C σ).run K O h).2.getTrs K O s).1 = .ok l)
    (hs : (name ((⟨K.empty, o⟩ : Lz C σ).run K O h).2.op s).isSome) :
    let z := (((⟨K.empty, o⟩ : Lz C σ).run K O h).2.getTrs K O s).2
    z.numTrs K s = .ok l.length ∧ z.numIEps K s = .ok (l.countP (fun t => t.ilabel == EPS)) ∧
      z.numOEps K s = .ok (l.countP (fun t => t.olabel == EPS)) := by
  obtain ⟨h1, _, _⟩ := run_coh L OL h _ _ (coh_fresh L ho) (fun _ hs => hs.elim) hf
  obtain ⟨t, ht⟩ := Option.isSome_iff_exists.1 hs
  obtain ⟨g1, _, _⟩ := trs_coh L OL h1 ht
  intro z
  have hc : K.getTrs z.cache s = some l := by
    obtain ⟨y, hy⟩ : ∃ y, y = ((⟨K.empty, o⟩ : Lz C σ).run K O h).2 := ⟨_, rfl⟩
    have hz : z = (y.getTrs K O s).2 := by rw [hy]
    rw [← hy] at hl h1
    rw [hz]
    unfold Lz.getTrs at hl ⊢
    cases hc : K.getTrs y.cache s with
    | some l' => rw [hc] at hl; simp only [Except.ok.injEq] at hl ⊢; rw [hc, hl]
    | none =>
      rw [hc] at hl
      rcases hcs : O.computeTrs s y.op with ⟨a, o'⟩
      rw [hcs] at hl
      cases a with
      | error e => simp at hl
      | ok l' =>
        simp only [Except.ok.injEq] at hl ⊢
        rw [L.trs_trs _ _ _ _ h1.cache, if_pos rfl, hl]
  have hcz : cinv z.cache := g1.cache
  simp only [Lz.numTrs, Lz.numIEps, Lz.numOEps, L.num_trs _ _ hcz, L.num_ieps _ _ hcz, L.num_oeps _ _ hcz, hc]
  exact ⟨rfl, rfl, rfl⟩

/-- C36 fails for the counting queries of a fresh lazy FST: `num_trs`, `num_input_epsilons` and `num_output_epsilons` say of every
state, also of the start state, that it does not exist, until its transitions have been asked for. -/
theorem C36_counts_unasked {K : CacheOps W C} {cinv : C → Prop} (L : CacheLaw K cinv) (o : σ) (s : StateId) :
    (⟨K.empty, o⟩ : Lz C σ).numTrs K s = .error .err ∧ (⟨K.empty, o⟩ : Lz C σ).numIEps K s = .error .err ∧
    (⟨K.empty, o⟩ : Lz C σ).numOEps K s = .error .err := by
  simp only [Lz.numTrs, Lz.numIEps, Lz.numOEps, L.num_trs _ _ L.inv_empty, L.num_ieps _ _ L.inv_empty, L.num_oeps _ _ L.inv_empty,
    L.trs_empty]
  exact ⟨rfl, rfl, rfl⟩

/-- C36, shared by threads: whatever queries any number of threads issue, and however their atomic steps are interleaved, at every
moment all finished answers are those of the machine under one one-to-one naming of tuples. -/
theorem C36_threads [DecidableEq T] {K : CacheOps W C} {cinv : C → Prop} (L : CacheLaw K cinv) (O : TupleOp T W) (M : Machine T W)
    (hstart : O.start = .ok M.start) (htrs : ∀ t, M.Reach t → O.trs t = .ok (M.trs t)) (hfin : ∀ t, M.Reach t → O.fin t = .ok (M.fin t))
    (es : List Event) (hf : Conf.Fair K O BiMap.findId BiMap.findTuple ⟨K.empty, BiMap.new, []⟩ es) :
    ∃ nm, OneName nm ∧ ∀ q a, Thread.done q a ∈
      ((⟨K.empty, BiMap.new, []⟩ : Conf C (BiMap T) T W).schedule K O BiMap.findId BiMap.findTuple es).threads → Correct M nm q a := by
  have h := schedule_ok (inv := BiMap.Ok) L BiMap.law BiMap.findTuple_eq hstart htrs hfin es ⟨K.empty, BiMap.new, []⟩
    ⟨coh_fresh L ⟨BiMap.ok_new, fun s t h => by simp [BiMap.tup, BiMap.new] at h⟩, by simp⟩ hf
  exact ⟨_, fun a b t => BiMap.law.inj _ h.coh.op.1 a b t, fun q a hm => (h.threads _ hm).1⟩

/-! ### A concrete case

The machine counts down from a pair: from `(a, b)` it reads 1 and goes to `(a - 1, b)`, or reads 2 and goes to `(a, b - 1)`. -/

/-- An operation on pairs. -/
def exDown : TupleOp (Nat × Nat) Nat where
  start := .ok (some (1, 1))
  trs t := .ok ((if t.1 = 0 then [] else [⟨1, 0, 2, (t.1 - 1, t.2)⟩]) ++ (if t.2 = 0 then [] else [⟨2, 2, 3, (t.1, t.2 - 1)⟩]))
  fin t := .ok (if t = (0, 0) then some 1 else none)
  props := Props.nullMask

/-- Its machine. -/
def exDownM : Machine (Nat × Nat) Nat where
  start := some (1, 1)
  trs t := (if t.1 = 0 then [] else [⟨1, 0, 2, (t.1 - 1, t.2)⟩]) ++ (if t.2 = 0 then [] else [⟨2, 2, 3, (t.1, t.2 - 1)⟩])
  fin t := if t = (0, 0) then some 1 else none

example : ∃ inv, OpLaw (exDown.withTable BiMap.findId BiMap.findTuple) exDownM BiMap.tup inv ∧ inv BiMap.new :=
  C36_table_op _ _ rfl (fun _ _ => rfl) (fun _ _ => rfl)

/-- A history that meets the hypothesis: the numbering depends on it, the answers do not otherwise. -/
example : Fair vecCache (exDown.withTable BiMap.findId BiMap.findTuple) (fun _ => False) ⟨vecCache.empty, BiMap.new⟩
    [.start, .trs 0, .trs 2, .trs 1, .clear, .fin 3, .trs 0] := by
  simp [Fair, Query.about, ask, Answer.told, Lz.start, Lz.getTrs, exDown, TupleOp.withTable, nameAll, BiMap.findId, BiMap.findTuple,
    BiMap.lookup, BiMap.new, vecCache, vecGet, vecPut, scanTrs, knownStart]

/-- Two threads race for the transitions of the start state; both get the same answer. -/
example : ((⟨vecCache.empty, BiMap.new, []⟩ : Conf _ _ _ Nat).schedule vecCache exDown BiMap.findId BiMap.findTuple
    [.issue .start, .step 0, .step 0, .step 0, .issue (.trs 0), .issue (.trs 0), .step 1, .step 2, .step 2, .step 1, .step 2, .step 1,
     .step 1, .step 2, .step 2, .step 1, .step 1, .step 2]).threads =
    [.done .start (.start (.ok (some 0))), .done (.trs 0) (.trs (.ok [⟨1, 0, 2, 1⟩, ⟨2, 2, 3, 2⟩])),
     .done (.trs 0) (.trs (.ok [⟨1, 0, 2, 1⟩, ⟨2, 2, 3, 2⟩]))] := by rfl

end Verif
