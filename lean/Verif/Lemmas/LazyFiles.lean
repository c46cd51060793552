import Verif.Model.LazyFiles
import Verif.Props.C24
import Verif.Lemmas.LazyThreads

/-! # Reading back the interior of a lazy FST -/

namespace Verif
universe u v w x
variable {W : Type u} {T : Type v}

/-! ### What fits the files -/

/-- A tuple that its own codec reads back. -/
def TupFits [TupleCodec T] (t : T) : Prop := Reads TupleCodec.get (TupleCodec.put t) t

theorem tupFits_ctup {t : CTup Nat} (h : t.fs < 2 ^ 32 ∧ t.s1 < 2 ^ 32 ∧ t.s2 < 2 ^ 32) : TupFits t := by
  obtain ⟨h1, h2, h3⟩ := h
  refine (reads_getU (k := 8) (by omega)).bind ?_
  refine (reads_getU (k := 8) (by omega)).bind ?_
  refine (reads_getU (k := 8) (n := t.s2) (by omega)).map' ?_
  rw [toU_nat h1, toU_nat h2, toU_nat h3]

theorem stable_ctup : Stable (TupleCodec.get (T := CTup Nat)) :=
  (stable_getU 8).bind fun _ => (stable_getU 8).bind fun _ => (stable_getU 8).bind fun _ => stable_pure _

section
variable [WeightCodec W]

/-- A final weight that fits. -/
def FinFits (o : Option W) : Prop := ∀ w, o = some w → CodecOk w

/-- The transitions of a state fit. -/
structure CacheTrs.Fits (c : CacheTrs W) : Prop where
  trs : ∀ t ∈ c.trs, TrFits t
  len : c.trs.length < 2 ^ 64
  ieps : c.niepsilons < 2 ^ 64
  oeps : c.noepsilons < 2 ^ 64

/-- A `SimpleVecCache` whose numbers are in the range of their types. -/
structure VecCache.Fits (c : VecCache W) : Prop where
  start : ∀ i, c.start = some (some i) → i < 2 ^ 32
  startKnown : c.startKnown < 2 ^ 64
  trs : ∀ x, some x ∈ c.trs → x.Fits
  trsLen : c.trs.length < 2 ^ 64
  trsKnown : c.trsKnown < 2 ^ 64
  fins : ∀ x, some x ∈ c.fins → FinFits x
  finsLen : c.fins.length < 2 ^ 64
  finsKnown : c.finsKnown < 2 ^ 64

/-- A `SimpleHashMapCache` whose numbers are in the range of their types. -/
structure MapCache.Fits (c : MapCache W) : Prop where
  start : ∀ i, c.start = some (some i) → i < 2 ^ 32
  startKnown : c.startKnown < 2 ^ 64
  trs : ∀ p ∈ c.trs, p.1 < 2 ^ 32 ∧ p.2.Fits
  trsLen : c.trs.length < 2 ^ 64
  trsKnown : c.trsKnown < 2 ^ 64
  fins : ∀ p ∈ c.fins, p.1 < 2 ^ 32 ∧ FinFits p.2
  finsLen : c.fins.length < 2 ^ 64
  finsKnown : c.finsKnown < 2 ^ 64

end

/-- A state table whose numbers are in the range of their types. -/
structure BiMap.Fits [TupleCodec T] (m : BiMap T) : Prop where
  rows : ∀ p ∈ m.toId, TupFits p.1 ∧ p.2 < 2 ^ 32
  rowsLen : m.toId.length < 2 ^ 64
  tups : ∀ t ∈ m.ofId, TupFits t
  tupsLen : m.ofId.length < 2 ^ 64

/-! ### Pieces -/

theorem reads_getI_putU {k n : Nat} (hk : 0 < k) (h : n < 2 ^ (8 * k)) : Reads (getI k) (putU k n) (toI (8 * k) n) := by
  have := reads_getI_toI hk h
  rwa [putI, toU_toI h] at this

theorem reads_cacheStart {s : Option (Option StateId)} (h : ∀ i, s = some (some i) → i < 2 ^ 32) :
    Reads getCacheStart (putCacheStart s) s := by
  cases s with
  | none =>
    have := (reads_getU (k := 1) (n := 0) (by decide)).bind
      (f := fun c => if c = 0 then P.pure none else (getI 8).bind fun s => P.pure (some (getStart s))) (reads_pure (none : Option (Option StateId)))
    rwa [List.append_nil] at this
  | some s =>
    have h' : ∀ i, s = some i → i < 2 ^ 32 := fun i e => h i (by rw [e])
    refine (reads_getU (k := 1) (n := 1) (by decide)).bind ?_
    rw [if_neg (by decide)]
    have hr := putStart_range h'
    exact (reads_getI (k := 8) (by decide) (by simpa using hr.1) (by simpa using hr.2)).map' (by rw [getStart_putStart h'])

theorem stable_cacheStart : Stable getCacheStart :=
  (stable_getU 1).bind fun _ => (stable_pure _).ite ((stable_getI 8).bind fun _ => stable_pure _)

section
variable [WeightCodec W]

theorem reads_cacheTrs {c : CacheTrs W} (h : c.Fits) : Reads getCacheTrs (putCacheTrs c) c := by
  unfold getCacheTrs putCacheTrs
  refine (reads_getI_putU (k := 8) (by decide) h.len).bind ?_
  rw [toU_toI (k := 8 * 8) h.len]
  have hl := Reads.count (p := getTr) (put := putTr) (g := id) (l := c.trs) fun t ht => reads_getTr (h.trs t ht)
  rw [List.map_id] at hl
  refine hl.bind ?_
  refine (reads_getU (k := 8) h.ieps).bind ?_
  exact (reads_getU (k := 8) h.oeps).map

theorem stable_cacheTrs (hs : Stable (WeightCodec.get (W := W))) : Stable (getCacheTrs (W := W)) :=
  (stable_getI 8).bind fun _ => ((stable_getTr hs).count _).bind fun _ => (stable_getU 8).bind fun _ => (stable_getU 8).bind fun _ => stable_pure _

theorem reads_vecTrs {c : Option (CacheTrs W)} (h : ∀ x, c = some x → x.Fits) : Reads getVecTrs (putVecTrs c) c := by
  cases c with
  | none =>
    have := (reads_getU (k := 1) (n := 0) (by decide)).bind
      (f := fun c => if c = 0 then P.pure none else getCacheTrs.bind fun x => P.pure (some x)) (reads_pure (none : Option (CacheTrs W)))
    rwa [List.append_nil] at this
  | some c =>
    refine (reads_getU (k := 1) (n := 1) (by decide)).bind ?_
    rw [if_neg (by decide)]
    exact (reads_cacheTrs (h c rfl)).map

theorem stable_vecTrs (hs : Stable (WeightCodec.get (W := W))) : Stable (getVecTrs (W := W)) :=
  (stable_getU 1).bind fun _ => (stable_pure _).ite ((stable_cacheTrs hs).bind fun _ => stable_pure _)

theorem reads_finW {o : Option W} (h : FinFits o) : Reads getFinW (putFinW o) o := by
  cases o with
  | none =>
    have := (reads_getU (k := 1) (n := 0) (by decide)).bind
      (f := fun c => if c = 1 then (WeightCodec.get (W := W)).bind fun w => P.pure (some w) else P.pure none) (reads_pure (none : Option W))
    rwa [List.append_nil] at this
  | some w =>
    refine (reads_getU (k := 1) (n := 1) (by decide)).bind ?_
    rw [if_pos rfl]
    exact Reads.map (h w rfl)

theorem stable_finW (hs : Stable (WeightCodec.get (W := W))) : Stable (getFinW (W := W)) :=
  (stable_getU 1).bind fun _ => (hs.bind fun _ => stable_pure _).ite (stable_pure _)

theorem reads_vecFin {o : Option (Option W)} (h : ∀ x, o = some x → FinFits x) : Reads getVecFin (putVecFin o) o := by
  cases o with
  | none =>
    have := (reads_getU (k := 1) (n := 0) (by decide)).bind
      (f := fun c => if c = 0 then P.pure none else getFinW.bind fun x => P.pure (some x)) (reads_pure (none : Option (Option W)))
    rwa [List.append_nil] at this
  | some o =>
    refine (reads_getU (k := 1) (n := 1) (by decide)).bind ?_
    rw [if_neg (by decide)]
    exact (reads_finW (h o rfl)).map

theorem stable_vecFin (hs : Stable (WeightCodec.get (W := W))) : Stable (getVecFin (W := W)) :=
  (stable_getU 1).bind fun _ => (stable_pure _).ite ((stable_finW hs).bind fun _ => stable_pure _)

theorem reads_mapTrs {p : StateId × CacheTrs W} (h : p.1 < 2 ^ 32 ∧ p.2.Fits) : Reads getMapTrs (putMapTrs p) p := by
  have h1 := h.1
  refine (reads_getI_putU (k := 8) (by decide) (by omega)).bind ?_
  refine (reads_cacheTrs h.2).map' ?_
  rw [toI_small (by omega), toU_nat h1]

theorem stable_mapTrs (hs : Stable (WeightCodec.get (W := W))) : Stable (getMapTrs (W := W)) :=
  (stable_getI 8).bind fun _ => (stable_cacheTrs hs).bind fun _ => stable_pure _

theorem reads_mapFin {p : StateId × Option W} (h : p.1 < 2 ^ 32 ∧ FinFits p.2) : Reads getMapFin (putMapFin p) p := by
  have h1 := h.1
  refine (reads_getI_putU (k := 8) (by decide) (by omega)).bind ?_
  refine (reads_finW h.2).map' ?_
  rw [toI_small (by omega), toU_nat h1]

theorem stable_mapFin (hs : Stable (WeightCodec.get (W := W))) : Stable (getMapFin (W := W)) :=
  (stable_getI 8).bind fun _ => (stable_finW hs).bind fun _ => stable_pure _

/-! ### Caches -/

theorem reads_vecCache {c : VecCache W} (h : c.Fits) : Reads getVecCache (putVecCache c) c := by
  unfold getVecCache putVecCache
  have ht := Reads.count (p := getVecTrs) (put := putVecTrs) (g := id) (l := c.trs) fun t ht =>
    reads_vecTrs (c := t) fun x e => h.trs x (e ▸ ht)
  have hf := Reads.count (p := getVecFin) (put := putVecFin) (g := id) (l := c.fins) fun t ht =>
    reads_vecFin (o := t) fun x e => h.fins x (e ▸ ht)
  rw [List.map_id] at ht hf
  refine (reads_getU (k := 8) h.startKnown).bind ?_
  refine (reads_cacheStart h.start).bind ?_
  refine (reads_getU (k := 8) h.trsKnown).bind ?_
  refine (reads_getU (k := 8) h.trsLen).bind ?_
  refine ht.bind ?_
  refine (reads_getU (k := 8) h.finsKnown).bind ?_
  refine (reads_getU (k := 8) h.finsLen).bind ?_
  exact hf.map

theorem stable_vecCache (hs : Stable (WeightCodec.get (W := W))) : Stable (getVecCache (W := W)) :=
  (stable_getU 8).bind fun _ => stable_cacheStart.bind fun _ => (stable_getU 8).bind fun _ => (stable_getU 8).bind fun _ =>
  ((stable_vecTrs hs).count _).bind fun _ => (stable_getU 8).bind fun _ => (stable_getU 8).bind fun _ =>
  ((stable_vecFin hs).count _).bind fun _ => stable_pure _

/-- What is read back from the file of a hash map cache written in the orders `ts` and `fs`. -/
def MapCache.reread (c : MapCache W) (ts : List (StateId × CacheTrs W)) (fs : List (StateId × Option W)) : MapCache W :=
  ⟨c.start, c.startKnown, ts.foldl (fun m p => mapPut m p.1 p.2) [], c.trsKnown, fs.foldl (fun m p => mapPut m p.1 p.2) [], c.finsKnown⟩

theorem reads_mapCache {c : MapCache W} (h : c.Fits) {ts : List (StateId × CacheTrs W)} {fs : List (StateId × Option W)}
    (hts : ts.Perm c.trs) (hfs : fs.Perm c.fins) : Reads getMapCache (putMapCache c ts fs) (c.reread ts fs) := by
  unfold getMapCache putMapCache putMapParts
  have ht := Reads.count (p := getMapTrs) (put := putMapTrs) (g := id) (l := ts) fun t ht => reads_mapTrs (h.trs t (hts.mem_iff.1 ht))
  have hf := Reads.count (p := getMapFin) (put := putMapFin) (g := id) (l := fs) fun t ht => reads_mapFin (h.fins t (hfs.mem_iff.1 ht))
  rw [List.map_id] at ht hf
  rw [hts.length_eq] at ht
  rw [hfs.length_eq] at hf
  refine (reads_getU (k := 8) h.startKnown).bind ?_
  refine (reads_cacheStart h.start).bind ?_
  refine (reads_getU (k := 8) h.trsKnown).bind ?_
  refine (reads_getU (k := 8) h.trsLen).bind ?_
  refine ht.bind ?_
  refine (reads_getU (k := 8) h.finsKnown).bind ?_
  refine (reads_getU (k := 8) h.finsLen).bind ?_
  exact hf.map

theorem stable_mapCache (hs : Stable (WeightCodec.get (W := W))) : Stable (getMapCache (W := W)) :=
  (stable_getU 8).bind fun _ => stable_cacheStart.bind fun _ => (stable_getU 8).bind fun _ => (stable_getU 8).bind fun _ =>
  ((stable_mapTrs hs).count _).bind fun _ => (stable_getU 8).bind fun _ => (stable_getU 8).bind fun _ =>
  ((stable_mapFin hs).count _).bind fun _ => stable_pure _

end

/-! ### The state table -/

section
variable [TupleCodec T] [DecidableEq T]

omit [DecidableEq T] in
theorem reads_row {p : T × StateId} (h : TupFits p.1 ∧ p.2 < 2 ^ 32) : Reads getRow (TupleCodec.put p.1 ++ putU 8 p.2) p := by
  have h2 := h.2
  refine Reads.bind h.1 ?_
  refine (reads_getU (k := 8) (n := p.2) (by omega)).map' ?_
  rw [toU_nat h2]

omit [DecidableEq T] in
theorem stable_row (hs : Stable (TupleCodec.get (T := T))) : Stable (getRow (T := T)) :=
  hs.bind fun _ => (stable_getU 8).bind fun _ => stable_pure _

/-- What is read back from the file of a table written in the order `rows`. -/
def BiMap.reread (m : BiMap T) (rows : List (T × StateId)) : BiMap T := ⟨rows.foldl rowPut [], m.ofId⟩

theorem reads_table {m : BiMap T} (h : m.Fits) {rows : List (T × StateId)} (hr : rows.Perm m.toId) :
    Reads getTable (putTable m rows) (m.reread rows) := by
  unfold getTable putTable
  have h1 := Reads.count (p := getRow) (put := fun p : T × StateId => TupleCodec.put p.1 ++ putU 8 p.2) (g := id) (l := rows)
    fun t ht => reads_row (h.rows t (hr.mem_iff.1 ht))
  have h2 := Reads.count (p := TupleCodec.get (T := T)) (put := TupleCodec.put) (g := id) (l := m.ofId) fun t ht => h.tups t ht
  rw [List.map_id] at h1 h2
  rw [hr.length_eq] at h1
  refine (reads_getU (k := 8) h.rowsLen).bind ?_
  refine h1.bind ?_
  refine (reads_getU (k := 8) h.tupsLen).bind ?_
  exact h2.map

theorem stable_table (hs : Stable (TupleCodec.get (T := T))) : Stable (getTable (T := T)) :=
  (stable_getU 8).bind fun _ => ((stable_row hs).count _).bind fun _ => (stable_getU 8).bind fun _ => (hs.count _).bind fun _ => stable_pure _

end

/-! ### Association lists -/

section
variable {κ : Type v} {α : Type u} [DecidableEq κ]

/-- Lookup in an association list: `mapGet` and `BiMap.lookup`. -/
def assocGet (l : List (κ × α)) (k : κ) : Option α := (l.find? fun p => decide (p.1 = k)).map (·.2)

/-- Insertion: `mapPut` and `rowPut`. -/
def assocPut (l : List (κ × α)) (p : κ × α) : List (κ × α) := p :: l.filter fun q => decide (q.1 ≠ p.1)

theorem assocGet_cons (p : κ × α) (l : List (κ × α)) (k : κ) : assocGet (p :: l) k = if p.1 = k then some p.2 else assocGet l k := by
  unfold assocGet
  by_cases h : p.1 = k <;> simp [h]

theorem assocGet_put (l : List (κ × α)) (p : κ × α) (k : κ) : assocGet (assocPut l p) k = if p.1 = k then some p.2 else assocGet l k := by
  rw [assocPut, assocGet_cons]
  split
  · rfl
  · rename_i hk
    induction l with
    | nil => rfl
    | cons a l ih =>
      by_cases ha : a.1 = p.1
      · rw [List.filter_cons_of_neg (by simp [ha]), ih, assocGet_cons, if_neg (by rw [ha]; exact hk)]
      · rw [List.filter_cons_of_pos (by simp [ha]), assocGet_cons, assocGet_cons, ih]

theorem assocGet_none {l : List (κ × α)} {k : κ} (h : k ∉ l.map Prod.fst) : assocGet l k = none := by
  induction l with
  | nil => rfl
  | cons a l ih =>
    simp only [List.map_cons, List.mem_cons, not_or] at h
    rw [assocGet_cons, if_neg (fun e => h.1 e.symm), ih h.2]

theorem assocGet_mem {l : List (κ × α)} (h : (l.map Prod.fst).Nodup) {k : κ} {x : α} : assocGet l k = some x ↔ (k, x) ∈ l := by
  induction l with
  | nil => simp [assocGet]
  | cons a l ih =>
    simp only [List.map_cons, List.nodup_cons] at h
    rw [assocGet_cons]
    split
    · rename_i e
      constructor
      · intro hx; injection hx with hx; rw [← hx, ← e]; simp
      · intro hx
        rcases List.mem_cons.1 hx with hx | hx
        · rw [← hx]
        · exact absurd (List.mem_map.2 ⟨_, hx, e.symm⟩) h.1
    · rename_i e
      rw [ih h.2, List.mem_cons]
      constructor
      · exact .inr
      · rintro (hx | hx)
        · exact absurd (by rw [← hx]) e
        · exact hx

theorem assocGet_perm {l l' : List (κ × α)} (h : (l'.map Prod.fst).Nodup) (hp : l.Perm l') (k : κ) : assocGet l k = assocGet l' k := by
  have h' : (l.map Prod.fst).Nodup := (hp.map _).nodup_iff.2 h
  apply Option.ext
  intro x
  rw [assocGet_mem h, assocGet_mem h', hp.mem_iff]

theorem assocGet_fold (l : List (κ × α)) : ∀ (acc : List (κ × α)), (l.map Prod.fst).Nodup → ∀ k,
    assocGet (l.foldl assocPut acc) k = (assocGet l k).or (assocGet acc k) := by
  induction l with
  | nil => intro acc _ k; rfl
  | cons a l ih =>
    intro acc h k
    simp only [List.map_cons, List.nodup_cons] at h
    rw [List.foldl_cons, ih _ h.2, assocGet_put, assocGet_cons]
    split
    · rename_i e
      subst e
      rw [assocGet_none h.1]; rfl
    · rfl

theorem nodup_put {l : List (κ × α)} (h : (l.map Prod.fst).Nodup) (p : κ × α) : ((assocPut l p).map Prod.fst).Nodup := by
  rw [assocPut, List.map_cons, List.nodup_cons]
  refine ⟨?_, h.sublist (List.filter_sublist.map _)⟩
  intro hm
  obtain ⟨q, hq, e⟩ := List.mem_map.1 hm
  exact absurd e (by simpa using (List.mem_filter.1 hq).2)

end

/-! ### Two interiors that answer alike -/

namespace Lz
variable {C : Type v} {σ : Type w}

/-- A relation between caches that the methods of a cache do not notice and keep. -/
structure CacheSim (K : CacheOps W C) (R : C → C → Prop) : Prop where
  start : ∀ c c', R c c' → K.getStart c = K.getStart c'
  trs : ∀ c c', R c c' → ∀ s, K.getTrs c s = K.getTrs c' s
  fin : ∀ c c', R c c' → ∀ s, K.getFinal c s = K.getFinal c' s
  known : ∀ c c', R c c' → K.numKnown c = K.numKnown c'
  num : ∀ c c', R c c' → ∀ s, K.numTrs c s = K.numTrs c' s ∧ K.numIEps c s = K.numIEps c' s ∧ K.numOEps c s = K.numOEps c' s
  empty : R K.empty K.empty
  putStart : ∀ c c', R c c' → ∀ r, R (K.insertStart c r) (K.insertStart c' r)
  putTrs : ∀ c c', R c c' → ∀ s l, R (K.insertTrs c s l) (K.insertTrs c' s l)
  putFin : ∀ c c', R c c' → ∀ s w, R (K.insertFinal c s w) (K.insertFinal c' s w)

/-- The same for the interior state of an operation. -/
structure OpSim (O : LazyOp σ W) (R : σ → σ → Prop) : Prop where
  start : ∀ o o', R o o' → (O.computeStart o).1 = (O.computeStart o').1 ∧ R (O.computeStart o).2 (O.computeStart o').2
  trs : ∀ o o', R o o' → ∀ s, (O.computeTrs s o).1 = (O.computeTrs s o').1 ∧ R (O.computeTrs s o).2 (O.computeTrs s o').2
  fin : ∀ o o', R o o' → ∀ s, (O.computeFinal s o).1 = (O.computeFinal s o').1 ∧ R (O.computeFinal s o).2 (O.computeFinal s o').2

/-- Both parts are related. -/
def Sim (RC : C → C → Prop) (RO : σ → σ → Prop) (z z' : Lz C σ) : Prop := RC z.cache z'.cache ∧ RO z.op z'.op

variable {K : CacheOps W C} {O : LazyOp σ W} {RC : C → C → Prop} {RO : σ → σ → Prop} {z z' : Lz C σ}

theorem start_sim (SC : CacheSim K RC) (SO : OpSim O RO) (h : Sim RC RO z z') :
    (z.start K O).1 = (z'.start K O).1 ∧ Sim RC RO (z.start K O).2 (z'.start K O).2 := by
  unfold Lz.start
  rw [← SC.start _ _ h.1]
  cases K.getStart z.cache with
  | some r => exact ⟨rfl, h⟩
  | none =>
    obtain ⟨h1, h2⟩ := SO.start _ _ h.2
    rcases e : O.computeStart z.op with ⟨a, o⟩
    rcases e' : O.computeStart z'.op with ⟨a', o'⟩
    simp only [e, e'] at h1 h2
    subst h1
    cases a with
    | ok r => exact ⟨rfl, SC.putStart _ _ h.1 _, h2⟩
    | error e => exact ⟨rfl, h.1, h2⟩

theorem fin_sim (SC : CacheSim K RC) (SO : OpSim O RO) (h : Sim RC RO z z') (s : StateId) :
    (z.finalWeight K O s).1 = (z'.finalWeight K O s).1 ∧ Sim RC RO (z.finalWeight K O s).2 (z'.finalWeight K O s).2 := by
  unfold Lz.finalWeight
  rw [← SC.fin _ _ h.1]
  cases K.getFinal z.cache s with
  | some r => exact ⟨rfl, h⟩
  | none =>
    obtain ⟨h1, h2⟩ := SO.fin _ _ h.2 s
    rcases e : O.computeFinal s z.op with ⟨a, o⟩
    rcases e' : O.computeFinal s z'.op with ⟨a', o'⟩
    simp only [e, e'] at h1 h2
    subst h1
    cases a with
    | ok r => exact ⟨rfl, SC.putFin _ _ h.1 _ _, h2⟩
    | error e => exact ⟨rfl, h.1, h2⟩

theorem trs_sim (SC : CacheSim K RC) (SO : OpSim O RO) (h : Sim RC RO z z') (s : StateId) :
    (z.getTrs K O s).1 = (z'.getTrs K O s).1 ∧ Sim RC RO (z.getTrs K O s).2 (z'.getTrs K O s).2 := by
  unfold Lz.getTrs
  rw [← SC.trs _ _ h.1]
  cases K.getTrs z.cache s with
  | some r => exact ⟨rfl, h⟩
  | none =>
    obtain ⟨h1, h2⟩ := SO.trs _ _ h.2 s
    rcases e : O.computeTrs s z.op with ⟨a, o⟩
    rcases e' : O.computeTrs s z'.op with ⟨a', o'⟩
    simp only [e, e'] at h1 h2
    subst h1
    cases a with
    | ok r => exact ⟨rfl, SC.putTrs _ _ h.1 _ _, h2⟩
    | error e => exact ⟨rfl, h.1, h2⟩

theorem ask_sim (SC : CacheSim K RC) (SO : OpSim O RO) (h : Sim RC RO z z') (q : Query) :
    (z.ask K O q).1 = (z'.ask K O q).1 ∧ Sim RC RO (z.ask K O q).2 (z'.ask K O q).2 := by
  cases q with
  | start => obtain ⟨h1, h2⟩ := start_sim SC SO h; exact ⟨by simp only [ask, h1], h2⟩
  | fin s => obtain ⟨h1, h2⟩ := fin_sim SC SO h s; exact ⟨by simp only [ask, h1], h2⟩
  | trs s => obtain ⟨h1, h2⟩ := trs_sim SC SO h s; exact ⟨by simp only [ask, h1], h2⟩
  | numTrs s => exact ⟨by simp only [ask, Lz.numTrs, (SC.num _ _ h.1 s).1], h⟩
  | numIEps s => exact ⟨by simp only [ask, Lz.numIEps, (SC.num _ _ h.1 s).2.1], h⟩
  | numOEps s => exact ⟨by simp only [ask, Lz.numOEps, (SC.num _ _ h.1 s).2.2], h⟩
  | clear => exact ⟨rfl, SC.empty, h.2⟩

theorem run_sim (SC : CacheSim K RC) (SO : OpSim O RO) : ∀ (qs : List Query) {z z' : Lz C σ}, Sim RC RO z z' →
    (z.run K O qs).1 = (z'.run K O qs).1 ∧ Sim RC RO (z.run K O qs).2 (z'.run K O qs).2
  | [], _, _, h => ⟨rfl, h⟩
  | q :: qs, z, z', h => by
    obtain ⟨h1, h2⟩ := ask_sim SC SO h q
    obtain ⟨h3, h4⟩ := run_sim SC SO qs h2
    exact ⟨by simp only [run, h1, h3], h4⟩

theorem statesFrom_sim (SC : CacheSim K RC) (SO : OpSim O RO) : ∀ (n : Nat) (s : StateId) {z z' : Lz C σ}, Sim RC RO z z' →
    (statesFrom K O n s z).map Prod.fst = (statesFrom K O n s z').map Prod.fst
  | 0, _, _, _, _ => rfl
  | n + 1, s, z, z', h => by
    obtain ⟨h1, h2⟩ := trs_sim SC SO h s
    simp only [statesFrom, SC.known _ _ h.1]
    split
    · rcases e : z.getTrs K O s with ⟨a, y⟩
      rcases e' : z'.getTrs K O s with ⟨a', y'⟩
      simp only [e, e'] at h1 h2
      subst h1
      cases a with
      | error e => rfl
      | ok l =>
        have ih := statesFrom_sim SC SO n (s + 1) h2
        simp only
        rcases d : statesFrom K O n (s + 1) y with _ | ⟨b, x⟩ <;> rcases d' : statesFrom K O n (s + 1) y' with _ | ⟨b', x'⟩ <;>
          simp only [d, d', Option.map_none, Option.map_some, Option.some.injEq, reduceCtorEq] at ih
        · rfl
        · subst ih
          cases b <;> rfl
    · rfl

theorem statesIter_sim (SC : CacheSim K RC) (SO : OpSim O RO) (h : Sim RC RO z z') (n : Nat) :
    (statesIter K O n z).map Prod.fst = (statesIter K O n z').map Prod.fst := by
  obtain ⟨h1, h2⟩ := start_sim SC SO h
  unfold statesIter
  rcases e : z.start K O with ⟨a, y⟩
  rcases e' : z'.start K O with ⟨a', y'⟩
  simp only [e, e'] at h1 h2
  subst h1
  cases a with
  | error e => rfl
  | ok l => exact statesFrom_sim SC SO n 0 h2

section
variable [Zero W] [One W] [DecidableEq W]

theorem computeLoop_sim (SC : CacheSim K RC) (SO : OpSim O RO) : ∀ (n : Nat) (q : List StateId) (vis : List Bool) (out : Fst W)
    {z z' : Lz C σ}, Sim RC RO z z' → (computeLoop K O n q vis out z).map Prod.fst = (computeLoop K O n q vis out z').map Prod.fst
  | 0, _, _, _, _, _, _ => rfl
  | _ + 1, [], _, _, _, _, _ => rfl
  | n + 1, s :: q, vis, out, z, z', h => by
    obtain ⟨h1, h2⟩ := trs_sim SC SO h s
    simp only [computeLoop]
    rcases e : z.getTrs K O s with ⟨a, y⟩
    rcases e' : z'.getTrs K O s with ⟨a', y'⟩
    simp only [e, e'] at h1 h2
    subst h1
    cases a with
    | error e => rfl
    | ok l =>
      obtain ⟨g1, g2⟩ := fin_sim SC SO h2 s
      simp only
      rcases d : y.finalWeight K O s with ⟨b, x⟩
      rcases d' : y'.finalWeight K O s with ⟨b', x'⟩
      simp only [d, d'] at g1 g2
      subst g1
      cases b with
      | error e => rfl
      | ok w => exact computeLoop_sim SC SO n _ _ _ g2

theorem compute_sim (SC : CacheSim K RC) (SO : OpSim O RO) (h : Sim RC RO z z') (n : Nat) :
    (compute K O n z).map Prod.fst = (compute K O n z').map Prod.fst := by
  obtain ⟨h1, h2⟩ := start_sim SC SO h
  unfold compute
  rcases e : z.start K O with ⟨a, y⟩
  rcases e' : z'.start K O with ⟨a', y'⟩
  simp only [e, e'] at h1 h2
  subst h1
  cases a with
  | error e => rfl
  | ok l =>
    cases l with
    | none => rfl
    | some s =>
      have ih := computeLoop_sim SC SO n [s] ((List.replicate (s + 1) false).set s true) ((Fst.new.addStates (s + 1)).setStart s) h2
      simp only
      generalize computeLoop K O n [s] ((List.replicate (s + 1) false).set s true) ((Fst.new.addStates (s + 1)).setStart s) y = d at ih ⊢
      generalize computeLoop K O n [s] ((List.replicate (s + 1) false).set s true) ((Fst.new.addStates (s + 1)).setStart s) y' = d' at ih ⊢
      rcases d with _ | ⟨b, x⟩ <;> rcases d' with _ | ⟨b', x'⟩ <;>
          simp only [Option.map_none, Option.map_some, Option.some.injEq, reduceCtorEq] at ih
      · rfl
      · subst ih
        cases b <;> rfl
end

/-! ### The relations -/

theorem vec_sim : CacheSim (vecCache (W := W)) Eq := by
  constructor <;> (intros; subst_vars; try exact ⟨rfl, rfl, rfl⟩) <;> rfl

/-- Two hash map caches with the same entries. -/
structure _root_.Verif.MapCache.Same (c c' : MapCache W) : Prop where
  start : c.start = c'.start
  startKnown : c.startKnown = c'.startKnown
  trs : ∀ s, mapGet c.trs s = mapGet c'.trs s
  trsKnown : c.trsKnown = c'.trsKnown
  fins : ∀ s, mapGet c.fins s = mapGet c'.fins s
  finsKnown : c.finsKnown = c'.finsKnown

theorem mapGet_put {α : Type u} (l : List (StateId × α)) (i : StateId) (x : α) (s : StateId) :
    mapGet (mapPut l i x) s = if i = s then some x else mapGet l s := assocGet_put l (i, x) s

theorem map_sim : CacheSim (mapCache (W := W)) MapCache.Same where
  start _ _ h := h.start
  trs _ _ h s := by simp only [mapCache, h.trs]
  fin _ _ h s := h.fins s
  known _ _ h := by simp only [mapCache, h.startKnown, h.trsKnown, h.finsKnown]
  num _ _ h s := by simp only [mapCache, h.trs, and_self]
  empty := ⟨rfl, rfl, fun _ => rfl, rfl, fun _ => rfl, rfl⟩
  putStart _ _ h r := ⟨rfl, by simp only [mapCache, h.startKnown], h.trs, h.trsKnown, h.fins, h.finsKnown⟩
  putTrs _ _ h s l := ⟨h.start, h.startKnown, by intro q; simp only [mapCache, mapGet_put, h.trsKnown, h.trs],
    by simp only [mapCache, h.trsKnown], h.fins, h.finsKnown⟩
  putFin _ _ h s l := ⟨h.start, h.startKnown, h.trs, h.trsKnown, by intro q; simp only [mapCache, mapGet_put, h.fins],
    by simp only [mapCache, h.finsKnown]⟩

/-- Hash map caches with one entry per key. -/
def _root_.Verif.MapCache.Keys (c : MapCache W) : Prop := (c.trs.map Prod.fst).Nodup ∧ (c.fins.map Prod.fst).Nodup

theorem keys_sim : CacheSim (mapCache (W := W)) fun c c' => c = c' ∧ c.Keys where
  start := by rintro _ _ ⟨rfl, _⟩; rfl
  trs := by rintro _ _ ⟨rfl, _⟩ s; rfl
  fin := by rintro _ _ ⟨rfl, _⟩ s; rfl
  known := by rintro _ _ ⟨rfl, _⟩; rfl
  num := by rintro _ _ ⟨rfl, _⟩ s; exact ⟨rfl, rfl, rfl⟩
  empty := ⟨rfl, List.nodup_nil, List.nodup_nil⟩
  putStart := by rintro _ _ ⟨rfl, h⟩ r; exact ⟨rfl, h⟩
  putTrs := by rintro _ _ ⟨rfl, h⟩ s l; exact ⟨rfl, nodup_put h.1 (s, _), h.2⟩
  putFin := by rintro _ _ ⟨rfl, h⟩ s l; exact ⟨rfl, h.1, nodup_put h.2 (s, _)⟩

theorem reread_same {c : MapCache W} (h : c.Keys) {ts : List (StateId × CacheTrs W)} {fs : List (StateId × Option W)}
    (hts : ts.Perm c.trs) (hfs : fs.Perm c.fins) : (c.reread ts fs).Same c := by
  refine ⟨rfl, rfl, fun s => ?_, rfl, fun s => ?_, rfl⟩
  · have := assocGet_fold ts [] ((hts.map _).nodup_iff.2 h.1) s
    rw [assocGet_perm h.1 hts] at this
    exact this.trans (by simp [assocGet, mapGet])
  · have := assocGet_fold fs [] ((hfs.map _).nodup_iff.2 h.2) s
    rw [assocGet_perm h.2 hfs] at this
    exact this.trans (by simp [assocGet, mapGet])

section
variable {T : Type x} [DecidableEq T]

/-- Two state tables with the same entries. -/
def _root_.Verif.BiMap.Same (m m' : BiMap T) : Prop := m.ofId = m'.ofId ∧ ∀ t, m.lookup t = m'.lookup t

theorem findId_same {m m' : BiMap T} (h : m.Same m') (t : T) : (m.findId t).1 = (m'.findId t).1 ∧ (m.findId t).2.Same (m'.findId t).2 := by
  unfold BiMap.findId
  rw [← h.2 t]
  cases m.lookup t with
  | some s => exact ⟨rfl, h⟩
  | none =>
    refine ⟨by rw [h.1], by rw [h.1], fun u => ?_⟩
    rw [BiMap.lookup_cons, BiMap.lookup_cons, h.1]
    split
    · rfl
    · exact h.2 u

/-- An operation on tuples does not notice the difference between related tables. -/
theorem table_sim (O : TupleOp T W) {R : BiMap T → BiMap T → Prop} (hR : ∀ m m', R m m' → m.ofId = m'.ofId)
    (hf : ∀ m m', R m m' → ∀ t, (m.findId t).1 = (m'.findId t).1 ∧ R (m.findId t).2 (m'.findId t).2) :
    OpSim (O.withTable BiMap.findId BiMap.findTuple) R := by
  have htup : ∀ m m', R m m' → ∀ s, m.findTuple s = m'.findTuple s := fun m m' h s => by unfold BiMap.findTuple; rw [hR m m' h]
  have hall : ∀ (l : List (MTr T W)) (m m' : BiMap T), R m m' →
      (nameAll BiMap.findId m l).1 = (nameAll BiMap.findId m' l).1 ∧ R (nameAll BiMap.findId m l).2 (nameAll BiMap.findId m' l).2 := by
    intro l
    induction l with
    | nil => intro m m' h; exact ⟨rfl, h⟩
    | cons a l ih =>
      intro m m' h
      obtain ⟨h1, h2⟩ := hf m m' h a.next
      obtain ⟨h3, h4⟩ := ih _ _ h2
      exact ⟨by simp only [nameAll, h1, h3], h4⟩
  refine ⟨fun m m' h => ?_, fun m m' h s => ?_, fun m m' h s => ?_⟩
  · simp only [TupleOp.withTable]
    rcases O.start with e | _ | t
    · exact ⟨rfl, h⟩
    · exact ⟨rfl, h⟩
    · obtain ⟨h1, h2⟩ := hf m m' h t
      exact ⟨by simp only [h1], h2⟩
  · simp only [TupleOp.withTable, htup m m' h]
    rcases m'.findTuple s with e | t
    · exact ⟨rfl, h⟩
    · simp only
      rcases O.trs t with e | l
      · exact ⟨rfl, h⟩
      · obtain ⟨h1, h2⟩ := hall l m m' h
        exact ⟨by simp only [h1], h2⟩
  · simp only [TupleOp.withTable, htup m m' h]
    rcases m'.findTuple s with e | t
    · exact ⟨rfl, h⟩
    · exact ⟨rfl, h⟩

theorem same_sim (O : TupleOp T W) : OpSim (O.withTable BiMap.findId BiMap.findTuple) BiMap.Same :=
  table_sim O (fun _ _ h => h.1) fun _ _ h t => findId_same h t

/-- State tables with one entry per tuple. -/
def _root_.Verif.BiMap.Keys (m : BiMap T) : Prop := (m.toId.map Prod.fst).Nodup

theorem findId_keys {m : BiMap T} (h : m.Keys) (t : T) : (m.findId t).2.Keys := by
  unfold BiMap.findId
  cases hl : m.lookup t with
  | some s => exact h
  | none =>
    simp only [BiMap.Keys, List.map_cons, List.nodup_cons]
    refine ⟨fun hm => ?_, h⟩
    obtain ⟨p, hp, e⟩ := List.mem_map.1 hm
    have : assocGet m.toId t = some p.2 := (assocGet_mem h).2 (by rw [← e]; exact hp)
    rw [show assocGet m.toId t = m.lookup t from rfl, hl] at this
    cases this

theorem tableKeys_sim (O : TupleOp T W) : OpSim (O.withTable BiMap.findId BiMap.findTuple) fun m m' => m = m' ∧ m.Keys :=
  table_sim O (by rintro _ _ ⟨rfl, _⟩; rfl) (by rintro _ _ ⟨rfl, h⟩ t; exact ⟨rfl, rfl, findId_keys h t⟩)

theorem table_reread [TupleCodec T] {m : BiMap T} (h : m.Keys) {rows : List (T × StateId)} (hr : rows.Perm m.toId) : (m.reread rows).Same m := by
  refine ⟨rfl, fun t => ?_⟩
  have := assocGet_fold rows [] ((hr.map _).nodup_iff.2 h) t
  rw [assocGet_perm h hr] at this
  exact this.trans (by simp [assocGet, BiMap.lookup])

end
end Lz
end Verif
