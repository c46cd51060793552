import Verif.Lemmas.LazyFiles
import Verif.Props.C75

/-! # C77: a delayed composition that is saved and loaded again goes on as before -/

namespace Verif
universe u v w x
variable {W : Type u} {T : Type v}
open Lz

/-- Both lazy FSTs answer every further sequence of queries alike, list the same states, and compute the same static FST. -/
def Lz.Continues {C : Type v} {σ : Type w} [Zero W] [One W] [DecidableEq W] (K : CacheOps W C) (O : LazyOp σ W) (z' z : Lz C σ) : Prop :=
  (∀ qs, (z'.run K O qs).1 = (z.run K O qs).1) ∧ (∀ n, (statesIter K O n z').map Prod.fst = (statesIter K O n z).map Prod.fst) ∧
  ∀ n, (compute K O n z').map Prod.fst = (compute K O n z).map Prod.fst

/-- The operation `O` on tuples with its state table. -/
abbrev TupleOp.tabled [DecidableEq T] (O : TupleOp T W) : LazyOp (BiMap T) W := O.withTable BiMap.findId BiMap.findTuple

/-- A lazy FST after a history of queries, starting with nothing cached and nothing numbered. -/
abbrev Lz.after {C : Type u} [DecidableEq T] (K : CacheOps W C) (O : TupleOp T W) (h : List Query) : Lz C (BiMap T) :=
  ((⟨K.empty, BiMap.new⟩ : Lz C (BiMap T)).run K O.tabled h).2

theorem load_ok {C : Type u} [TupleCodec T] [DecidableEq T] {get : P C} {b d : Bytes} {c : C} {m : BiMap T} (h1 : Reads get b c)
    (h2 : Reads getTable d m) : LazyFiles.load get ⟨b, d⟩ = .ok ⟨c, m⟩ := by
  have e1 := h1 []
  have e2 := h2 []
  rw [List.append_nil] at e1 e2
  simp only [LazyFiles.load, e1, e2]

theorem continues_of_sim {C : Type v} {σ : Type w} [Zero W] [One W] [DecidableEq W] {K : CacheOps W C} {O : LazyOp σ W} {RC : C → C → Prop}
    {RO : σ → σ → Prop} (SC : CacheSim K RC) (SO : OpSim O RO) {z' z : Lz C σ} (h : Sim RC RO z' z) : Continues K O z' z :=
  ⟨fun qs => (run_sim SC SO qs h).1, fun n => statesIter_sim SC SO h n, fun n => compute_sim SC SO h n⟩

theorem run_append {C : Type v} {σ : Type w} (K : CacheOps W C) (O : LazyOp σ W) : ∀ (h h' : List Query) (z : Lz C σ),
    z.run K O (h ++ h') = ((z.run K O h).1 ++ ((z.run K O h).2.run K O h').1, ((z.run K O h).2.run K O h').2)
  | [], _, _ => rfl
  | q :: h, h', z => by simp only [List.cons_append, Lz.run, run_append K O h h']

theorem after_table {C : Type u} [DecidableEq T] {K : CacheOps W C} {RC : C → C → Prop} (SC : CacheSim K RC) (O : TupleOp T W) (h : List Query) :
    (after K O h).op.Keys :=
  (run_sim (z := ⟨K.empty, BiMap.new⟩) SC (tableKeys_sim O) h ⟨SC.empty, rfl, List.nodup_nil⟩).2.2.2

theorem after_keys [DecidableEq T] (O : TupleOp T W) (h : List Query) : (after mapCache O h).cache.Keys :=
  (run_sim (z := ⟨mapCache.empty, BiMap.new⟩) keys_sim (tableKeys_sim O) h ⟨⟨rfl, List.nodup_nil, List.nodup_nil⟩, rfl, List.nodup_nil⟩).2.1.2

section
variable [Zero W] [One W] [DecidableEq W] [WeightCodec W] [TupleCodec T] [DecidableEq T]

/-- C77, `SimpleVecCache`: whatever was asked of a delayed operation before it was saved, and in whatever order the hash map of its state table
is written, loading the two files succeeds and gives a delayed FST that goes on exactly like the saved one. -/
theorem C77_vec (O : TupleOp T W) (h : List Query) (hc : (after vecCache O h).cache.Fits) (ho : (after vecCache O h).op.Fits)
    {rows : List (T × StateId)} (hr : rows.Perm (after vecCache O h).op.toId) :
    ∃ z', LazyFiles.load getVecCache ⟨putVecCache (after vecCache O h).cache, putTable (after vecCache O h).op rows⟩ = .ok z' ∧
      Continues vecCache O.tabled z' (after vecCache O h) :=
  ⟨_, load_ok (reads_vecCache hc) (reads_table ho hr),
    continues_of_sim vec_sim (same_sim O) ⟨rfl, table_reread (after_table vec_sim O h) hr⟩⟩

/-- C77, `SimpleHashMapCache`: the same, whatever the order in which the three hash maps are written. -/
theorem C77_map (O : TupleOp T W) (h : List Query) (hc : (after mapCache O h).cache.Fits) (ho : (after mapCache O h).op.Fits)
    {ts : List (StateId × CacheTrs W)} {fs : List (StateId × Option W)} {rows : List (T × StateId)}
    (hts : ts.Perm (after mapCache O h).cache.trs) (hfs : fs.Perm (after mapCache O h).cache.fins)
    (hr : rows.Perm (after mapCache O h).op.toId) :
    ∃ z', LazyFiles.load getMapCache ⟨putMapCache (after mapCache O h).cache ts fs, putTable (after mapCache O h).op rows⟩ = .ok z' ∧
      Continues mapCache O.tabled z' (after mapCache O h) :=
  ⟨_, load_ok (reads_mapCache hc hts hfs) (reads_table ho hr),
    continues_of_sim map_sim (same_sim O) ⟨reread_same (after_keys O h) hts hfs, table_reread (after_table map_sim O h) hr⟩⟩

omit [WeightCodec W] [TupleCodec T] in
/-- C77: all answers given before saving and after loading are right, under one numbering of the states: a client may keep using the state
numbers it learnt before the save. -/
theorem C77_history {C : Type u} {K : CacheOps W C} {cinv : C → Prop} (L : CacheLaw K cinv) (O : TupleOp T W) (M : Machine T W)
    (hstart : O.start = .ok M.start) (htrs : ∀ t, M.Reach t → O.trs t = .ok (M.trs t)) (hfin : ∀ t, M.Reach t → O.fin t = .ok (M.fin t))
    (h h' : List Query) {z' : Lz C (BiMap T)} (hz : Continues K O.tabled z' (after K O h))
    (hf : Fair K O.tabled (fun _ => False) ⟨K.empty, BiMap.new⟩ (h ++ h')) :
    ∃ nm, OneName nm ∧ ∀ p ∈ ((⟨K.empty, BiMap.new⟩ : Lz C (BiMap T)).run K O.tabled h).1 ++ (z'.run K O.tabled h').1, Correct M nm p.1 p.2 := by
  obtain ⟨inv, OL, hnew⟩ := C36_table_op O M hstart htrs hfin
  obtain ⟨g1, _, g3⟩ := run_coh L OL (h ++ h') _ _ (coh_fresh L hnew) (fun _ hs => hs.elim) hf
  refine ⟨_, OL.one _ g1.op, fun p hp => g3 p ?_⟩
  rw [run_append]
  rwa [hz.1 h'] at hp

/-! ### Cut files and crashes -/

/-- C77: a cache file cut anywhere is refused with an error, whatever the other file holds. -/
theorem C77_cut_vec (hs : Stable (WeightCodec.get (W := W))) {c : VecCache W} (hc : c.Fits) {p : Bytes} (hp : p <+: putVecCache c)
    (hne : p ≠ putVecCache c) (d : Bytes) : LazyFiles.load (T := T) (getVecCache (W := W)) ⟨p, d⟩ = .error .err := by
  simp only [LazyFiles.load, (stable_vecCache hs).cut (reads_vecCache hc) hp hne]

/-- C77: so is a file of a hash map cache. -/
theorem C77_cut_map (hs : Stable (WeightCodec.get (W := W))) {c : MapCache W} (hc : c.Fits) {ts : List (StateId × CacheTrs W)}
    {fs : List (StateId × Option W)} (hts : ts.Perm c.trs) (hfs : fs.Perm c.fins) {p : Bytes} (hp : p <+: putMapCache c ts fs)
    (hne : p ≠ putMapCache c ts fs) (d : Bytes) : LazyFiles.load (T := T) (getMapCache (W := W)) ⟨p, d⟩ = .error .err := by
  simp only [LazyFiles.load, (stable_mapCache hs).cut (reads_mapCache hc hts hfs) hp hne]

omit [Zero W] [One W] [DecidableEq W] [WeightCodec W] in
/-- C77: and a file of a state table, once the cache has been read. -/
theorem C77_cut_table {C : Type u} {get : P C} {b : Bytes} {c : C} (hb : Reads get b c) (hs : Stable (TupleCodec.get (T := T))) {m : BiMap T}
    (hm : m.Fits) {rows : List (T × StateId)} (hr : rows.Perm m.toId) {p : Bytes} (hp : p <+: putTable m rows) (hne : p ≠ putTable m rows) :
    LazyFiles.load (T := T) get ⟨b, p⟩ = .error .err := by
  have e1 := hb []
  rw [List.append_nil] at e1
  simp only [LazyFiles.load, e1, (stable_table hs).cut (reads_table hm hr) hp hne]

/-- C77, a crash while the files of an earlier save (after the queries `h`) are replaced by those of a later one (after `h'`): whatever has
reached the disk, loading it is refused, or goes on as the earlier or the later delayed FST did, **except** when the process ended between the
two files; see `C77_torn_defect` for that case. -/
theorem C77_crash_partial (hsw : Stable (WeightCodec.get (W := W))) (hst : Stable (TupleCodec.get (T := T))) (O : TupleOp T W) (h h' : List Query)
    (hc : (after vecCache O h).cache.Fits) (ho : (after vecCache O h).op.Fits) {rows : List (T × StateId)}
    (hr : rows.Perm (after vecCache O h).op.toId) (hc' : (after vecCache O h').cache.Fits) (ho' : (after vecCache O h').op.Fits)
    {rows' : List (T × StateId)} (hr' : rows'.Perm (after vecCache O h').op.toId) {d : LazyFiles}
    (hd : Crash ⟨putVecCache (after vecCache O h).cache, putTable (after vecCache O h).op rows⟩
      ⟨putVecCache (after vecCache O h').cache, putTable (after vecCache O h').op rows'⟩ d) :
    d.load getVecCache = (.error .err : R (Lz (VecCache W) (BiMap T))) ∨
    (∃ z, d.load getVecCache = .ok z ∧ (Continues vecCache O.tabled z (after vecCache O h) ∨ Continues vecCache O.tabled z (after vecCache O h'))) ∨
    d = ⟨putVecCache (after vecCache O h').cache, putTable (after vecCache O h).op rows⟩ := by
  cases hd with
  | before =>
    obtain ⟨z, h1, h2⟩ := C77_vec O h hc ho hr
    exact .inr (.inl ⟨z, h1, .inl h2⟩)
  | inCache p hp =>
    by_cases e : p = putVecCache (after vecCache O h').cache
    · exact .inr (.inr (by rw [e]))
    · exact .inl (C77_cut_vec hsw hc' hp e _)
  | inTable p hp =>
    by_cases e : p = putTable (after vecCache O h').op rows'
    · obtain ⟨z, h1, h2⟩ := C77_vec O h' hc' ho' hr'
      exact .inr (.inl ⟨z, by rw [e]; exact h1, .inr h2⟩)
    · exact .inl (C77_cut_table (reads_vecCache hc') hst ho' hr' hp e)

/-! ### A table that is newer than the cache -/

omit [Zero W] [One W] [DecidableEq W] [WeightCodec W] [TupleCodec T] in
theorem fair_sim {C : Type u} {K : CacheOps W C} {σ : Type w} {O : LazyOp σ W} {RC : C → C → Prop} {RO : σ → σ → Prop} (SC : CacheSim K RC)
    (SO : OpSim O RO) : ∀ (qs : List Query) (known : StateId → Prop) {z z' : Lz C σ}, Sim RC RO z z' → Fair K O known z qs → Fair K O known z' qs
  | [], _, _, _, _, _ => trivial
  | q :: qs, known, z, z', h, hf => by
    obtain ⟨h1, h2⟩ := ask_sim SC SO h q
    refine ⟨hf.1, ?_⟩
    have := fair_sim SC SO qs _ h2 hf.2
    rwa [h1] at this

omit [WeightCodec W] [TupleCodec T] [Zero W] [One W] [DecidableEq W] [DecidableEq T] in
theorem fair_split {C : Type u} {σ : Type w} {K : CacheOps W C} {cinv : C → Prop} {O : LazyOp σ W} {M : Machine T W}
    {name : σ → StateId → Option T} {oinv : σ → Prop} (L : CacheLaw K cinv) (OL : OpLaw O M name oinv) (h' : List Query) :
    ∀ (h : List Query) (z : Lz C σ) (known : StateId → Prop), Coh K cinv M name oinv z → (∀ s, known s → (name z.op s).isSome) →
      Fair K O known z (h ++ h') → ∃ known', Coh K cinv M name oinv (z.run K O h).2 ∧
        (∀ s, known' s → (name (z.run K O h).2.op s).isSome) ∧ Fair K O known' (z.run K O h).2 h'
  | [], z, known, hz, hk, hf => ⟨known, hz, hk, hf⟩
  | q :: h, z, known, hz, hk, hf => by
    obtain ⟨hf1, hf2⟩ := hf
    obtain ⟨h1, h2, _, h4⟩ := ask_coh L OL hz (about_mono hk hf1)
    refine fair_split L OL h' h _ _ h1 ?_ hf2
    rintro s (hs | hs)
    · obtain ⟨t, ht⟩ := Option.isSome_iff_exists.1 (hk s hs)
      rw [h2 _ _ ht]; rfl
    · exact h4 s hs

omit [WeightCodec W] [TupleCodec T] [Zero W] [One W] [DecidableEq W] in
theorem newer_correct {C : Type u} {K : CacheOps W C} {cinv : C → Prop} (L : CacheLaw K cinv) (O : TupleOp T W) (M : Machine T W)
    (hstart : O.start = .ok M.start) (htrs : ∀ t, M.Reach t → O.trs t = .ok (M.trs t)) (hfin : ∀ t, M.Reach t → O.fin t = .ok (M.fin t))
    (h h' : List Query) (hf : Fair K O.tabled (fun _ => False) ⟨K.empty, BiMap.new⟩ (h ++ h')) {qs : List Query}
    (hq : Fair K O.tabled (fun s => ((after K O (h ++ h')).op.tup s).isSome) ⟨(after K O h).cache, (after K O (h ++ h')).op⟩ qs) :
    ∃ nm, OneName nm ∧ ∀ p ∈ ((⟨(after K O h).cache, (after K O (h ++ h')).op⟩ : Lz C (BiMap T)).run K O.tabled qs).1, Correct M nm p.1 p.2 := by
  obtain ⟨inv, OL, hnew⟩ := C36_table_op O M hstart htrs hfin
  obtain ⟨known, g1, g2, g3⟩ := fair_split L OL h' h _ _ (coh_fresh L hnew) (fun _ hs => hs.elim) hf
  obtain ⟨k1, k2, _⟩ := run_coh L OL h' _ _ g1 g2 g3
  have e : ((⟨K.empty, BiMap.new⟩ : Lz C (BiMap T)).run K O.tabled (h ++ h')).2 =
      (((⟨K.empty, BiMap.new⟩ : Lz C (BiMap T)).run K O.tabled h).2.run K O.tabled h').2 := by rw [run_append]
  simp only [after] at hq ⊢
  rw [e] at hq ⊢
  obtain ⟨j1, _, j3⟩ := run_coh L OL qs _ _ (g1.moveOp k1.op k2) (fun s hs => hs) hq
  exact ⟨_, OL.one _ j1.op, j3⟩

omit [Zero W] [One W] [DecidableEq W] in
/-- C77: a cache saved after the queries `h` together with a state table saved later, after `h'` more, is a good pair: loading succeeds and all
answers are right, whichever of the numbered states a client asks about. So other threads may go on asking while the two files are written
one after the other; and a crash would do no harm if the table were written first. -/
theorem C77_table_newer_vec (O : TupleOp T W) (M : Machine T W) (hstart : O.start = .ok M.start) (htrs : ∀ t, M.Reach t → O.trs t = .ok (M.trs t))
    (hfin : ∀ t, M.Reach t → O.fin t = .ok (M.fin t)) (h h' : List Query)
    (hf : Fair vecCache O.tabled (fun _ => False) ⟨vecCache.empty, BiMap.new⟩ (h ++ h')) (hc : (after vecCache O h).cache.Fits)
    (ho : (after vecCache O (h ++ h')).op.Fits) {rows : List (T × StateId)} (hr : rows.Perm (after vecCache O (h ++ h')).op.toId) :
    ∃ z', LazyFiles.load getVecCache ⟨putVecCache (after vecCache O h).cache, putTable (after vecCache O (h ++ h')).op rows⟩ = .ok z' ∧
      ∀ qs, Fair vecCache O.tabled (fun s => ((after vecCache O (h ++ h')).op.tup s).isSome) z' qs →
        ∃ nm, OneName nm ∧ ∀ p ∈ (z'.run vecCache O.tabled qs).1, Correct M nm p.1 p.2 := by
  refine ⟨_, load_ok (reads_vecCache hc) (reads_table ho hr), fun qs hq => ?_⟩
  have hs : Sim Eq BiMap.Same (⟨(after vecCache O h).cache, (after vecCache O (h ++ h')).op.reread rows⟩ : Lz (VecCache W) (BiMap T))
    ⟨(after vecCache O h).cache, (after vecCache O (h ++ h')).op⟩ := ⟨rfl, table_reread (after_table vec_sim O (h ++ h')) hr⟩
  rw [(run_sim vec_sim (same_sim O) qs hs).1]
  exact newer_correct vecCache_law O M hstart htrs hfin h h' hf (fair_sim vec_sim (same_sim O) qs _ hs hq)

omit [Zero W] [One W] [DecidableEq W] in
/-- C77: the same with a hash map cache. -/
theorem C77_table_newer_map (O : TupleOp T W) (M : Machine T W) (hstart : O.start = .ok M.start) (htrs : ∀ t, M.Reach t → O.trs t = .ok (M.trs t))
    (hfin : ∀ t, M.Reach t → O.fin t = .ok (M.fin t)) (h h' : List Query)
    (hf : Fair mapCache O.tabled (fun _ => False) ⟨mapCache.empty, BiMap.new⟩ (h ++ h')) (hc : (after mapCache O h).cache.Fits)
    (ho : (after mapCache O (h ++ h')).op.Fits) {ts : List (StateId × CacheTrs W)} {fs : List (StateId × Option W)} {rows : List (T × StateId)}
    (hts : ts.Perm (after mapCache O h).cache.trs) (hfs : fs.Perm (after mapCache O h).cache.fins)
    (hr : rows.Perm (after mapCache O (h ++ h')).op.toId) :
    ∃ z', LazyFiles.load getMapCache ⟨putMapCache (after mapCache O h).cache ts fs, putTable (after mapCache O (h ++ h')).op rows⟩ = .ok z' ∧
      ∀ qs, Fair mapCache O.tabled (fun s => ((after mapCache O (h ++ h')).op.tup s).isSome) z' qs →
        ∃ nm, OneName nm ∧ ∀ p ∈ (z'.run mapCache O.tabled qs).1, Correct M nm p.1 p.2 := by
  refine ⟨_, load_ok (reads_mapCache hc hts hfs) (reads_table ho hr), fun qs hq => ?_⟩
  have hs : Sim MapCache.Same BiMap.Same
    (⟨(after mapCache O h).cache.reread ts fs, (after mapCache O (h ++ h')).op.reread rows⟩ : Lz (MapCache W) (BiMap T))
    ⟨(after mapCache O h).cache, (after mapCache O (h ++ h')).op⟩ :=
    ⟨reread_same (after_keys O h) hts hfs, table_reread (after_table map_sim O (h ++ h')) hr⟩
  rw [(run_sim map_sim (same_sim O) qs hs).1]
  exact newer_correct mapCache_law O M hstart htrs hfin h h' hf (fair_sim map_sim (same_sim O) qs _ hs hq)

end

/-! ### Compositions -/

/-- What a delayed FST that was loaded promises with respect to the static FST `F`: after the queries `h` it was saved, and loaded as `z'`. Then all
answers before and after agree with `F`, and expanding it gives a copy of `F`. -/
def Resumes {C : Type u} [Zero W] [One W] [DecidableEq W] [DecidableEq T] (K : CacheOps W C) (O : TupleOp T W) (F : Fst W) (h : List Query)
    (z' : Lz C (BiMap T)) : Prop :=
  ∀ h', Fair K O.tabled (fun _ => False) ⟨K.empty, BiMap.new⟩ (h ++ h') →
    (∃ ρ, Agree F ρ (((⟨K.empty, BiMap.new⟩ : Lz C (BiMap T)).run K O.tabled h).1 ++ (z'.run K O.tabled h').1)) ∧
    ∃ G ν, EndsWith (fun n => (compute K O.tabled n z').map Prod.fst) (.ok G) ∧ F.Copies G ν

theorem fair_prefix {C : Type v} {σ : Type w} {K : CacheOps W C} {O : LazyOp σ W} (h' : List Query) : ∀ (h : List Query) (known : StateId → Prop)
    (z : Lz C σ), Fair K O known z (h ++ h') → Fair K O known z h
  | [], _, _, _ => trivial
  | _ :: h, _, _, hf => ⟨hf.1, fair_prefix h' h _ _ hf.2⟩

theorem resumes_of_continues {C : Type u} [Zero W] [One W] [DecidableEq W] [DecidableEq T] {K : CacheOps W C} {O : TupleOp T W} {F : Fst W}
    (hD : DelayedOf K O.tabled BiMap.new F) {h : List Query} {z' : Lz C (BiMap T)} (hz : Continues K O.tabled z' (after K O h)) :
    Resumes K O F h z' := by
  intro h' hf
  obtain ⟨⟨ρ, h1⟩, _⟩ := hD (h ++ h') hf
  obtain ⟨_, G, z2, ν, ⟨N, hN⟩, _, _, h3⟩ := hD h (fair_prefix h' h _ _ hf)
  refine ⟨⟨ρ, ?_⟩, G, ν, ⟨N, fun n hn => ?_⟩, h3⟩
  · rw [hz.1 h']
    rwa [run_append] at h1
  · show (compute K O.tabled n z').map Prod.fst = _
    rw [hz.2.2 n]
    have := hN n hn
    simp only at this
    rw [this]
    rfl

/-- C77 for `ComposeFst`: a delayed composition, with each of the filters that take care of ε, is asked `h`, saved, and loaded. Loading succeeds, all
answers before and after are those of one static composition, and expanding the loaded FST gives a copy of it. -/
theorem C77_compose [CommMonoidWithZero W] [DecidableEq W] [WeightCodec W] {A B : Fst W} (hAB : Operands A B) (F : ComposeFilter Nat W)
    (hF : F = seqFilter ∨ F = altFilter ∨ F = matchFilter) :
    ∃ D, EndsWith (composeWith F false A B) (.ok D) ∧ IsComposition A B D ∧ ∃ op, composeNew A B F = .ok op ∧ ∀ h : List Query,
      (∀ rows, (after vecCache op h).cache.Fits → (after vecCache op h).op.Fits → rows.Perm (after vecCache op h).op.toId →
        ∃ z', LazyFiles.load getVecCache ⟨putVecCache (after vecCache op h).cache, putTable (after vecCache op h).op rows⟩ = .ok z' ∧
          Resumes vecCache op D h z') ∧
      (∀ ts fs rows, (after mapCache op h).cache.Fits → (after mapCache op h).op.Fits → ts.Perm (after mapCache op h).cache.trs →
        fs.Perm (after mapCache op h).cache.fins → rows.Perm (after mapCache op h).op.toId →
        ∃ z', LazyFiles.load getMapCache ⟨putMapCache (after mapCache op h).cache ts fs, putTable (after mapCache op h).op rows⟩ = .ok z' ∧
          Resumes mapCache op D h z') := by
  obtain ⟨D, h1, h2, op, h3, h4⟩ := C75_compose.{u, u} hAB F hF
  refine ⟨D, h1, h2, op, h3, fun h => ⟨fun rows a b c => ?_, fun ts fs rows a b c d e => ?_⟩⟩
  · obtain ⟨z', g1, g2⟩ := C77_vec op h a b c
    exact ⟨z', g1, resumes_of_continues (h4 _ _ _ vecCache_law) g2⟩
  · obtain ⟨z', g1, g2⟩ := C77_map op h a b c d e
    exact ⟨z', g1, resumes_of_continues (h4 _ _ _ mapCache_law) g2⟩

/-! ### Defects -/

namespace C77

/-- Two paths, `1 1` with final weight 1 and `2 2` with final weight 5. -/
def two : Fst Int where
  states := [⟨none, [⟨1, 1, 1, 1⟩, ⟨2, 2, 1, 2⟩], 0, 0⟩, ⟨none, [⟨1, 1, 1, 3⟩], 0, 0⟩, ⟨none, [⟨2, 2, 1, 4⟩], 0, 0⟩, ⟨some 1, [], 0, 0⟩,
    ⟨some 5, [], 0, 0⟩]
  start := some 0
  props := fun b => decide (b = .iLabelSorted ∨ b = .oLabelSorted)

/-- Its composition with itself. -/
def op : TupleOp (CTup Nat) Int := composeOp two two seqFilter .both

/-- The answer to a query about a final weight. -/
def finAnswer : Answer Int → Option (Option Int)
  | .fin (.ok w) => some w
  | _ => none

/-- The targets in the answer to a query about transitions. -/
def targets : Answer Int → List StateId
  | .trs (.ok l) => l.map (·.nextstate)
  | _ => []

/-- What a loaded delayed FST answers. -/
def asked {C : Type} (K : CacheOps Int C) (r : R (Lz C (BiMap (CTup Nat)))) (qs : List Query) : Option (List (Answer Int)) :=
  match r with
  | .ok z => some ((z.run K op.tabled qs).1.map (·.2))
  | .error _ => none

/-- The cache after `[start, trs 0, trs 1]` with the table after `[start, trs 0]`. -/
def torn : LazyFiles :=
  ⟨putVecCache (after vecCache op [.start, .trs 0, .trs 1]).cache, putTable (after vecCache op [.start, .trs 0]).op
    (after vecCache op [.start, .trs 0]).op.toId⟩

/-- The file of a hash map cache if another thread asks for the transitions of state 2 after the number of entries was read, and before the
entries are. -/
def raced : LazyFiles :=
  ⟨putMapParts (after mapCache op [.start, .trs 0]).cache.start (after mapCache op [.start, .trs 0]).cache.startKnown
      (after mapCache op [.start, .trs 0]).cache.trsKnown (after mapCache op [.start, .trs 0]).cache.trs.length
      (after mapCache op [.start, .trs 0, .trs 2]).cache.trs.reverse (after mapCache op [.start, .trs 0, .trs 2]).cache.finsKnown
      (after mapCache op [.start, .trs 0, .trs 2]).cache.fins.length (after mapCache op [.start, .trs 0, .trs 2]).cache.fins,
    putTable (after mapCache op [.start, .trs 0, .trs 2]).op (after mapCache op [.start, .trs 0, .trs 2]).op.toId⟩

end C77

open C77

example : composeNew two two seqFilter = .ok op := by rfl

/-- The hypotheses of `C77_vec`, `C77_cut_vec`, `C77_crash_partial` and `C77_table_newer_vec` hold for this composition. -/
theorem C77.vec_fits : (after vecCache op [.start, .trs 0, .fin 1]).cache.Fits := by
  have e : (after vecCache op [.start, .trs 0, .fin 1]).cache =
      ⟨some (some 0), 1, [some ⟨[⟨1, 1, 1, 1⟩, ⟨2, 2, 1, 2⟩], 0, 0⟩], 3, [none, some none], 2⟩ := by rfl
  rw [e]
  refine ⟨fun i hi => by cases hi; decide, by decide, fun x hx => ?_, by decide, by decide, fun x hx => ?_, by decide, by decide⟩
  · obtain rfl : x = ⟨[⟨1, 1, 1, 1⟩, ⟨2, 2, 1, 2⟩], 0, 0⟩ := by simpa using hx
    refine ⟨fun t ht => ?_, by decide, by decide, by decide⟩
    have : t = ⟨1, 1, 1, 1⟩ ∨ t = ⟨2, 2, 1, 2⟩ := by simpa using ht
    rcases this with rfl | rfl <;> exact ⟨by decide, by decide, by decide, codecOk_int (by decide) (by decide)⟩
  · obtain rfl : x = none := by simpa using hx
    intro w hw; cases hw

theorem C77.map_fits : (after mapCache op [.start, .trs 0, .fin 1]).cache.Fits := by
  have e : (after mapCache op [.start, .trs 0, .fin 1]).cache =
      ⟨some (some 0), 1, [(0, ⟨[⟨1, 1, 1, 1⟩, ⟨2, 2, 1, 2⟩], 0, 0⟩)], 3, [(1, none)], 2⟩ := by rfl
  rw [e]
  refine ⟨fun i hi => by cases hi; decide, by decide, fun x hx => ?_, by decide, by decide, fun x hx => ?_, by decide, by decide⟩
  · obtain rfl : x = (0, ⟨[⟨1, 1, 1, 1⟩, ⟨2, 2, 1, 2⟩], 0, 0⟩) := by simpa using hx
    refine ⟨by decide, fun t ht => ?_, by decide, by decide, by decide⟩
    have : t = ⟨1, 1, 1, 1⟩ ∨ t = ⟨2, 2, 1, 2⟩ := by simpa using ht
    rcases this with rfl | rfl <;> exact ⟨by decide, by decide, by decide, codecOk_int (by decide) (by decide)⟩
  · obtain rfl : x = (1, none) := by simpa using hx
    exact ⟨by decide, fun w hw => by cases hw⟩

theorem C77.table_fits : (⟨[(⟨0, 2, 2⟩, 2), (⟨0, 1, 1⟩, 1), (⟨0, 0, 0⟩, 0)], [⟨0, 0, 0⟩, ⟨0, 1, 1⟩, ⟨0, 2, 2⟩]⟩ : BiMap (CTup Nat)).Fits := by
  refine ⟨fun p hp => ?_, by decide, fun t ht => ?_, by decide⟩
  · have : p = (⟨0, 2, 2⟩, 2) ∨ p = (⟨0, 1, 1⟩, 1) ∨ p = (⟨0, 0, 0⟩, 0) := by simpa using hp
    rcases this with rfl | rfl | rfl <;> exact ⟨tupFits_ctup (by decide), by decide⟩
  · have : t = ⟨0, 0, 0⟩ ∨ t = ⟨0, 1, 1⟩ ∨ t = ⟨0, 2, 2⟩ := by simpa using ht
    rcases this with rfl | rfl | rfl <;> exact tupFits_ctup (by decide)

example : ∃ z', LazyFiles.load getVecCache ⟨putVecCache (after vecCache op [.start, .trs 0, .fin 1]).cache,
      putTable (after vecCache op [.start, .trs 0, .fin 1]).op (after vecCache op [.start, .trs 0, .fin 1]).op.toId⟩ = .ok z' ∧
      Continues vecCache op.tabled z' (after vecCache op [.start, .trs 0, .fin 1]) :=
  C77_vec op _ vec_fits table_fits (List.Perm.refl _)

example : ∃ z', LazyFiles.load getMapCache ⟨putMapCache (after mapCache op [.start, .trs 0, .fin 1]).cache
        (after mapCache op [.start, .trs 0, .fin 1]).cache.trs (after mapCache op [.start, .trs 0, .fin 1]).cache.fins,
      putTable (after mapCache op [.start, .trs 0, .fin 1]).op (after mapCache op [.start, .trs 0, .fin 1]).op.toId.reverse⟩ = .ok z' ∧
      Continues mapCache op.tabled z' (after mapCache op [.start, .trs 0, .fin 1]) :=
  C77_map op _ map_fits table_fits (List.Perm.refl _) (List.Perm.refl _) (List.reverse_perm _)

theorem C77.two_operands : Operands two two := by
  have hs : ∀ s, ∀ t ∈ two.trsOf s, t = ⟨1, 1, 1, 1⟩ ∨ t = ⟨2, 2, 1, 2⟩ ∨ t = ⟨1, 1, 1, 3⟩ ∨ t = ⟨2, 2, 1, 4⟩ := by
    intro s t ht
    rcases s with _ | _ | _ | _ | _ | s <;> simp [two, Fst.trsOf] at ht
    · rcases ht with rfl | rfl <;> simp
    · simp [ht]
    · simp [ht]
  have hp : ∀ s, ((two.trsOf s).map (·.olabel)).Pairwise (· ≤ ·) ∧ ((two.trsOf s).map (·.ilabel)).Pairwise (· ≤ ·) := by
    intro s
    rcases s with _ | _ | _ | _ | _ | s <;> simp [two, Fst.trsOf]
  have hwf : two.WF := Fst.wf_of_wfB (by decide)
  have hc : two.AllCounters := by
    intro s st hst
    rcases s with _ | _ | _ | _ | _ | s <;> simp [two] at hst <;> subst hst <;> exact ⟨rfl, rfl⟩
  exact ⟨hwf, hwf, hc, hc, fun s t ht => by rcases hs s t ht with rfl | rfl | rfl | rfl <;> decide,
    fun s t ht => by rcases hs s t ht with rfl | rfl | rfl | rfl <;> decide, fun _ s => (hp s).1, fun _ s => (hp s).2, .inl rfl⟩

/-- A client may ask this before the save and after the load. -/
example : Fair vecCache op.tabled (fun _ => False) ⟨vecCache.empty, BiMap.new⟩ ([.start, .trs 0, .fin 1] ++ [.trs 1, .fin 2]) := by
  refine ⟨trivial, ?_, ?_, ?_, ?_, trivial⟩ <;> simp only [Query.about]
  · exact .inr rfl
  · exact .inr ⟨⟨1, 1, 1, 1⟩, by decide +kernel, rfl⟩
  · exact .inl (.inr ⟨⟨1, 1, 1, 1⟩, by decide +kernel, rfl⟩)
  · exact .inl (.inl (.inr ⟨⟨2, 2, 1, 2⟩, by decide +kernel, rfl⟩))

/-- A cut file: the last byte is missing. -/
example : LazyFiles.load (T := CTup Nat) (getVecCache (W := Int)) ⟨(putVecCache (after vecCache op [.start, .trs 0, .fin 1]).cache).dropLast, []⟩ =
    .error .err :=
  C77_cut_vec stable_int vec_fits (List.dropLast_prefix _) (fun h => by
    have := congrArg List.length h
    rw [List.length_dropLast] at this
    have h0 : 0 < (putVecCache (after vecCache op [.start, .trs 0, .fin 1]).cache).length := by decide +kernel
    omega) _

/-- C77 fails when the process ends between the two files: `write` writes the cache before the table, so the new cache stays with the old
table. The pair is loaded without an error, but numbers that the cache uses already are given away again: the final weight of the end
of the path `1 1` is now that of `2 2`. -/
theorem C77_torn_defect :
    Crash ⟨putVecCache (after vecCache op [.start, .trs 0]).cache, putTable (after vecCache op [.start, .trs 0]).op
        (after vecCache op [.start, .trs 0]).op.toId⟩
      ⟨putVecCache (after vecCache op [.start, .trs 0, .trs 1]).cache, putTable (after vecCache op [.start, .trs 0, .trs 1]).op
        (after vecCache op [.start, .trs 0, .trs 1]).op.toId⟩ torn ∧
    (asked vecCache (.ok (after vecCache op [.start, .trs 0, .trs 1])) [.trs 1, .trs 2, .fin 3]).map
      (fun l => (l.map targets, l.map finAnswer)) = some ([[3], [4], []], [none, none, some (some 1)]) ∧
    (asked vecCache (torn.load getVecCache) [.trs 1, .trs 2, .fin 3]).map
      (fun l => (l.map targets, l.map finAnswer)) = some ([[3], [3], []], [none, none, some (some 25)]) := by
  refine ⟨.inCache _ (List.prefix_rfl), ?_, ?_⟩ <;> decide +kernel

/-- C77 fails for a hash map cache in use by another thread: the number of entries and the entries are read under separate locks. An entry
inserted in between is read back as something else: here state 2, which is not final, has become final. -/
theorem C77_race_defect :
    (asked mapCache (.ok (after mapCache op [.start, .trs 0, .trs 2])) [.fin 2]).map (fun l => l.map finAnswer) = some [some none] ∧
    (asked mapCache (raced.load getMapCache) [.fin 2]).map (fun l => l.map finAnswer) = some [some (some 50331648)] := by
  constructor <;> decide +kernel

end Verif
