import Verif.Model.BinFst
import Verif.Model.Compose

/-!
# Saving and loading the interior of a lazy FST

`SerializableLazyFst::write` (lazy_fst.rs 273-286) writes two files: the cache and the state table of the operation. They are read back with
`SerializableCache::read` and `SerializableOpState::read`, and a `ComposeFst` is built around them with `new_with_options_and_cache`
(compose_fst.rs 132-155). A `HashMap` is written in its iteration order, which is an argument of the writers here.
-/

namespace Verif
universe u v
variable {W : Type u} {T : Type v}

/-- `SerializeBinary` (parsers/mod.rs 15-20). -/
class TupleCodec (T : Type v) where
  /-- `write_binary` -/
  put : T → Bytes
  /-- `parse_binary` -/
  get : P T

/-- `impl SerializeBinary for ComposeStateTuple` (compose_state_tuple.rs 17-40) with `IntegerFilterState` (integer_filter_state.rs 34-48): three
numbers `as u64`, read back `as StateId`. -/
instance : TupleCodec (CTup Nat) where
  put t := putU 8 t.fs ++ (putU 8 t.s1 ++ putU 8 t.s2)
  get := (getU 8).bind fun f => (getU 8).bind fun a => (getU 8).bind fun b => P.pure ⟨toU 32 f, toU 32 a, toU 32 b⟩

/-! ## Pieces (`lazy/cache/utils_serialization.rs`, `lazy/cache/utils_parsing.rs`) -/

/-- `write_cache_start_state` (utils_serialization.rs 11-27). -/
def putCacheStart : Option (Option StateId) → Bytes
  | some s => putU 1 1 ++ putI 8 (putStart s)
  | none => putU 1 0

/-- `parse_cache_start_state` (utils_parsing.rs 15-25). -/
def getCacheStart : P (Option (Option StateId)) :=
  (getU 1).bind fun c => if c = 0 then P.pure none else (getI 8).bind fun s => P.pure (some (getStart s))

section
variable [WeightCodec W]

/-- The part that `write_vec_cache_trs` (utils_serialization.rs 37-44) and `write_hashmap_cache_trs` (63-70) share. -/
def putCacheTrs (c : CacheTrs W) : Bytes :=
  putU 8 c.trs.length ++ ((c.trs.map putTr).flatten ++ (putU 8 c.niepsilons ++ putU 8 c.noepsilons))

/-- The part that `parse_vec_cache_trs` (utils_parsing.rs 35-47) and `parse_hashmap_cache_trs` (55-69) share. -/
def getCacheTrs : P (CacheTrs W) :=
  (getI 8).bind fun n => (P.count getTr (toU 64 n)).bind fun l => (getU 8).bind fun i => (getU 8).bind fun o => P.pure ⟨l, i, o⟩

/-- `write_vec_cache_trs` (utils_serialization.rs 29-53). -/
def putVecTrs : Option (CacheTrs W) → Bytes
  | some c => putU 1 1 ++ putCacheTrs c
  | none => putU 1 0

/-- `parse_vec_cache_trs` (utils_parsing.rs 27-49). -/
def getVecTrs : P (Option (CacheTrs W)) :=
  (getU 1).bind fun c => if c = 0 then P.pure none else getCacheTrs.bind fun x => P.pure (some x)

/-- `write_final_weight` (bin_fst/utils_serialization.rs 20-34). -/
def putFinW : Option W → Bytes
  | some w => putU 1 1 ++ WeightCodec.put w
  | none => putU 1 0

/-- The same lines of `parse_vec_cache_final_weight` (utils_parsing.rs 80-86) and `parse_hashmap_cache_final_weight` (94-100). -/
def getFinW : P (Option W) :=
  (getU 1).bind fun c => if c = 1 then (WeightCodec.get (W := W)).bind fun w => P.pure (some w) else P.pure none

/-- `write_vec_cache_final_weight` (utils_serialization.rs 76-93). -/
def putVecFin : Option (Option W) → Bytes
  | some w => putU 1 1 ++ putFinW w
  | none => putU 1 0

/-- `parse_vec_cache_final_weight` (utils_parsing.rs 73-89). -/
def getVecFin : P (Option (Option W)) :=
  (getU 1).bind fun c => if c = 0 then P.pure none else getFinW.bind fun x => P.pure (some x)

/-! ## `SimpleVecCache` -/

/-- `write_simple_vec_cache` (simple_vec_cache.rs 220-274). -/
def putVecCache (c : VecCache W) : Bytes :=
  putU 8 c.startKnown ++ (putCacheStart c.start ++ (putU 8 c.trsKnown ++ (putU 8 c.trs.length ++ ((c.trs.map putVecTrs).flatten ++
    (putU 8 c.finsKnown ++ (putU 8 c.fins.length ++ (c.fins.map putVecFin).flatten))))))

/-- `parse_simple_vec_cache` (simple_vec_cache.rs 276-313). -/
def getVecCache : P (VecCache W) :=
  (getU 8).bind fun sk => getCacheStart.bind fun s => (getU 8).bind fun tk => (getU 8).bind fun tn => (P.count getVecTrs tn).bind fun ts =>
  (getU 8).bind fun fk => (getU 8).bind fun fn => (P.count getVecFin fn).bind fun fs => P.pure ⟨s, sk, ts, tk, fs, fk⟩

/-! ## `SimpleHashMapCache` -/

/-- `write_hashmap_cache_trs` (utils_serialization.rs 55-74) for an entry of the map. -/
def putMapTrs (p : StateId × CacheTrs W) : Bytes := putU 8 p.1 ++ putCacheTrs p.2

/-- `parse_hashmap_cache_trs` (utils_parsing.rs 51-71). -/
def getMapTrs : P (StateId × CacheTrs W) := (getI 8).bind fun s => getCacheTrs.bind fun c => P.pure (toU 32 s, c)

/-- `write_hashmap_cache_final_weight` (utils_serialization.rs 95-104). -/
def putMapFin (p : StateId × Option W) : Bytes := putU 8 p.1 ++ putFinW p.2

/-- `parse_hashmap_cache_final_weight` (utils_parsing.rs 91-102). -/
def getMapFin : P (StateId × Option W) := (getI 8).bind fun s => getFinW.bind fun w => P.pure (toU 32 s, w)

/-- What `write_simple_hashmap_cache` writes (simple_hash_map_cache.rs 209-266), as a function of what it reads. The lengths and the entries of
the maps are read under separate locks. -/
def putMapParts (start : Option (Option StateId)) (startKnown trsKnown trsLen : Nat) (trs : List (StateId × CacheTrs W)) (finsKnown finsLen : Nat)
    (fins : List (StateId × Option W)) : Bytes :=
  putU 8 startKnown ++ (putCacheStart start ++ (putU 8 trsKnown ++ (putU 8 trsLen ++ ((trs.map putMapTrs).flatten ++
    (putU 8 finsKnown ++ (putU 8 finsLen ++ (fins.map putMapFin).flatten))))))

/-- `write_simple_hashmap_cache` while no other thread uses the cache; `trs` and `fins` are its entries in iteration order. -/
def putMapCache (c : MapCache W) (trs : List (StateId × CacheTrs W)) (fins : List (StateId × Option W)) : Bytes :=
  putMapParts c.start c.startKnown c.trsKnown c.trs.length trs c.finsKnown c.fins.length fins

/-- `parse_simple_hashmap_cache` (simple_hash_map_cache.rs 268-324); the entries are inserted one after the other (`fold_many_m_n`). -/
def getMapCache : P (MapCache W) :=
  (getU 8).bind fun sk => getCacheStart.bind fun s => (getU 8).bind fun tk => (getU 8).bind fun tn => (P.count getMapTrs tn).bind fun ts =>
  (getU 8).bind fun fk => (getU 8).bind fun fn => (P.count getMapFin fn).bind fun fs =>
  P.pure ⟨s, sk, ts.foldl (fun m p => mapPut m p.1 p.2) [], tk, fs.foldl (fun m p => mapPut m p.1 p.2) [], fk⟩
end

/-! ## `StateTable` -/

section
variable [TupleCodec T]

/-- `StateTable::write_binary` (state_table.rs 155-171); `rows` are the entries of `tuple_to_id` in iteration order. -/
def putTable (m : BiMap T) (rows : List (T × StateId)) : Bytes :=
  putU 8 m.toId.length ++ ((rows.map fun p => TupleCodec.put p.1 ++ putU 8 p.2).flatten ++
    (putU 8 m.ofId.length ++ (m.ofId.map TupleCodec.put).flatten))

/-- `parse_tuple_to_id` (state_table.rs 174-181). -/
def getRow : P (T × StateId) := (TupleCodec.get (T := T)).bind fun t => (getU 8).bind fun s => P.pure (t, toU 32 s)

/-- `HashMap::insert`. -/
def rowPut [DecidableEq T] (l : List (T × StateId)) (p : T × StateId) : List (T × StateId) := p :: l.filter fun q => decide (q.1 ≠ p.1)

/-- `StateTable::parse_binary` (state_table.rs 129-153). -/
def getTable [DecidableEq T] : P (BiMap T) :=
  (getU 8).bind fun n => (P.count getRow n).bind fun rows => (getU 8).bind fun k => (P.count TupleCodec.get k).bind fun l =>
  P.pure ⟨rows.foldl rowPut [], l⟩
end

/-! ## The two files -/

/-- The two files of a saved lazy FST, with their contents. -/
structure LazyFiles where
  cache : Bytes
  table : Bytes

/-- Read both files (`SerializableCache::read`, simple_vec_cache.rs 181-190 and simple_hash_map_cache.rs 170-179; `ComposeFstOpState::read`,
compose_fst_op.rs 46-55) and put the lazy FST together (`new_with_options_and_cache`, compose_fst.rs 132-155). Bytes after the end are ignored. -/
def LazyFiles.load {C : Type u} [TupleCodec T] [DecidableEq T] (get : P C) (d : LazyFiles) : R (Lz C (BiMap T)) :=
  match get d.cache with
  | .error e => .error e
  | .ok (c, _) =>
    match getTable d.table with
    | .error e => .error e
    | .ok (m, _) => .ok ⟨c, m⟩

/-- The contents of the two files if the process ends while `write` (lazy_fst.rs 281-285) replaces the files `old` by `new`: first the cache is
created, empty, and written piece by piece, then the table. -/
inductive Crash (old new : LazyFiles) : LazyFiles → Prop
  | before : Crash old new old
  | inCache (p : Bytes) : p <+: new.cache → Crash old new ⟨p, old.table⟩
  | inTable (p : Bytes) : p <+: new.table → Crash old new ⟨new.cache, p⟩

end Verif
