import Verif.Model.Lazy

/-!
# Lazy FSTs shared by several threads

`LazyFst` is queried through `&self` from several threads: each method of the cache and each method of the state table takes a
lock, but a query as a whole does not. So a query is a sequence of atomic steps (look into the cache; look the tuple up; number the
targets one by one; insert into the cache) that may be interleaved with those of other queries in any way.
-/

namespace Verif
universe u v w x
variable {W : Type u} {C : Type v} {τ : Type w} {T : Type x}

namespace Lz

/-- Where a running query is. -/
inductive Thread (T : Type x) (W : Type u)
  /-- about to look into the cache -/
  | ask (q : Query)
  /-- found nothing: about to call the operation -/
  | startMiss
  | finMiss (s : StateId)
  | trsMiss (s : StateId)
  /-- numbering the targets of the transitions of `s` -/
  | naming (s : StateId) (todo : List (MTr T W)) (acc : List (Tr W))
  /-- about to insert into the cache -/
  | putStart (r : Option StateId)
  | putFin (s : StateId) (w : Option W)
  | putTrs (s : StateId) (l : List (Tr W))
  | done (q : Query) (a : Answer W)

/-- Cache, state table and all queries issued so far. -/
structure Conf (C : Type v) (τ : Type w) (T : Type x) (W : Type u) where
  cache : C
  table : τ
  threads : List (Thread T W)

variable (K : CacheOps W C) (O : TupleOp T W) (find : τ → T → StateId × τ) (tuple : τ → StateId → R T)

/-- One atomic step of one query (lazy_fst.rs 35-102 with the operation of `TupleOp.withTable`). -/
def stepThread (c : C) (m : τ) : Thread T W → C × τ × Thread T W
  | .ask .start => match K.getStart c with
    | some r => (c, m, .done .start (.start (.ok r)))
    | none => (c, m, .startMiss)
  | .ask (.fin s) => match K.getFinal c s with
    | some r => (c, m, .done (.fin s) (.fin (.ok r)))
    | none => (c, m, .finMiss s)
  | .ask (.trs s) => match K.getTrs c s with
    | some r => (c, m, .done (.trs s) (.trs (.ok r)))
    | none => (c, m, .trsMiss s)
  | .ask (.numTrs s) => (c, m, .done (.numTrs s) (.num (okOr (K.numTrs c s))))
  | .ask (.numIEps s) => (c, m, .done (.numIEps s) (.num (okOr (K.numIEps c s))))
  | .ask (.numOEps s) => (c, m, .done (.numOEps s) (.num (okOr (K.numOEps c s))))
  | .ask .clear => (K.empty, m, .done .clear .unit)
  | .startMiss => match O.start with
    | .error _ => (c, m, .done .start (.start (.error .panic)))
    | .ok none => (c, m, .putStart none)
    | .ok (some t) => (c, (find m t).2, .putStart (some (find m t).1))
  | .finMiss s => match tuple m s with
    | .error e => (c, m, .done (.fin s) (.fin (.error e)))
    | .ok t => match O.fin t with
      | .error e => (c, m, .done (.fin s) (.fin (.error e)))
      | .ok w => (c, m, .putFin s w)
  | .trsMiss s => match tuple m s with
    | .error e => (c, m, .done (.trs s) (.trs (.error e)))
    | .ok t => match O.trs t with
      | .error e => (c, m, .done (.trs s) (.trs (.error e)))
      | .ok l => (c, m, .naming s l [])
  | .naming s [] acc => (c, m, .putTrs s acc)
  | .naming s (a :: as) acc => (c, (find m a.next).2, .naming s as (acc ++ [⟨a.ilabel, a.olabel, a.weight, (find m a.next).1⟩]))
  | .putStart r => (K.insertStart c r, m, .done .start (.start (.ok r)))
  | .putFin s w => (K.insertFinal c s w, m, .done (.fin s) (.fin (.ok w)))
  | .putTrs s l => (K.insertTrs c s l, m, .done (.trs s) (.trs (.ok l)))
  | .done q a => (c, m, .done q a)

/-- What the scheduler does next: some thread issues a query, or query number `i` makes one step. -/
inductive Event
  | issue (q : Query)
  | step (i : Nat)

/-- One event. -/
def Conf.event (x : Conf C τ T W) : Event → Conf C τ T W
  | .issue q => { x with threads := x.threads ++ [.ask q] }
  | .step i => match x.threads[i]? with
    | none => x
    | some t =>
      let (c, m, t') := stepThread K O find tuple x.cache x.table t
      ⟨c, m, x.threads.set i t'⟩

/-- A whole schedule. -/
def Conf.schedule (x : Conf C τ T W) : List Event → Conf C τ T W
  | [] => x
  | e :: es => (x.event K O find tuple e).schedule es

end Lz
end Verif
