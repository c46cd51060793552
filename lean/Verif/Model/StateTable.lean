import Verif.Model.Core

/-!
# State tables of the lazy operations

A lazy operation numbers the tuples that stand for its states in the order in which it meets them.
A `HashMap` is modelled by an association list. The `Mutex` around each table makes every method atomic.
-/

namespace Verif
universe u
variable {T : Type u} [DecidableEq T]

/-- `BiHashMap` (lazy/state_table.rs 19-22); `StateTable` (66-68) is this behind a lock. -/
structure BiMap (T : Type u) where
  /-- `tuple_to_id` -/
  toId : List (T × StateId)
  /-- `id_to_tuple` -/
  ofId : List T
  deriving DecidableEq

namespace BiMap

/-- `BiHashMap::new`, `StateTable::new` (state_table.rs 31-36, 93-97). -/
def new : BiMap T := ⟨[], []⟩

/-- `HashMap` lookup. -/
def lookup (m : BiMap T) (t : T) : Option StateId := (m.toId.find? (fun p => decide (p.1 = t))).map (·.2)

/-- `get_id_or_insert` (state_table.rs 49-59), `find_id` (105-108), `find_id_from_ref` (100-103). Ids do not wrap around. -/
def findId (m : BiMap T) (t : T) : StateId × BiMap T :=
  match m.lookup t with
  | some s => (s, m)
  | none => (m.ofId.length, ⟨(t, m.ofId.length) :: m.toId, m.ofId ++ [t]⟩)

/-- `get_tuple_unchecked` (state_table.rs 61-63), `find_tuple` (111-114): indexing panics out of range. -/
def findTuple (m : BiMap T) (s : StateId) : R T :=
  match m.ofId[s]? with
  | some t => .ok t
  | none => .error .panic

/-- A sequence of `find_id` calls, in order, with their answers. -/
def findIds (m : BiMap T) : List T → List StateId × BiMap T
  | [] => ([], m)
  | t :: ts =>
    let (s, m1) := m.findId t
    let (ss, m2) := m1.findIds ts
    (s :: ss, m2)

end BiMap

/-! ### The table of `factor_weight` -/

/-- `Element` (factor_weight/mod.rs): the state still to be visited, if any, and the weight still to be paid. -/
structure FwElt (W : Type u) where
  state : Option StateId
  weight : W
  deriving DecidableEq

/-- `InnerStateTable` and the flag (factor_weight/state_table.rs 11-14, 44-47). `bimap` is the `BiHashMap` of the crate `bimap`. -/
structure FwTable (W : Type u) where
  bimap : List (StateId × FwElt W)
  unfactored : List (StateId × StateId)
  factorTr : Bool

namespace FwTable
variable {W : Type u} [One W] [DecidableEq W]

/-- `FactorWeightStateTable::new` (50-55). -/
def new (factorTr : Bool) : FwTable W := ⟨[], [], factorTr⟩

/-- `bimap::BiHashMap::insert`: pairs with the same left or the same right value are removed. -/
def bimapInsert (m : List (StateId × FwElt W)) (n : StateId) (e : FwElt W) : List (StateId × FwElt W) :=
  m.filter (fun p => decide (p.1 ≠ n ∧ p.2 ≠ e)) ++ [(n, e)]

/-- `bimap::BiHashMap::get_by_left`. -/
def byLeft (m : List (StateId × FwElt W)) (n : StateId) : Option (FwElt W) :=
  (m.find? (fun p => decide (p.1 = n))).map (·.2)

/-- `bimap::BiHashMap::get_by_right`. -/
def byRight (m : List (StateId × FwElt W)) (e : FwElt W) : Option StateId :=
  (m.find? (fun p => decide (p.2 = e))).map (·.1)

/-- `find_tuple` (24-26, 57-60): `unwrap` panics on an unknown id. -/
def findTuple (t : FwTable W) (n : StateId) : R (FwElt W) :=
  match byLeft t.bimap n with
  | some e => .ok e
  | none => .error .panic

/-- `insert_bimap` (36-40). -/
def insertBimap (t : FwTable W) (e : FwElt W) : StateId × FwTable W :=
  (t.bimap.length, { t with bimap := bimapInsert t.bimap t.bimap.length e })

/-- `find_id_or_insert_bimap` (28-35). -/
def findOrInsert (t : FwTable W) (e : FwElt W) : StateId × FwTable W :=
  match byRight t.bimap e with
  | none => t.insertBimap e
  | some n => (n, t)

/-- The map `unfactored` at a key. -/
def unfactoredAt (t : FwTable W) (q : StateId) : Option StateId :=
  (t.unfactored.find? (fun p => decide (p.1 = q))).map (·.2)

/-- The part of `find_state` (64-73) for a state whose weight is one. -/
def findUnfactored (t : FwTable W) (e : FwElt W) (q : StateId) : StateId × FwTable W :=
  match t.unfactoredAt q with
  | some n => (n, t)
  | none =>
    let (n, t1) := t.insertBimap e
    (n, { t1 with unfactored := (q, n) :: t1.unfactored })

/-- `find_state` (62-78). -/
def findState (t : FwTable W) (e : FwElt W) : StateId × FwTable W :=
  match e.state with
  | some q => if t.factorTr = false ∧ e.weight = 1 then t.findUnfactored e q else t.findOrInsert e
  | none => t.findOrInsert e

end FwTable
end Verif
