import Verif.Model.Heap
import Verif.Model.ShortestDistance
import Verif.Model.ShortestPath
import Verif.Model.Dfs

/-!
# The `n` shortest paths (`algorithms/shortest_path.rs`)

The search runs on the reversed FST, whose weights have the type `V`; `back` is `reverse_back`. The vector `r` is filled with zeros when
it is too short, so it is modelled as a function. `eqv` is `approx_equal(_, delta)`. State numbers are not cut to 32 bits.
-/

namespace Verif
universe u v

/-- The variables of `n_shortest_path` (421-448). -/
structure NSp (W : Type u) where
  ofst : Fst W
  pairs : List (Option StateId × W)
  heap : List StateId
  r : Nat → Nat

namespace NSp
variable {W : Type u} {V : Type v} [Zero W] [One W] [Add W] [Mul W] [DecidableEq W]

/-- `natural_less` (284-286). -/
def less (a b : W) : Bool := decide (a + b = a) && decide (a ≠ b)

/-- `pweight` (312-323), also 451-460. -/
def pweight (dist : List W) : Option StateId → W
  | some s => (dist[s]?).getD 0
  | none => 1

/-- The weight that `compare` gives to an entry of `pairs` (329-330). -/
def key (dist : List W) (p : Option StateId × W) : W := pweight dist p.1 * p.2

/-- `compare` (325-338) on two entries. -/
def lessPair (eqv : W → W → Bool) (dist : List W) (px py : Option StateId × W) : Bool :=
  let wx := key dist px
  let wy := key dist py
  if px.1.isNone && py.1.isSome then less wy wx || eqv wx wy
  else if px.1.isSome && py.1.isNone then less wy wx && !eqv wx wy
  else less wy wx

/-- `compare` (325-338). A state without an entry panics; there is none, every state of the output is given an entry when it is added. -/
def compare (eqv : W → W → Bool) (dist : List W) (pairs : List (Option StateId × W)) (x y : StateId) : Bool :=
  lessPair eqv dist ((pairs[x]?).getD (none, 0)) ((pairs[y]?).getD (none, 0))

/-- A new state that leads to `state` (491-497, 504-508): its entry is `e`, its transition carries `i`, `o` and `w`. -/
def grow (eqv : W → W → Bool) (dist : List W) (st : NSp W) (e : Option StateId × W) (i o : Label) (w : W) (state : StateId) : NSp W :=
  let next := st.ofst.numStates
  let pairs := st.pairs ++ [e]
  { st with
    ofst := st.ofst.addState.addTr next ⟨i, o, w, state⟩
    pairs := pairs
    heap := Heap.push (compare eqv dist pairs) st.heap next }

/-- The loop over the transitions (483-498). -/
def growAll (eqv : W → W → Bool) (dist : List W) (back : V → W) (state : StateId) (p : W) (st : NSp W) (l : List (Tr V)) : NSp W :=
  l.foldl (fun st t => st.grow eqv dist (some t.nextstate, p * back t.weight) t.ilabel t.olabel (back t.weight) state) st

/-- The final weight (499-510). -/
def growFinal (eqv : W → W → Bool) (dist : List W) (back : V → W) (state : StateId) (p : W) (st : NSp W) (fin : Option V) : NSp W :=
  match fin with
  | none => st
  | some v => if back v ≠ 0 then st.grow eqv dist (none, p * back v) EPS EPS (back v) state else st

/-- One turn of the loop (446-511), `true` when the loop goes on. `limit` is `distance[istart].times(zero)`. `get_trs` fails on a state
that does not exist. -/
def turn (eqv : W → W → Bool) (dist : List W) (back : V → W) (g : Fst V) (n : Nat) (limit : W) (st : NSp W) : R (Bool × NSp W) :=
  match st.heap with
  | [] => .ok (false, st)
  | _ :: _ =>
    match Heap.pop (compare eqv dist st.pairs) st.heap with
    | .error x => .error x
    | .ok (state, heap) =>
      match st.pairs[state]? with
      | none => .error .panic
      | some p =>
        let st := { st with heap := heap }
        if less limit (key dist p) then .ok (true, st)
        else
          match p.1 with
          | none =>
            let st := { st with r := upd st.r 0 (st.r 0 + 1), ofst := st.ofst.addTr 0 ⟨EPS, EPS, 1, state⟩ }
            .ok (decide (st.r 0 ≠ n), st)
          | some s =>
            let st := { st with r := upd st.r (s + 1) (st.r (s + 1) + 1) }
            if n < st.r (s + 1) then .ok (true, st)
            else
              match g.getTrsR s, g.finalWeightR s with
              | .error x, _ => .error x
              | .ok _, .error x => .error x
              | .ok trs, .ok fin => .ok (true, growFinal eqv dist back state p.2 (growAll eqv dist back state p.2 st trs) fin)

/-- The loop (446-511): `none` says that `fuel` turns were not enough. -/
def loop (eqv : W → W → Bool) (dist : List W) (back : V → W) (g : Fst V) (n : Nat) (limit : W) : Nat → NSp W → Option (R (NSp W))
  | 0, _ => none
  | fuel + 1, st =>
    match st.turn eqv dist back g n limit with
    | .error x => some (.error x)
    | .ok (false, st) => some (.ok st)
    | .ok (true, st) => loop eqv dist back g n limit fuel st

/-- The variables before the loop (431-444): state 0 is `ostart`, state 1 is `final_state`. -/
def init (eqv : W → W → Bool) (dist : List W) (istart : StateId) : NSp W where
  ofst := (((Fst.new.addState).setStart 0).addState).setFinal 1 1
  pairs := [(none, 0), (some istart, 1)]
  heap := Heap.push (compare eqv dist [(none, 0), (some istart, 1)]) [] 1
  r := fun _ => 0

end NSp

namespace Fst
variable {W : Type u} {V : Type v} [Zero W] [One W] [Add W] [Mul W] [DecidableEq W]

/-- `shortest_path_properties(_, false)` (mutate_properties.rs 662-672). -/
def nspProps (p : Props) : Props := (spProps p).or (Props.of [.coaccessible])

/-- `n_shortest_path` (409-519) on the reversed FST `g`. -/
def nShortest (sf : SemiringFlags) (eqv : W → W → Bool) (back : V → W) (g : Fst V) (dist : List W) (n : Nat) (fuel : Nat) :
    Option (R (Fst W)) :=
  if n = 0 then some (.ok Fst.new)
  else if sf.path = false ∨ sf.left = false ∨ sf.right = false then some (.error .err)
  else
    match g.start with
    | none => some (.ok Fst.new)
    | some istart =>
      match dist[istart]? with
      | none => some (.ok Fst.new)
      | some d =>
        if d = 0 then some (.ok Fst.new)
        else
          match NSp.loop eqv dist back g n (d * 0) fuel (NSp.init eqv dist istart) with
          | none => none
          | some (.error x) => some (.error x)
          | some (.ok st) =>
            match st.ofst.connect with
            | .error x => some (.error x)
            | .ok o => some (.ok (o.setPropsMask (nspProps o.props) Props.allMask))

/-- Lines 144-151: the distance of the state that `reverse` adds. `rarc.nextstate - 1` does not wrap around: no transition leads to that
state. -/
def superDist (back : V → W) (g : Fst V) (dist : List W) : W :=
  (g.trsOf 0).foldl (fun d t =>
    match dist[t.nextstate - 1]? with
    | none => d
    | some x => d + back t.weight * x) 0

/-- `shortest_path_with_config` with `unique = false` (107-172), without the symbol tables. -/
def shortestPaths [Zero V] [One V] [DecidableEq V] (sf : SemiringFlags) (eqv : W → W → Bool) (rev : W → V) (back : V → W) (f : Fst W)
    (n : Nat) (fuel : Nat) : Option (R (Fst W)) :=
  if n = 0 then some (.ok Fst.new)
  else if n = 1 then f.shortestPath sf fuel
  else if sf.path = false ∨ sf.left = false ∨ sf.right = false then some (.error .err)
  else
    match f.shortestDistance sf eqv fuel with
    | none => none
    | some (.error x) => some (.error x)
    | some (.ok dist) =>
      match f.reverse rev with
      | .error x => some (.error x)
      | .ok g => g.nShortest sf eqv back (superDist back g dist :: dist) n fuel

end Fst
end Verif
