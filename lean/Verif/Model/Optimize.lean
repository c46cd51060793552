import Verif.Model.TrMap
import Verif.Model.RmEpsilon
import Verif.Model.DeterminizeFst
import Verif.Model.MinimizeTr

/-!
# `optimize` (`algorithms/optimize.rs`)
-/

namespace Verif
universe u
variable {W : Type u} [Zero W] [One W] [Add W] [Mul W] [DecidableEq W]

/-- The algorithms `optimize` calls, with the weight type and the default configurations filled in: `rm_epsilon`, `determinize` of an FST with and
without the `ACCEPTOR` flag (determinize_static.rs 184-194), `minimize`; and whether the weight type has the property `IDEMPOTENT`. Each gets a bound on
the rounds of its loops. -/
structure OptEnv (W : Type u) where
  idempotent : Bool
  rmEps : Fst W → Nat → Option (R (Fst W))
  detAcceptor : Fst W → Nat → Option (R (Fst W))
  detTransducer : Fst W → Nat → Option (R (Fst W))
  minimize : Fst W → Nat → Option (R (Fst W))

/-- `a?; b` for computations with a bound. -/
def andThen {α β : Type u} (a : Option (R α)) (b : α → Option (R β)) : Option (R β) :=
  match a with
  | none => none
  | some (.error e) => some (.error e)
  | some (.ok x) => b x

namespace OptEnv

/-- `determinize` (optimize.rs 27-35, determinize_static.rs 184-194). -/
def determinize (e : OptEnv W) (f : Fst W) (n : Nat) : Option (R (Fst W)) :=
  if f.props .acceptor then e.detAcceptor f n else e.detTransducer f n

/-- `encode_deter_mini_decode` (optimize.rs 37-52). -/
def encodeDeterMiniDecode (e : OptEnv W) (ty : EncodeType) (f : Fst W) (n : Nat) : Option (R (Fst W)) :=
  match f.encode ty with
  | .error x => some (.error x)
  | .ok (T, g) => andThen (e.determinize g n) fun d => andThen (e.minimize d n) fun m => some (m.decode ty T)

/-- The first steps, which `optimize_transducer` and `optimize_acceptor` share (optimize.rs 63-67, 102-105). -/
def prepare (e : OptEnv W) (f : Fst W) (n : Nat) : Option (R (Fst W)) :=
  andThen (if f.props .noEpsilons then some (.ok f) else e.rmEps f n) fun g => some (.ok g.trSum)

/-- `optimize_transducer` (optimize.rs 54-91). -/
def optimizeTransducer (e : OptEnv W) (f : Fst W) (n : Nat) : Option (R (Fst W)) :=
  andThen (e.prepare f n) fun g =>
    if !e.idempotent then
      if !g.props .iDeterministic then
        if g.props .acyclic then e.encodeDeterMiniDecode .encodeLabels g n else some (.ok g)
      else e.minimize g n
    else if !g.props .iDeterministic then
      if !(g.props .acyclic || g.props .unweighted || g.props .unweightedCycles) then
        andThen (e.encodeDeterMiniDecode .encodeWeightsAndLabels g n) fun h => some (.ok h.trSum)
      else e.encodeDeterMiniDecode .encodeLabels g n
    else e.minimize g n

/-- `optimize_acceptor` (optimize.rs 93-129). -/
def optimizeAcceptor (e : OptEnv W) (f : Fst W) (n : Nat) : Option (R (Fst W)) :=
  andThen (e.prepare f n) fun g =>
    if !e.idempotent then
      if !g.props .iDeterministic then
        if g.props .acyclic then andThen (e.determinize g n) fun d => e.minimize d n else some (.ok g)
      else e.minimize g n
    else if !g.props .iDeterministic then
      if !(g.props .acyclic || g.props .unweighted || g.props .unweightedCycles) then
        andThen (e.encodeDeterMiniDecode .encodeWeights g n) fun h => some (.ok h.trSum)
      else andThen (e.determinize g n) fun d => e.minimize d n
    else e.minimize g n

/-- `optimize` (optimize.rs 11-25). -/
def optimize (e : OptEnv W) (f : Fst W) (n : Nat) : Option (R (Fst W)) :=
  if f.props .acceptor then e.optimizeAcceptor f n else e.optimizeTransducer f n

end OptEnv
end Verif
