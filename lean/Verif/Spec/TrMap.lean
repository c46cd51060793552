import Verif.Model.TrMap

/-!
# What `tr_map` is meant to do

The mapper is called once for every transition and final weight, state by state; within a state transitions come first. The
final weights it returns are placed according to its `MapFinalAction`.
-/

namespace Verif
universe u v
variable {W : Type u} {σ : Type v}

/-- The mapper called on each transition of a list, in order. -/
def Mapper.runTrs (m : Mapper σ W) : σ → List (Tr W) → R (σ × List (Tr W))
  | k, [] => .ok (k, [])
  | k, t :: ts =>
    match m.tr k t with
    | .error e => .error e
    | .ok (k', t') =>
      match m.runTrs k' ts with
      | .error e => .error e
      | .ok (k'', ts') => .ok (k'', t' :: ts')

/-- The mapper called on a final weight, if there is one. -/
def Mapper.runFin (m : Mapper σ W) (k : σ) : Option W → R (σ × Option (FinalTr W))
  | none => .ok (k, none)
  | some w =>
    match m.fin k ⟨EPS, EPS, w⟩ with
    | .error e => .error e
    | .ok (k', t) => .ok (k', some t)

/-- The mapper called on the transitions and the final weight of a state. -/
def Mapper.runState (m : Mapper σ W) (k : σ) (r : List (Tr W) × Option W) : R (σ × List (Tr W) × Option (FinalTr W)) :=
  match m.runTrs k r.1 with
  | .error e => .error e
  | .ok (k', ts) =>
    match m.runFin k' r.2 with
    | .error e => .error e
    | .ok (k'', t) => .ok (k'', ts, t)

/-- The mapper called on all states. -/
def Mapper.runAll (m : Mapper σ W) : σ → List (List (Tr W) × Option W) → R (σ × List (List (Tr W) × Option (FinalTr W)))
  | k, [] => .ok (k, [])
  | k, r :: rs =>
    match m.runState k r with
    | .error e => .error e
    | .ok (k', r') =>
      match m.runAll k' rs with
      | .error e => .error e
      | .ok (k'', rs') => .ok (k'', r' :: rs')

/-- Transitions and final weights of all states. -/
def Fst.rows (f : Fst W) : List (List (Tr W) × Option W) := (List.range f.numStates).map fun s => (f.trsOf s, f.finOf s)

/-- The transitions and the final weight of a state after mapping: `ts` are the mapped transitions, `t` the mapped final
weight, `sf` the superfinal state. -/
def placed [Zero W] [DecidableEq W] (act : FinalAction) (sf : StateId) (ts : List (Tr W)) :
    Option (FinalTr W) → List (Tr W) × Option W
  | none => (ts, none)
  | some t =>
    match act with
    | .noSuperfinal => (ts, some t.weight)
    | .allowSuperfinal =>
      if t.ilabel ≠ EPS ∨ t.olabel ≠ EPS then (ts ++ [⟨t.ilabel, t.olabel, t.weight, sf⟩], none) else (ts, some t.weight)
    | .requireSuperfinal =>
      if t.ilabel ≠ EPS ∨ t.olabel ≠ EPS ∨ t.weight ≠ 0 then (ts ++ [⟨t.ilabel, t.olabel, t.weight, sf⟩], none) else (ts, none)

/-- Is there a superfinal state in the result? -/
def usesSuper (act : FinalAction) (out : List (List (Tr W) × Option (FinalTr W))) : Bool :=
  match act with
  | .noSuperfinal => false
  | .allowSuperfinal => out.any fun r => r.2.any FinalTr.labelled
  | .requireSuperfinal => true

end Verif
