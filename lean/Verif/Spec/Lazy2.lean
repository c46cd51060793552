import Verif.Model.RmEpsLazy

/-!
# Specification: a delayed FST that presents an FST

The answers a fixed FST gives to a history of queries. The counters of a delayed FST are only known of states that have been computed:
whose transitions or final weight have been asked for.
-/

namespace Verif
universe u
variable {W : Type u}
open Lz

/-- The query makes the delayed FST compute state `s`. -/
def Lz.Query2.computes (s : StateId) : Query2 → Bool
  | .fin q => q == s
  | .trs q => q == s
  | _ => false

/-- The query is about a state below `n`. -/
def Lz.Query2.Below (n : Nat) : Query2 → Prop
  | .fin s => s < n
  | .trs s => s < n
  | _ => True

namespace Fst

/-- The number `k`, if state `s` has been asked for before. -/
def counted (before : List Query2) (s : StateId) (k : Nat) : R Nat := if before.any (·.computes s) then .ok k else .error .err

/-- The answer to a query after the queries `before`. -/
def answer (g : Fst W) (before : List Query2) : Query2 → Answer W
  | .start => .start (.ok g.start)
  | .fin s => .fin (.ok (g.finOf s))
  | .trs s => .trs (.ok (g.trsOf s))
  | .numTrs s => .num (counted before s (g.trsOf s).length)
  | .numIEps s => .num (counted before s ((g.trsOf s).countP fun t => t.ilabel == EPS))
  | .numOEps s => .num (counted before s ((g.trsOf s).countP fun t => t.olabel == EPS))

/-- The answers to a history of queries, after the queries `before`. -/
def answers (g : Fst W) (before : List Query2) : List Query2 → List (Answer W)
  | [] => []
  | q :: qs => g.answer before q :: g.answers (before ++ [q]) qs

end Fst
end Verif
