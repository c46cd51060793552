import Verif.Spec.Path
import Mathlib.Algebra.BigOperators.Fin
import Mathlib.Logic.Relation

/-!
# Specification: recursive transition networks

A family of FSTs. Some transitions are calls: to take such a transition means to take a successful path of the FST it calls.
-/

namespace Verif
universe u
variable {W : Type u}

/-- A recursive transition network. `call tr` is what a path reads and pays for a call as such, `ret` the same for a return. -/
structure Rtn (W : Type u) where
  fst : Nat → Fst W
  callee : Tr W → Option Nat
  call : Tr W → PathT W
  ret : PathT W

/-- The paths from state `s` of FST `i` to a final state of it, all calls carried out, with exactly `n` steps: a transition that is not
a call, a call and a return each are a step. -/
def Rtn.expand [Mul W] (N : Rtn W) : Nat → Nat → StateId → Multiset (PathT W)
  | 0, i, s => match (N.fst i).finOf s with
    | none => 0
    | some w => {([], [], w)}
  | n + 1, i, s => ((N.fst i).trsOf s : Multiset (Tr W)).bind fun tr =>
    match N.callee tr with
    | none => catAll {tr.asPath} (N.expand n i tr.nextstate)
    | some j => match (N.fst j).start with
      | none => 0
      | some q => ∑ k : Fin n, catAll {N.call tr} (catAll (N.expand k j q) (catAll {N.ret} (N.expand (n - 1 - k) i tr.nextstate)))
termination_by n => n

/-- The paths of the network that begin at the start of FST `i`. -/
def Rtn.paths [Mul W] (N : Rtn W) (i n : Nat) : Multiset (PathT W) :=
  match (N.fst i).start with
  | none => 0
  | some s => N.expand n i s

/-- State `s` of FST `i` can be arrived at from the start of `i`, calls on the way being carried out and returned from. A call returns from
a final state whose weight is not zero. -/
inductive Rtn.Arrives [Zero W] (N : Rtn W) : Nat → StateId → Prop where
  | start {i s} : (N.fst i).start = some s → N.Arrives i s
  | step {i s tr} : N.Arrives i s → tr ∈ (N.fst i).trsOf s → N.callee tr = none → N.Arrives i tr.nextstate
  | call {i s tr j q w} : N.Arrives i s → tr ∈ (N.fst i).trsOf s → N.callee tr = some j → N.Arrives j q → (N.fst j).finOf q = some w → w ≠ 0 →
    N.Arrives i tr.nextstate

/-- FST `i`, once started, can come to call `j`. -/
def Rtn.Calls [Zero W] (N : Rtn W) (i j : Nat) : Prop :=
  ∃ s tr, N.Arrives i s ∧ tr ∈ (N.fst i).trsOf s ∧ N.callee tr = some j

/-- Starting with FST `r`, it can happen that an FST is called, directly or through others, by itself. -/
def Rtn.Recursive [Zero W] (N : Rtn W) (r : Nat) : Prop :=
  ∃ k, Relation.ReflTransGen N.Calls r k ∧ Relation.TransGen N.Calls k k

/-- The position of the last FST of the list that is named `l`. -/
def namedBy (list : List (Label × Fst W)) (l : Label) : Option Nat :=
  (List.range list.length).reverse.find? fun i => (list[i]?.map (·.1)) == some l

/-- The network of a list of named FSTs: a transition calls the FST that its output label names, unless that label is ε. When
`epsilonOnReplace`, nothing is read for a call, otherwise its input label. Nothing is read for a return. -/
def rtnOf [One W] (list : List (Label × Fst W)) (epsilonOnReplace : Bool) : Rtn W where
  fst i := (list[i]?.map (·.2)).getD ⟨[], none, fun _ => false⟩
  callee tr := if tr.olabel = EPS then none else namedBy list tr.olabel
  call tr := (if epsilonOnReplace then [] else strip tr.ilabel, [], tr.weight)
  ret := ([], [], 1)

end Verif
