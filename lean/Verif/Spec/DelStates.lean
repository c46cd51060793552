import Verif.Spec.Graph

/-! # Specification of state deletion -/

namespace Verif
universe u
variable {W : Type u}

/-- The states `0 … n-1` that are not in `ds`, in order. -/
def survivors (n : Nat) (ds : List StateId) : List StateId := (List.range n).filter (fun s => s ∉ ds)

/-- The new number of state `q`: how many smaller states survive. -/
def newNumber (ds : List StateId) (q : StateId) : StateId := ((List.range q).filter (fun s => s ∉ ds)).length

/-- The surviving transitions of a list, retargeted to the new numbers. -/
def survivingTrs (ds : List StateId) (ts : List (Tr W)) : List (Tr W) :=
  (ts.filter (fun t => t.nextstate ∉ ds)).map (fun t => { t with nextstate := newNumber ds t.nextstate })

end Verif
