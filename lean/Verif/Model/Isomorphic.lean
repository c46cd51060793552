import Verif.Model.VectorFst

/-!
# `isomorphic`

`approx` stands for `approx_equal` with the configured delta and `lt` for `<` of the weights.
-/

namespace Verif
universe u
variable {W : Type u} (lt : W → W → Bool) (approx : W → W → Bool)

/-- `tr_compare` (isomorphic.rs 22-48). -/
def trCompare (a b : Tr W) : Ordering :=
  if a.ilabel < b.ilabel then .lt
  else if a.ilabel > b.ilabel then .gt
  else if a.olabel < b.olabel then .lt
  else if a.olabel > b.olabel then .gt
  else if lt a.weight b.weight then .lt
  else if lt b.weight a.weight then .gt
  else if a.nextstate < b.nextstate then .lt
  else if a.nextstate > b.nextstate then .gt
  else .eq

/-- Insertion before the first element that is not smaller. -/
def trInsert (x : Tr W) : List (Tr W) → List (Tr W)
  | [] => [x]
  | y :: ys => if trCompare lt x y = .gt then y :: trInsert x ys else x :: y :: ys

/-- `sort_by(tr_compare)` (isomorphic.rs 102-103): a stable sort, here by insertion. -/
def trSortBy : List (Tr W) → List (Tr W)
  | [] => []
  | x :: xs => trInsert lt x (trSortBy xs)

/-- `Isomorphism` (isomorphic.rs 11-19). -/
structure Iso where
  pairs : List (Option StateId)
  queue : List (StateId × StateId)
  nonDet : Bool
  deriving DecidableEq

/-- `pair_state` (isomorphic.rs 64-73). -/
def Iso.pairState (i : Iso) (s1 s2 : StateId) : R (Bool × Iso) :=
  match i.pairs[s1]? with
  | none => .error .panic
  | some (some q) => if q = s2 then .ok (true, i) else .ok (false, i)
  | some none => .ok (true, { i with pairs := i.pairs.set s1 (some s2), queue := i.queue ++ [(s1, s2)] })

/-- The check at the end of the loop body (isomorphic.rs 119-129): is this transition like the one before? -/
def sameAsPrev (prev : Option (Tr W)) (a : Tr W) : Bool :=
  match prev with
  | none => false
  | some p => a.ilabel == p.ilabel && a.olabel == p.olabel && approx a.weight p.weight

/-- The loop over the sorted transitions (isomorphic.rs 105-130). -/
def Iso.matchTrs : List (Tr W) → List (Tr W) → Option (Tr W) → Iso → R (Bool × Iso)
  | [], _, _, i => .ok (true, i)
  | _ :: _, [], _, _ => .error .panic
  | a :: as, b :: bs, prev, i =>
    if a.ilabel ≠ b.ilabel then .ok (false, i)
    else if a.olabel ≠ b.olabel then .ok (false, i)
    else if approx a.weight b.weight = false then .ok (false, i)
    else match i.pairState a.nextstate b.nextstate with
      | .error e => .error e
      | .ok (false, i1) => .ok (false, i1)
      | .ok (true, i1) => matchTrs as bs (some a) { i1 with nonDet := i1.nonDet || sameAsPrev approx prev a }

/-- The comparison of the final weights (isomorphic.rs 78-86). -/
def finEqual : Option W → Option W → Bool
  | some a, some b => approx a b
  | none, none => true
  | _, _ => false

/-- `ismorphic_state` (isomorphic.rs 75-132). -/
def Iso.state (A B : Fst W) (s1 s2 : StateId) (i : Iso) : R (Bool × Iso) :=
  match A.finalWeightR s1 with
  | .error e => .error e
  | .ok w1 => match B.finalWeightR s2 with
    | .error e => .error e
    | .ok w2 =>
      if finEqual approx w1 w2 = false then .ok (false, i)
      else match A.numTrsR s1 with
        | .error e => .error e
        | .ok n1 => match B.numTrsR s2 with
          | .error e => .error e
          | .ok n2 =>
            if n1 ≠ n2 then .ok (false, i)
            else match A.getTrsR s1 with
              | .error e => .error e
              | .ok l1 => match B.getTrsR s2 with
                | .error e => .error e
                | .ok l2 => i.matchTrs approx (trSortBy lt l1) (trSortBy lt l2) none

/-- The loop of `Isomorphism::isomorphic` (isomorphic.rs 147-155). -/
def Iso.loop (A B : Fst W) : Nat → Iso → Option (R Bool)
  | 0, _ => none
  | n + 1, i => match i.queue with
    | [] => some (.ok true)
    | (s1, s2) :: q => match Iso.state lt approx A B s1 s2 { i with queue := q } with
      | .error e => some (.error e)
      | .ok (false, i1) => if i1.nonDet then some (.error .err) else some (.ok false)
      | .ok (true, i1) => Iso.loop A B n i1

/-- `Isomorphism::new` and `isomorphic` (isomorphic.rs 50-61, 134-158). -/
def isomorphic (A B : Fst W) (n : Nat) : Option (R Bool) :=
  match A.start, B.start with
  | none, none => some (.ok true)
  | some s1, some s2 => match (⟨List.replicate A.numStates none, [], false⟩ : Iso).pairState s1 s2 with
    | .error e => some (.error e)
    | .ok (_, i) => Iso.loop lt approx A B n i
  | _, _ => some (.ok false)

end Verif
