import Verif.Model.VectorFst

/-!
# Reordering and merging the transitions of one state
(`vector_fst/mutable_fst.rs` 350-405, `algorithms/tr_unique.rs`, `algorithms/tr_sort.rs`)
-/

namespace Verif
universe u
variable {W : Type u}

/-- `tr_compare(a, b) != Greater` (tr_unique.rs 8-34): lexicographic on (ilabel, olabel, nextstate); the weight is ignored. -/
def trLe (a b : Tr W) : Bool :=
  if a.ilabel < b.ilabel then true
  else if a.ilabel > b.ilabel then false
  else if a.olabel < b.olabel then true
  else if a.olabel > b.olabel then false
  else decide (a.nextstate ≤ b.nextstate)

/-- `ILabelCompare::compare(a, b) != Greater` (tr_sort.rs 14-29): `a.ilabel.cmp(&b.ilabel)`. -/
def ilabelLe (a b : Tr W) : Bool := decide (a.ilabel ≤ b.ilabel)

/-- `OLabelCompare::compare(a, b) != Greater` (tr_sort.rs 32-47). -/
def olabelLe (a b : Tr W) : Bool := decide (a.olabel ≤ b.olabel)

/-- `Vec::sort_by` is a stable sort; so is `List.mergeSort`. -/
def sortTrsBy (le : Tr W → Tr W → Bool) (l : List (Tr W)) : List (Tr W) := l.mergeSort le

/-- `equal_tr` (mutable_fst.rs 19-22). -/
def equalTr (a b : Tr W) : Bool :=
  a.ilabel == b.ilabel && a.olabel == b.olabel && a.nextstate == b.nextstate

/-- `Vec::dedup`: drop each element equal to the last kept one. -/
def dedupAux [DecidableEq W] : Tr W → List (Tr W) → List (Tr W)
  | p, [] => [p]
  | p, t :: ts => if t = p then dedupAux p ts else p :: dedupAux t ts

@[inherit_doc dedupAux]
def dedupTrs [DecidableEq W] : List (Tr W) → List (Tr W)
  | [] => []
  | t :: ts => dedupAux t ts

/-- Loop 384-402 of `sum_trs_unchecked`. `p` is `trs_vec[n_trs - 1]`, the list is `trs_vec[i..]`, the result is what
`truncate(n_trs)` keeps from position `n_trs - 1` on, with the two counters. (The code compacts in place by `swap`; an
entry is read before its slot is overwritten.) -/
def sumAux [Add W] : Tr W → List (Tr W) → Nat → Nat → List (Tr W) × Nat × Nat
  | p, [], ni, no => ([p], ni, no)
  | p, t :: ts, ni, no =>
    if equalTr t p then
      sumAux { p with weight := p.weight + t.weight } ts
        (if t.ilabel = EPS then ni - 1 else ni) (if t.olabel = EPS then no - 1 else no)
    else
      let r := sumAux t ts ni no
      (p :: r.1, r.2)

@[inherit_doc sumAux]
def sumLoop [Add W] : List (Tr W) → Nat → Nat → List (Tr W) × Nat × Nat
  | [], ni, no => ([], ni, no)
  | t :: ts, ni, no => sumAux t ts ni no

namespace Fst

/-- `sort_trs_unchecked` (mutable_fst.rs 350-355) on an existing state; the flags are not touched. -/
def sortTrs (f : Fst W) (s : StateId) (le : Tr W → Tr W → Bool) : Fst W :=
  f.modifySt s fun st => { st with trs := sortTrsBy le st.trs }

/-- `unique_trs_unchecked` (mutable_fst.rs 358-377) on one state. -/
def uniqueSt [DecidableEq W] (st : State W) : State W :=
  let ts := dedupTrs (sortTrsBy trLe st.trs)
  if st.niepsilons ≠ 0 ∨ st.noepsilons ≠ 0 then
    { st with
      trs := ts
      niepsilons := countEps (ts.map (·.ilabel))
      noepsilons := countEps (ts.map (·.olabel)) }
  else { st with trs := ts }

/-- `unique_trs_unchecked` (mutable_fst.rs 358-377) on an existing state; the flags are not touched. -/
def uniqueTrs [DecidableEq W] (f : Fst W) (s : StateId) : Fst W := f.modifySt s uniqueSt

/-- `sum_trs_unchecked` (mutable_fst.rs 380-405) on one state. -/
def sumSt [Add W] (st : State W) : State W :=
  let r := sumLoop (sortTrsBy trLe st.trs) st.niepsilons st.noepsilons
  { st with trs := r.1, niepsilons := r.2.1, noepsilons := r.2.2 }

/-- `sum_trs_unchecked` (mutable_fst.rs 380-405) on an existing state; the flags are not touched. -/
def sumTrs [Add W] (f : Fst W) (s : StateId) : Fst W := f.modifySt s sumSt

end Fst
end Verif
