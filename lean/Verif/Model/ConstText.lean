import Verif.Model.Text

/-!
# `ConstFst` from text (`const_fst/serializable_fst.rs` 86-167)
-/

namespace Verif
universe u
variable {W : Type u}

/-- `Vec::resize_with`. -/
def resizeWith {α : Type u} (l : List α) (n : Nat) (a : α) : List α :=
  if n ≤ l.length then l.take n else l ++ List.replicate (n - l.length) a

/-- `group_by(|v| v.state)` of itertools: runs of consecutive transitions of one state. -/
def groupRows : List (StateId × Tr W) → List (StateId × List (Tr W))
  | [] => []
  | (s, t) :: l =>
    match groupRows l with
    | [] => [(s, [t])]
    | (s', ts) :: gs => if s = s' then (s, t :: ts) :: gs else (s, [t]) :: (s', ts) :: gs

/-- A state without transitions (100-106, 133-139). -/
def emptyCState (pos : Nat) : CState W := ⟨none, pos, 0, 0, 0⟩

/-- One round of the loop over the groups (92-132): the states and the transitions so far. -/
def constGroup (a : List (CState W) × List (Tr W)) (g : StateId × List (Tr W)) : List (CState W) × List (Tr W) :=
  (resizeWith a.1 g.1 (emptyCState a.2.length) ++
    [⟨none, a.2.length, g.2.length, g.2.countP (fun t => t.ilabel = EPS), g.2.countP (fun t => t.olabel = EPS)⟩], a.2 ++ g.2)

/-- The states and transitions before the final weights are set (87-139). `sort_by_key` is stable. -/
def constRows [One W] (rows : List (Row W)) : List (CState W) × List (Tr W) :=
  let l := (rows.filterMap rowTr).mergeSort (fun p q => decide (p.1 ≤ q.1))
  let a := (groupRows l).foldl constGroup ([], [])
  (resizeWith a.1 (rowsNumStates rows) (emptyCState a.2.length), a.2)

/-- The `ConstFst` as the generic algorithms see it through the `Fst` trait (const_fst/fst.rs). -/
def ConstFst.view (c : ConstFst W) : Fst W :=
  ⟨c.states.map fun st => ⟨st.fin, (c.trs.drop st.pos).take st.ntrs, st.niepsilons, st.noepsilons⟩, c.start, c.props⟩

/-- `ConstFst::from_parsed_fst_text` (86-167). The `get_unchecked_mut` of 144 is in range as `num_states` counts the final states. -/
def constFromRows [Zero W] [One W] [DecidableEq W] (rows : List (Row W)) : R (ConstFst W) :=
  let a := constRows rows
  let cs := (rows.filterMap rowFin).foldl (fun cs p => cs.modify p.1 fun st => { st with fin := some p.2 }) a.1
  let c : ConstFst W := ⟨cs, a.2, rowsStart rows, none, none, Props.empty⟩
  match c.view.computeProps Props.allMask false with
  | .error e => .error e
  | .ok (p, _) => .ok { c with props := p }

/-- `ConstFst::from_text_string` (fst_traits/serializable_fst.rs 57-60). -/
def constOfText [TextCodec W] [Zero W] [One W] [DecidableEq W] (i : List Char) : R (ConstFst W) := constFromRows (textRows i)

end Verif
