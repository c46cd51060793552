import Verif.Model.Arcs

/-!
# Value semantics

The same calls as in `Model/Arcs`, for a reader who believes that every object has its own data: a call changes the
object it names and nothing else, and copies are equal to the original.
-/

namespace Verif.Arcs
universe u
variable {W : Type u}

section
variable [Zero W] [One W] [Add W] [DecidableEq W]

/-- One call on values. `step` (Model/History) is the meaning of the mutators, `toConst` (Model/BinFst) that of the conversion. -/
def vStep (l : List (Val W)) : Act W → Option (List (Val W) × Out W)
  | .new => some (l ++ [.fst Fst.new], .done true)
  | .call i op =>
    match l[i]? with
    | some (.fst f) =>
      match Verif.step f op with
      | none => none
      | some (g, b) => some (l.set i (.fst g), .done b)
    | _ => some (l, .done false)
  | .clone i =>
    match l[i]? with
    | some .gone => some (l, .done false)
    | some v => some (l ++ [v], .done true)
    | none => some (l, .done false)
  | .getTrs i s =>
    match l[i]? with
    | some (.fst f) =>
      match f.getTrsR s with
      | .ok v => some (l ++ [.trs v], .done true)
      | .error _ => some (l, .done false)
    | some (.cfst c) =>
      match c.states[s]? with
      | some st => some (l ++ [.ctrs c.trs st.pos st.ntrs], .done true)
      | none => some (l, .done false)
    | _ => some (l, .done false)
  | .shallow i =>
    match l[i]? with
    | some (.trs v) => some (l ++ [.trs v], .done true)
    | some (.ctrs v pos n) => some (l ++ [.ctrs v pos n], .done true)
    | _ => some (l, .done false)
  | .toVec i =>
    match l[i]? with
    | some (.trs v) => some (l ++ [.trs v], .done true)
    | some (.ctrs v _ _) => some (l ++ [.trs v], .done true)
    | _ => some (l, .done false)
  | .push i t =>
    match l[i]? with
    | some (.trs v) => some (l.set i (.trs (v ++ [t])), .done true)
    | _ => some (l, .done false)
  | .remove i k =>
    match l[i]? with
    | some (.trs v) => if k < v.length then some (l.set i (.trs (v.eraseIdx k)), .done true) else none
    | _ => some (l, .done false)
  | .clear i =>
    match l[i]? with
    | some (.trs _) => some (l.set i (.trs []), .done true)
    | _ => some (l, .done false)
  | .reserve i s =>
    match l[i]? with
    | some (.fst f) => some (l, .done (decide (s < f.numStates)))
    | _ => some (l, .done false)
  | .toConst i =>
    match l[i]? with
    | some (.fst f) =>
      match toConst ⟨f, none, none⟩ with
      | .ok c => some (l.set i (.cfst c), .done true)
      | .error _ => none
    | _ => some (l, .done false)
  | .intoIter i =>
    match l[i]? with
    | some (.fst f) => some (l.set i .gone, .items (itemsOf f.states))
    | some (.cfst c) =>
      match drainConst c.states c.trs with
      | .ok r => some (l.set i .gone, .items r)
      | .error _ => none
    | _ => some (l, .done false)
  | .drop i =>
    match l[i]? with
    | some .gone => some (l, .done false)
    | some _ => some (l.set i .gone, .done true)
    | none => some (l, .done false)

/-- Run a program on values. -/
def vRun (l : List (Val W)) : List (Act W) → Option (List (Val W) × List (Out W))
  | [] => some (l, [])
  | a :: as =>
    match vStep l a with
    | none => none
    | some (l', o) =>
      match vRun l' as with
      | none => none
      | some (l'', os) => some (l'', o :: os)

end
end Verif.Arcs
