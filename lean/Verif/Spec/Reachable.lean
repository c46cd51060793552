import Verif.Spec.Graph

/-!
# What can be read next
-/

namespace Verif
universe u
variable {W : Type u}

/-- The label of a transition on the input or on the output side. -/
def Tr.labelOn (input : Bool) (t : Tr W) : Label := if input then t.ilabel else t.olabel

/-- A transition from `s` to `q` that has ε on the side in question. -/
def Fst.SilentStep (f : Fst W) (input : Bool) (s q : StateId) : Prop := ∃ t ∈ f.trsOf s, t.labelOn input = EPS ∧ t.nextstate = q

/-- `q` can be reached from `s` without reading anything. -/
def Fst.Silent (f : Fst W) (input : Bool) : StateId → StateId → Prop := Relation.ReflTransGen (f.SilentStep input)

/-- The next label read from `s` can be `l`. -/
def Fst.CanRead (f : Fst W) (input : Bool) (s : StateId) (l : Label) : Prop :=
  ∃ q, f.Silent input s q ∧ ∃ t ∈ f.trsOf q, t.labelOn input = l

/-- A path from `s` can end, at a state with a final weight other than zero, without reading anything. -/
def Fst.CanEnd [Zero W] (f : Fst W) (input : Bool) (s : StateId) : Prop := ∃ q, f.Silent input s q ∧ ∃ w, f.finOf q = some w ∧ w ≠ 0

end Verif
