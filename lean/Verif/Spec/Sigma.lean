import Verif.Spec.Reachable

/-!
# What a sigma transition stands for

`sigma` is a label that stands for others. A matcher on one side (`input` or output) reads a transition with this label on that side as
one with any allowed label.
-/

namespace Verif
universe u
variable {W : Type u}

/-- The transition with `l` for `sigma`: on the side of the matcher, or on both sides. -/
def Tr.readAs (sigma : Label) (both input : Bool) (l : Label) (t : Tr W) : Tr W :=
  { t with
    ilabel := if (input = true ∨ both = true) ∧ t.ilabel = sigma then l else t.ilabel
    olabel := if (input = false ∨ both = true) ∧ t.olabel = sigma then l else t.olabel }

/-- The transitions `ts` of a state and, for each label of the alphabet `L` that `pick` wants, a copy of every sigma transition. -/
def sigmaCopies (sigma : Label) (both input : Bool) (L : List Label) (pick : Label → Bool) (ts : List (Tr W)) : List (Tr W) :=
  (L.filter pick).flatMap fun l => (ts.filter fun t => t.labelOn input = sigma).map (Tr.readAs sigma both input l)

/-- The FST with the transitions `more ts` added to the transitions `ts` of every state. -/
def Fst.withMore (f : Fst W) (more : List (Tr W) → List (Tr W)) : Fst W :=
  { f with
    props := fun _ => false
    states := f.states.map fun st =>
      let ts := st.trs ++ more st.trs
      ⟨st.fin, ts, (ts.filter fun t => t.ilabel = EPS).length, (ts.filter fun t => t.olabel = EPS).length⟩ }

/-- Sigma as "all": it stands for every allowed label of the alphabet. -/
def Fst.withAll (f : Fst W) (sigma : Label) (both input : Bool) (allowed : Label → Bool) (L : List Label) : Fst W :=
  f.withMore fun ts => sigmaCopies sigma both input L (fun l => decide (l ≠ EPS) && decide (l ≠ sigma) && allowed l) ts

/-- Sigma as "rest": at a state it stands for the allowed labels that no transition of the state has. -/
def Fst.withRest (f : Fst W) (sigma : Label) (both input : Bool) (allowed : Label → Bool) (L : List Label) : Fst W :=
  f.withMore fun ts => sigmaCopies sigma both input L
    (fun l => decide (l ≠ EPS) && decide (l ≠ sigma) && allowed l && ts.all fun t => decide (t.labelOn input ≠ l)) ts

end Verif
