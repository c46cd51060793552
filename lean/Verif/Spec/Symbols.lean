import Verif.Model.SymFst
import Verif.Spec.Path

/-! # Specification: labels and strings through symbol tables -/

namespace Verif
universe u
variable {W : Type u}

/-- Label `l` in table `old` and label `a` in table `new` stand for the same symbol. -/
def SameSymbol (old new : SymTable) (l a : Label) : Prop := ∃ x, old.getSymbol l = some x ∧ new.getLabel x = some a

/-- `s` is the string of a list of labels: their symbols separated by single spaces. -/
def Spells (t : SymTable) (ls : List Label) (s : String) : Prop :=
  ∃ xs : List String, List.Forall₂ (fun l x => t.getSymbol l = some x) ls xs ∧ s = String.intercalate " " xs

/-- A path with its strings instead of its labels. -/
def spellPath (i o : SymTable) (p : PathT W) : R String × R String × W := (spellLabels i p.1, spellLabels o p.2.1, p.2.2)

end Verif
