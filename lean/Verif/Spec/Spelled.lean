import Verif.Model.SymFst
import Verif.Spec.Path

/-! # Specification: the relation between strings of symbols that an FST with symbol tables describes -/

namespace Verif
universe u
variable {W : Type u}

/-- The symbols of the labels `ls` are `xs`. -/
def SymTable.Reads (t : SymTable) (ls : List Label) (xs : List String) : Prop :=
  List.Forall₂ (fun l s => t.getSymbol l = some s) ls xs

/-- The FST has an accepting path of weight `w` whose labels, looked up in the table of their tape, are `xs` and `ys`. -/
def SymFst.Relates [One W] [Mul W] (x : SymFst W) (xs ys : List String) (w : W) : Prop :=
  ∃ (i o : SymTable) (ls ms : List Label), x.isymt = some i ∧ x.osymt = some o ∧ i.Reads ls xs ∧ o.Reads ms ys ∧ x.fst.Accepts ls ms w

end Verif
