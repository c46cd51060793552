import Verif.Model.History

/-! # Specification: histories that only name existing target states -/

namespace Verif
universe u
variable {W : Type u}

/-- Every transition target passed to the call is below `n`. -/
def Op.targetsBelow (n : Nat) : Op W → Prop
  | .addTr _ t => t.nextstate < n
  | .setTrs _ ts => ∀ t ∈ ts, t.nextstate < n
  | .setNextstate _ _ q => q < n
  | .setTr _ _ t => t.nextstate < n
  | _ => True

/-- At every call of the history, the targets passed to it are states that exist at that moment. -/
def TargetsExist [Zero W] [One W] [Add W] [DecidableEq W] (f : Fst W) : List (Op W) → Prop
  | [] => True
  | op :: ops => op.targetsBelow f.numStates ∧
      match step f op with
      | none => True
      | some (g, _) => TargetsExist g ops

end Verif

namespace Verif
universe u
variable {W : Type u}

/-- The call maintains the flags: the three methods documented as not updating them are excluded, and
`set_trs_unchecked` is used only on a state that has no transitions. -/
def Op.flagSafe (f : Fst W) : Op W → Prop
  | .sortTrs _ _ | .uniqueTrs _ | .sumTrs _ => False
  | .setTrs s _ => f.trsOf s = []
  | _ => True

/-- Every call of the history is flag-safe in the FST it is applied to. -/
def FlagSafe [Zero W] [One W] [Add W] [DecidableEq W] (f : Fst W) : List (Op W) → Prop
  | [] => True
  | op :: ops => op.flagSafe f ∧
      match step f op with
      | none => True
      | some (g, _) => FlagSafe g ops

namespace Fst
/-- `f` and `g` answer all queries about state `q` in the same way. -/
def SameAt (f g : Fst W) (q : StateId) : Prop :=
  f.getTrsR q = g.getTrsR q ∧ f.finalWeightR q = g.finalWeightR q ∧ f.numTrsR q = g.numTrsR q ∧
  f.numIEpsR q = g.numIEpsR q ∧ f.numOEpsR q = g.numOEpsR q
end Fst

end Verif
