import Verif.Model.Replace
import Verif.Model.Rational

/-!
# Delayed union, concatenation and closure (`UnionFst`, `ConcatFst`, `ClosureFst`)

Each of them is a `ReplaceFst` over a small root FST that calls the operands. Symbol tables are left out.
-/

namespace Verif
universe u
variable {W : Type u} [Zero W] [One W] [DecidableEq W]

/-- The root of `UnionFst::new` (union/union_fst.rs 30-44). -/
def unionRoot : Fst W :=
  ((((Fst.new.addStates 2).setStart 0).setFinal 1 1).addTr 0 ⟨EPS, NO_LABEL, 1, 1⟩).addTr 0 ⟨EPS, NO_LABEL - 1, 1, 1⟩

/-- The list that `UnionFst::new` passes to `ReplaceFst::new` (union/union_fst.rs 46). -/
def unionTuples (f g : Fst W) : List (Label × Fst W) := [(0, unionRoot), (NO_LABEL, f), (NO_LABEL - 1, g)]

/-- `UnionFst::properties` (union/union_fst.rs 50, 91-93). -/
def unionFstProps (f g : Fst W) : Props := Props.union f.props g.props true

/-- `UnionFst::new` followed by `compute` (union/union_fst.rs 27-57). -/
def unionFst (f g : Fst W) (n : Nat) : Option (R (Fst W)) := replace (unionTuples f g) 0 false n

/-- The root of `ConcatFst::new` (concat/concat_fst.rs 29-41). -/
def concatRoot : Fst W :=
  ((((Fst.new.addStates 3).setStart 0).setFinal 2 1).addTr 0 ⟨EPS, NO_LABEL, 1, 1⟩).addTr 1 ⟨EPS, NO_LABEL - 1, 1, 2⟩

/-- The list that `ConcatFst::new` passes to `ReplaceFst::new` (concat/concat_fst.rs 43). -/
def concatTuples (f g : Fst W) : List (Label × Fst W) := [(0, concatRoot), (NO_LABEL, f), (NO_LABEL - 1, g)]

/-- `ConcatFst::properties` (concat/concat_fst.rs 47, 91-93). -/
def concatFstProps (f g : Fst W) : Props := Props.concat f.props g.props true

/-- `ConcatFst::new` followed by `compute` (concat/concat_fst.rs 26-54). -/
def concatFst (f g : Fst W) (n : Nat) : Option (R (Fst W)) := replace (concatTuples f g) 0 false n

/-- The root of `ClosureFst::new` (closure/closure_fst.rs 36-55). -/
def closureRoot : Fst.ClosureType → Fst W
  | .star => (((Fst.new.addState).setStart 0).setFinal 0 1).addTr 0 ⟨EPS, NO_LABEL, 1, 0⟩
  | .plus => ((((Fst.new.addStates 2).setStart 0).setFinal 1 1).addTr 0 ⟨EPS, NO_LABEL, 1, 1⟩).addTr 1 ⟨EPS, EPS, 1, 0⟩

/-- The list that `ClosureFst::new` passes to `ReplaceFst::new` (closure/closure_fst.rs 56-58). -/
def closureTuples (c : Fst.ClosureType) (f : Fst W) : List (Label × Fst W) := [(0, closureRoot c), (NO_LABEL, f)]

/-- `ClosureFst::properties` (closure/closure_fst.rs 62, 98-100). -/
def closureFstProps (f : Fst W) : Props := Props.closure f.props true

/-- `ClosureFst::new` followed by `compute` (closure/closure_fst.rs 28-69). -/
def closureFst (c : Fst.ClosureType) (f : Fst W) (n : Nat) : Option (R (Fst W)) := replace (closureTuples c f) 0 false n

end Verif
