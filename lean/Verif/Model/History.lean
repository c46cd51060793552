import Verif.Model.TrOrder

/-!
# Histories of `MutableFst` calls on a `VectorFst`
-/

namespace Verif
universe u
variable {W : Type u}

/-- One call of the `MutableFst` API (fst_traits/mutable_fst.rs), with its arguments. -/
inductive Op (W : Type u) where
  | setStart (s : StateId)
  | setFinal (s : StateId) (w : W)
  | delFinal (s : StateId)
  | takeFinal (s : StateId)
  | addState
  | addStates (n : Nat)
  | addTr (s : StateId) (t : Tr W)
  | delTrs (s : StateId)
  | popTrs (s : StateId)
  | delState (s : StateId)
  | delStates (ds : List StateId)
  | delAllStates
  | delTrsIdSorted (s : StateId) (is : List Nat)
  | setTrs (s : StateId) (ts : List (Tr W))
  | setIlabel (s : StateId) (idx : Nat) (l : Label)
  | setOlabel (s : StateId) (idx : Nat) (l : Label)
  | setWeight (s : StateId) (idx : Nat) (w : W)
  | setNextstate (s : StateId) (idx : Nat) (q : StateId)
  | setTr (s : StateId) (idx : Nat) (t : Tr W)
  | sortTrs (s : StateId) (le : Tr W → Tr W → Bool)
  | uniqueTrs (s : StateId)
  | sumTrs (s : StateId)

/-- Run one call: the FST afterwards and whether the call returned `Ok` or `Err`. `none`: the call panicked, or was an unsafe
call outside its safety condition (the named state does not exist); the program does not continue from there. -/
def step [Zero W] [One W] [Add W] [DecidableEq W] (f : Fst W) : Op W → Option (Fst W × Bool)
  | .setStart s => some (let r := f.setStartR s; (r.1, r.2.isOk))
  | .setFinal s w => some (let r := f.setFinalR s w; (r.1, r.2.isOk))
  | .delFinal s => some (let r := f.delFinalR s; (r.1, r.2.isOk))
  | .takeFinal s => some (let r := f.takeFinalR s; (r.1, r.2.isOk))
  | .addState => some (f.addState, true)
  | .addStates n => some (f.addStates n, true)
  | .addTr s t => some (let r := f.addTrR s t; (r.1, r.2.isOk))
  | .delTrs s => some (let r := f.delTrsR s; (r.1, r.2.isOk))
  | .popTrs s => some (let r := f.popTrsR s; (r.1, r.2.isOk))
  | .delState s =>
    match f.delState s with
    | .ok g => some (g, true)
    | .error .err => some (f, false)
    | .error .panic => none
  | .delStates ds =>
    match f.delStates ds with
    | .ok g => some (g, true)
    | .error .err => some (f, false)
    | .error .panic => none
  | .delAllStates => some (f.delAllStates, true)
  | .delTrsIdSorted s is =>
    if s < f.numStates then
      match f.delTrsIdSorted s is with
      | .ok g => some (g, true)
      | .error _ => none
    else none
  | .setTrs s ts => if s < f.numStates then some (f.setTrs s ts, true) else none
  | .setIlabel s i l => some (let r := f.setIlabelR s i l; (r.1, r.2.isOk))
  | .setOlabel s i l => some (let r := f.setOlabelR s i l; (r.1, r.2.isOk))
  | .setWeight s i w => some (let r := f.setWeightR s i w; (r.1, r.2.isOk))
  | .setNextstate s i q => some (let r := f.setNextstateR s i q; (r.1, r.2.isOk))
  | .setTr s i t => some (let r := f.setTrR s i t; (r.1, r.2.isOk))
  | .sortTrs s le => if s < f.numStates then some (f.sortTrs s le, true) else none
  | .uniqueTrs s => if s < f.numStates then some (f.uniqueTrs s, true) else none
  | .sumTrs s => if s < f.numStates then some (f.sumTrs s, true) else none

/-- Run a history from a given FST. -/
def runFrom [Zero W] [One W] [Add W] [DecidableEq W] (f : Fst W) : List (Op W) → Option (Fst W)
  | [] => some f
  | op :: ops =>
    match step f op with
    | none => none
    | some (g, _) => runFrom g ops

/-- Run a history starting from `VectorFst::new()`. -/
def run [Zero W] [One W] [Add W] [DecidableEq W] (ops : List (Op W)) : Option (Fst W) := runFrom Fst.new ops

end Verif
