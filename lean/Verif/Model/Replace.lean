import Verif.Model.Lazy
import Verif.Model.Mutate

/-!
# `replace` (algorithms/replace)

`fst_id`, `fst_state` and the fields of `PrefixTuple` are `Option`s in the code; all constructions in the code give `Some`, so the
model leaves the `Option` out. The top of a stack is the head of the list here, the end of the `Vec` there.
-/

namespace Verif
universe u
variable {W : Type u}

/-- `replace_properties` (mutate_properties.rs 496-620). -/
def Props.replace (ps : List Props) (root : Nat) (epsCall epsRet outEpsCall outEpsRet transducer noEmpty allI allO dense : Bool) : Props :=
  if ps.isEmpty then Props.nullMask
  else
    let pr := ps.getD root (fun _ => false)
    let o : Props := fun _ => false
    let access := noEmpty && ps.all fun p => p.has .accessible && p.has .coaccessible
    let o := if access then
        let o := o.or (Props.of [.accessible, .coaccessible])
        let o := Props.setIf (pr.has .initialCyclic) o .initialCyclic
        let props : Props := ps.foldl (fun acc p => (Props.orIf transducer acc (Props.keep [.notAcceptor] p)).or
          (Props.keep [.notIDeterministic, .notODeterministic, .epsilons, .iEpsilons, .oEpsilons, .weighted, .weightedCycles, .cyclic,
            .notTopSorted, .notString] p)) (fun _ => false)
        Props.setIf (ps.all fun p => p.has .isString) (o.or props) .isString
      else o
    let o := Props.setIf (!transducer && ps.all fun p => p.has .acceptor) o .acceptor
    let o := Props.setIf (!epsCall && epsRet && (ps.all fun p => p.has .iDeterministic) &&
      (ps.zipIdx.all fun q => decide (q.2 = root) || q.1.has .noIEpsilons)) o .iDeterministic
    let o := Props.setIf (!epsCall && !epsRet && ps.all fun p => p.has .noIEpsilons) o .noIEpsilons
    let o := Props.setIf (ps.all fun p => p.has .acyclic) o .acyclic
    let o := Props.setIf (ps.all fun p => p.has .unweighted) o .unweighted
    let o := Props.setIf (pr.has .initialAcyclic) o .initialAcyclic
    let o := Props.setIf (allI && epsRet && (!epsCall || dense)) o .iLabelSorted
    Props.setIf (allO && outEpsRet && (!outEpsCall || dense)) o .oLabelSorted

/-- `ReplaceLabelType` (config.rs 5-15). -/
inductive RLabelType where
  | neither
  | input
  | output
  | both
  deriving DecidableEq

/-- `epsilon_on_input` (utils.rs 5-7). -/
def RLabelType.epsIn : RLabelType → Bool
  | .neither | .output => true
  | _ => false

/-- `epsilon_on_output` (utils.rs 10-12). -/
def RLabelType.epsOut : RLabelType → Bool
  | .neither | .input => true
  | _ => false

/-- `ReplaceFstOptions` (config.rs 18-31). -/
structure ROpts where
  root : Label
  callType : RLabelType
  retType : RLabelType
  callOut : Option Label
  retLabel : Label

/-- `ReplaceFstOptions::new` (config.rs 34-46). -/
def ROpts.new (root : Label) (epsilonOnReplace : Bool) : ROpts :=
  ⟨root, if epsilonOnReplace then .neither else .input, .neither, if epsilonOnReplace then some 0 else none, 0⟩

/-- `ReplaceFstOp` (replace_fst_op.rs 23-36) without the tables. `labels` is `nonterminal_set`, `hash` is `nonterminal_hash`, the latest
insertion first. -/
structure RGrammar (W : Type u) where
  callType : RLabelType
  retType : RLabelType
  callOut : Option Label
  retLabel : Label
  fsts : List (Fst W)
  labels : List Label
  hash : List (Label × Nat)
  root : Nat
  props : Props

/-- `replace_transducer` (replace_fst_op.rs 186-196). -/
def replaceTransducer (c r : RLabelType) (out : Option Label) : Bool :=
  decide (c = .input) || decide (c = .output) || (decide (c = .both) && out.isSome) || decide (r = .input) || decide (r = .output)

/-- `replace_properties` (replace_fst_op.rs 120-184). The index of the root is that of the last FST with the root label, or 0. -/
def replaceProps (list : List (Label × Fst W)) (o : ROpts) : Props :=
  Props.replace (list.map (·.2.props)) (list.zipIdx.foldl (fun r p => if p.1.1 = o.root then p.2 else r) 0)
    o.callType.epsIn o.retType.epsIn o.callType.epsOut o.retType.epsOut (replaceTransducer o.callType o.retType o.callOut)
    (list.all fun p => p.2.start.isSome) (list.all fun p => p.2.props.has .iLabelSorted) (list.all fun p => p.2.props.has .oLabelSorted)
    (list.all fun p => decide (p.1 ≤ list.length))

/-- A `HashMap` lookup. -/
def hashGet (h : List (Label × Nat)) (l : Label) : Option Nat := (h.find? fun p => decide (p.1 = l)).map (·.2)

/-- `ReplaceFstOp::new` (replace_fst_op.rs 199-259). -/
def RGrammar.new (list : List (Label × Fst W)) (o : ROpts) : R (RGrammar W) :=
  let hash := (list.zipIdx.map fun p => (p.1.1, p.2)).reverse
  match hashGet hash o.root with
  | none => .error .err
  | some root => .ok
    { callType := if o.callOut = some EPS then .neither else o.callType
      retType := if o.retLabel = 0 then .neither else o.retType
      callOut := o.callOut
      retLabel := o.retLabel
      fsts := list.map (·.2)
      labels := list.map (·.1)
      hash := hash
      root := root
      props := replaceProps list o }

/-- An entry of a stack: the FST and the state to go on with (`PrefixTuple`, state_table.rs 4-8). -/
structure RFrame where
  fst : Nat
  state : StateId
  deriving DecidableEq

/-- `ReplaceStateTuple` (state_table.rs 33-42). -/
structure RTuple where
  prefixId : StateId
  fst : Nat
  state : StateId
  deriving DecidableEq

/-- `ReplaceStateTable` (state_table.rs 54-66). -/
structure RTables where
  prefixes : BiMap (List RFrame)
  tuples : BiMap RTuple

namespace RTables

def new : RTables := ⟨BiMap.new, BiMap.new⟩

/-- `get_prefix_id` (replace_fst_op.rs 306-308). -/
def prefixId (σ : RTables) (st : List RFrame) : StateId × RTables :=
  ((σ.prefixes.findId st).1, { σ with prefixes := (σ.prefixes.findId st).2 })

/-- `tuple_table.find_id`. -/
def tupleId (σ : RTables) (t : RTuple) : StateId × RTables :=
  ((σ.tuples.findId t).1, { σ with tuples := (σ.tuples.findId t).2 })

end RTables

namespace RGrammar
variable [Zero W] [DecidableEq W] (g : RGrammar W)

/-- `fst_array.get(i).unwrap()`. -/
def fst (i : Nat) : R (Fst W) :=
  match g.fsts[i]? with
  | some f => .ok f
  | none => .error .panic

/-- `compute_start` (replace_fst_op.rs 61-76). -/
def computeStart (σ : RTables) : R (Option StateId) × RTables :=
  if g.fsts.isEmpty then (.ok none, σ)
  else match g.fst g.root with
    | .error e => (.error e, σ)
    | .ok f => match f.start with
      | none => (.ok none, σ)
      | some s =>
        let (p, σ) := σ.prefixId []
        let (q, σ) := σ.tupleId ⟨p, g.root, s⟩
        (.ok (some q), σ)

/-- `compute_final_tr` (replace_fst_op.rs 261-304). -/
def computeFinalTr (t : RTuple) (σ : RTables) : R (Option (Tr W)) × RTables :=
  match g.fst t.fst with
  | .error e => (.error e, σ)
  | .ok f => match f.isFinalR t.state with
    | .error _ => (.error .panic, σ)
    | .ok fin =>
      if fin && decide (t.prefixId > 0) then
        match σ.prefixes.findTuple t.prefixId with
        | .error e => (.error e, σ)
        | .ok [] => (.error .panic, σ)
        | .ok (top :: rest) =>
          let (p, σ) := σ.prefixId rest
          let (q, σ) := σ.tupleId ⟨p, top.fst, top.state⟩
          match f.finalWeightR t.state with
          | .error _ => (.error .panic, σ)
          | .ok none => (.ok none, σ)
          | .ok (some w) =>
            (.ok (some ⟨if g.retType.epsIn then EPS else g.retLabel, if g.retType.epsOut then 0 else g.retLabel, w, q⟩), σ)
      else (.ok none, σ)

/-- `compute_tr` (replace_fst_op.rs 325-382). `labels` is never empty here. -/
def computeTr (t : RTuple) (tr : Tr W) (σ : RTables) : R (Option (Tr W)) × RTables :=
  let plain : R (Option (Tr W)) × RTables :=
    let (q, σ) := σ.tupleId ⟨t.prefixId, t.fst, tr.nextstate⟩
    (.ok (some ⟨tr.ilabel, tr.olabel, tr.weight, q⟩), σ)
  match g.labels.min?, g.labels.max? with
  | some lo, some hi =>
    if tr.olabel = EPS ∨ tr.olabel < lo ∨ tr.olabel > hi then plain
    else match hashGet g.hash tr.olabel with
      | some j =>
        match σ.prefixes.findTuple t.prefixId with
        | .error e => (.error e, σ)
        | .ok st =>
          let (p, σ) := σ.prefixId (⟨t.fst, tr.nextstate⟩ :: st)
          match g.fst j with
          | .error e => (.error e, σ)
          | .ok f => match f.start with
            | none => (.ok none, σ)
            | some s =>
              let (q, σ) := σ.tupleId ⟨p, j, s⟩
              (.ok (some ⟨if g.callType.epsIn then 0 else tr.ilabel, if g.callType.epsOut then 0 else g.callOut.getD tr.olabel, tr.weight, q⟩), σ)
      | none => plain
  | _, _ => (.error .panic, σ)

/-- The loop of `compute_trs` (replace_fst_op.rs 87-99). -/
def computeRest (t : RTuple) : List (Tr W) → RTables → R (List (Tr W)) × RTables
  | [], σ => (.ok [], σ)
  | tr :: l, σ =>
    match g.computeTr t tr σ with
    | (.error e, σ) => (.error e, σ)
    | (.ok o, σ) => match computeRest t l σ with
      | (.error e, σ) => (.error e, σ)
      | (.ok l, σ) => (.ok (o.toList ++ l), σ)

/-- `compute_trs` (replace_fst_op.rs 78-102). -/
def computeTrs (s : StateId) (σ : RTables) : R (List (Tr W)) × RTables :=
  match σ.tuples.findTuple s with
  | .error e => (.error e, σ)
  | .ok t => match g.computeFinalTr t σ with
    | (.error e, σ) => (.error e, σ)
    | (.ok o, σ) => match g.fst t.fst with
      | .error e => (.error e, σ)
      | .ok f => match f.getTrsR t.state with
        | .error e => (.error e, σ)
        | .ok trs => match g.computeRest t trs σ with
          | (.error e, σ) => (.error e, σ)
          | (.ok l, σ) => (.ok (o.toList ++ l), σ)

/-- `compute_final_weight` (replace_fst_op.rs 104-115). -/
def computeFinal (s : StateId) (σ : RTables) : R (Option W) × RTables :=
  match σ.tuples.findTuple s with
  | .error e => (.error e, σ)
  | .ok t =>
    if t.prefixId = 0 then
      match g.fst t.fst with
      | .error e => (.error e, σ)
      | .ok f => (f.finalWeightR t.state, σ)
    else (.ok none, σ)

/-- `ReplaceFstOp` as an `FstOp` (replace_fst_op.rs 60-118). -/
def op : LazyOp RTables W := ⟨g.computeStart, g.computeTrs, g.computeFinal, g.props⟩

end RGrammar

/-- `replace` (replace_static.rs 47-61, replace_fst.rs 29-50), symbol tables aside. -/
def replace [Zero W] [One W] [DecidableEq W] (list : List (Label × Fst W)) (root : Label) (epsilonOnReplace : Bool) (n : Nat) : Option (R (Fst W)) :=
  match RGrammar.new list (ROpts.new root epsilonOnReplace) with
  | .error e => some (.error e)
  | .ok g => (Lz.compute mapCache g.op n ⟨mapCache.empty, RTables.new⟩).map (·.1)

end Verif
