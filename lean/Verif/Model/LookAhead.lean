import Verif.Model.SigmaMatcher
import Verif.Model.Reachable

/-!
# Look-ahead composition (`algorithms/compose/lookahead_matchers`, `algorithms/compose/lookahead_filters`, `algorithms/compose/matcher_fst.rs`)

The look-ahead matchers wrap a `SortedMatcher`. `PushLabelsComposeFilter` is in `Model/LabelFilter`. `plus` and `times` do not fail.
-/

namespace Verif
universe u
variable {W : Type u} {FS : Type}

/-- The part of `MatcherFlags` (matchers/mod.rs 22-54) about look-ahead. -/
structure LaFlags where
  inputLa : Bool
  outputLa : Bool
  weight : Bool
  prefixLa : Bool
  nonEpsilons : Bool
  epsilons : Bool
  nonEpsPrefix : Bool
  deriving DecidableEq

/-- No flag. -/
def LaFlags.empty : LaFlags := ⟨false, false, false, false, false, false, false⟩

/-- `LookAheadMatcherData` (lookahead_matchers/mod.rs 28-31). A prefix with next state `NO_STATE_ID` is none. -/
structure LaData (W : Type u) where
  weight : W
  prefixTr : Tr W

/-- `default` (lookahead_matchers/mod.rs 33-37). Clearing a default value does not change it. -/
def LaData.default [One W] : LaData W := ⟨1, ⟨EPS, EPS, 1, NO_STATE_ID⟩⟩

/-- The matchers a look-ahead filter can be given: `SortedMatcher` (whose look-ahead methods are `unreachable!()`, sorted_matcher.rs 187-241),
`TrivialLookAheadMatcher`, `TrLookAheadMatcher`, `LabelLookAheadMatcher` (label_lookahead_matcher.rs 18-28). The last two with the flags of their type; the last one
with its tables, if it has any, and the field `reach_fst_input` of `LabelReachable` (label_reachable.rs 119-123). -/
inductive LaMatcher where
  | sorted
  | trivial
  | tr (fl : LaFlags)
  | label (fl : LaFlags) (reachable : Option (LabelReachableData × Bool))

/-- `flags` (sorted_matcher.rs 87-89, trivial_lookahead_matcher.rs 47-51, tr_lookahead_matcher.rs 61-66, label_lookahead_matcher.rs 56-66). `REQUIRE_MATCH` is not
among the flags of a matcher type. -/
def LaMatcher.flags : LaMatcher → LaFlags
  | .sorted => .empty
  | .trivial => { LaFlags.empty with inputLa := true, outputLa := true }
  | .tr fl => { fl with inputLa := true, outputLa := true }
  | .label _ none => .empty
  | .label fl (some (d, _)) => if d.reachInput then { fl with inputLa := true } else { fl with outputLa := true }

section
variable [Zero W] [One W] [Add W] [DecidableEq W]

/-- `LabelLookAheadMatcher::create_data` (label_lookahead_matcher.rs 126-141). -/
def laCreateData (fl : LaFlags) (f : Fst W) (input : Bool) : R (Option LabelReachableData) :=
  if (input && fl.inputLa) || (!input && fl.outputLa) then
    match LabelReachable.computeData f input with
    | .error e => .error e
    | .ok d => .ok (some d)
  else .ok none

/-- `LabelLookAheadMatcher::new_with_data` (label_lookahead_matcher.rs 95-124); `new` (40-42) is this without data. `LabelReachable::new_from_data`
sets `reach_fst_input` to false (label_reachable.rs 152-157). -/
def laLabelNew (fl : LaFlags) (f : Fst W) (input : Bool) (data : Option LabelReachableData) : R LaMatcher :=
  if !(fl.inputLa || fl.outputLa) then .error .err
  else
    match data with
    | some d => .ok (.label fl (if input = d.reachInput then some (d, false) else none))
    | none =>
      match laCreateData fl f input with
      | .error e => .error e
      | .ok d => .ok (.label fl (d.map (·, false)))

/-- `init_lookahead_fst` of the matcher of `M` (trivial_lookahead_matcher.rs 90-92, tr_lookahead_matcher.rs 107-112,
label_lookahead_matcher.rs 143-152). -/
def LaMatcher.init (m : LaMatcher) (M : Fst W) (input : Bool) (L : Fst W) : R LaMatcher :=
  match m with
  | .sorted => .error .panic
  | .trivial => .ok .trivial
  | .tr fl => .ok (.tr fl)
  | .label fl none => .ok (.label fl none)
  | .label fl (some (d, _)) =>
    match sortedMatchType M input false with
    | .error e => .error e
    | .ok c =>
      let on := decide (c = .yes) && !input
      match LabelReachable.reachInit L on with
      | .error e => .error e
      | .ok () => .ok (.label fl (some (d, on)))

variable [Mul W]

/-- The local variables of `TrLookAheadMatcher::lookahead_fst` (tr_lookahead_matcher.rs 120-122). -/
structure TrLook (W : Type u) where
  result : Bool
  nprefix : Nat
  data : LaData W

/-- The weight of an item of the matcher's iterator (tr_lookahead_matcher.rs 165-172, 210-217). -/
def IterItem.weight : IterItem W → W
  | .tr t => t.weight
  | .epsLoop => 1

/-- Loop 207-222 for a transition `t` of the other FST. -/
def trLookMatches (fl : LaFlags) (t : Tr W) (o : TrLook W) (i : IterItem W) : TrLook W :=
  let n := o.nprefix + 1
  let d := if fl.weight then { o.data with weight := o.data.weight + t.weight * i.weight } else o.data
  ⟨o.result, n, if fl.prefixLa && decide (n = 1) then { d with prefixTr := t } else d⟩

/-- Loop 180-226; `true`: the function has returned `Some`. `match_type` (179) does not fail without a test. -/
def trLookLoop (fl : LaFlags) (M : Fst W) (input : Bool) (s : StateId) : List (Tr W) → TrLook W → R (Bool × TrLook W)
  | [], o => .ok (false, o)
  | t :: ts, o =>
    match sortedMatchType M input false with
    | .error e => .error e
    | .ok .yes =>
      let l := if input then t.olabel else t.ilabel
      if l = EPS then
        if !(fl.weight && fl.prefixLa) then .ok (true, o)
        else
          trLookLoop fl M input s ts ⟨true, if !fl.nonEpsPrefix then o.nprefix + 1 else o.nprefix,
            if fl.weight then { o.data with weight := o.data.weight + t.weight } else o.data⟩
      else
        match sortedIterR M input s l with
        | .error e => .error e
        | .ok its =>
          if its.isEmpty then trLookLoop fl M input s ts o
          else if !(fl.weight && fl.prefixLa) then .ok (true, o)
          else trLookLoop fl M input s ts { its.foldl (trLookMatches fl t) o with result := true }
    | .ok _ => .error .err

/-- `is_final(..)? && is_final(..)?` (tr_lookahead_matcher.rs 129). -/
def bothFinal (M L : Fst W) (s ls : StateId) : R Bool :=
  match M.isFinalR s with
  | .error e => .error e
  | .ok false => .ok false
  | .ok true => L.isFinalR ls

/-- Lines 179-240: the transitions of the other FST, and the result. -/
def trLookRest (fl : LaFlags) (M : Fst W) (input : Bool) (s : StateId) (L : Fst W) (ls : StateId) (o : TrLook W) : R (Option (LaData W)) :=
  match L.getTrsR ls with
  | .error e => .error e
  | .ok ts =>
    match trLookLoop fl M input s ts o with
    | .error e => .error e
    | .ok (true, o) => .ok (some o.data)
    | .ok (false, o) =>
      let d : LaData W :=
        if fl.prefixLa then
          if o.nprefix = 1 then { o.data with weight := 1 } else { o.data with prefixTr := { o.data.prefixTr with nextstate := NO_STATE_ID } }
        else o.data
      .ok (if o.result then some d else none)

/-- `TrLookAheadMatcher::lookahead_fst` (tr_lookahead_matcher.rs 114-241). `contains(LOOKAHEAD_WEIGHT | LOOKAHEAD_PREFIX)` means both flags. -/
def trLook (fl : LaFlags) (M : Fst W) (input : Bool) (s : StateId) (L : Fst W) (ls : StateId) : R (Option (LaData W)) :=
  let both := fl.weight && fl.prefixLa
  match bothFinal M L s ls with
  | .error e => .error e
  | .ok fin =>
    if fin && !both then .ok (some .default)
    else
      let o : TrLook W :=
        if fin then
          ⟨true, 1, if fl.weight then { LaData.default with weight := 1 + ((M.finOf s).getD 0) * ((L.finOf ls).getD 0) } else .default⟩
        else ⟨false, 0, .default⟩
      match sortedIterR M input s NO_LABEL with
      | .error e => .error e
      | .ok its =>
        if its.isEmpty then trLookRest fl M input s L ls o
        else if !both then .ok (some o.data)
        else
          trLookRest fl M input s L ls ⟨true, o.nprefix + 1,
            if fl.weight then { o.data with weight := its.foldl (fun w i => w + i.weight) o.data.weight } else o.data⟩

/-- Lines 181-209 of `LabelLookAheadMatcher::lookahead_fst`: the answers of `reach` and `reach_final` are known. -/
def labelLookData (fl : LaFlags) (ts : List (Tr W)) (lfin : Option W) (reachTr : Option (Nat × Nat × W)) (reachFin : Bool) : R (Option (LaData W)) :=
  let d0 : R (Bool × LaData W) :=
    match reachTr with
    | none => .ok (fl.weight, .default)
    | some (a, b, w) =>
      if fl.prefixLa && decide (b - a = 1) && !reachFin then
        match ts[a]? with
        | none => .error .panic
        | some t => .ok (false, { LaData.default with prefixTr := t })
      else .ok (fl.weight, { LaData.default with weight := w })
  match d0 with
  | .error e => .error e
  | .ok (compute, d) =>
    let d : LaData W :=
      if reachFin && compute then
        { d with weight := if reachTr.isSome then d.weight + lfin.getD 0 else lfin.getD 0 }
      else d
    .ok (if reachTr.isSome || reachFin then some d else none)

/-- `lfinal.is_some() && !lfinal.is_zero() && reach_final(..)?` (label_lookahead_matcher.rs 182-185). -/
def labelReachFin (d : LabelReachableData) (s : StateId) (lfin : Option W) : R Bool :=
  match lfin with
  | none => .ok false
  | some w => if w = 0 then .ok false else LabelReachable.reachFinal d s

/-- `LabelLookAheadMatcher::lookahead_fst` (label_lookahead_matcher.rs 154-213). -/
def labelLook (fl : LaFlags) (reachable : Option (LabelReachableData × Bool)) (s : StateId) (L : Fst W) (ls : StateId) : R (Option (LaData W)) :=
  match reachable with
  | none => .ok (some .default)
  | some (d, on) =>
    match L.getTrsR ls with
    | .error e => .error e
    | .ok ts =>
      match LabelReachable.reach d on s ts 0 ts.length fl.weight with
      | .error e => .error e
      | .ok reachTr =>
        match labelReachFin d s (L.finOf ls) with
        | .error e => .error e
        | .ok reachFin => labelLookData fl ts (L.finOf ls) reachTr reachFin

/-- `lookahead_fst`: the matcher of `M` in state `s`, the other FST `L` in state `ls` (trivial_lookahead_matcher.rs 94-101). -/
def LaMatcher.look (m : LaMatcher) (M : Fst W) (input : Bool) (s : StateId) (L : Fst W) (ls : StateId) : R (Option (LaData W)) :=
  match m with
  | .sorted => .error .panic
  | .trivial => .ok (some .default)
  | .tr fl => trLook fl M input s L ls
  | .label fl r => labelLook fl r s L ls

end

/-! ### Filters -/

/-- The type parameter `SMT` of the look-ahead filters and the `MatchType` it stands for (lookahead_selector.rs 5-52). -/
inductive SMatch where
  | input
  | output
  | both
  | none
  | unknown
  deriving DecidableEq

/-- `lookahead_match_type` (lookahead_filters/mod.rs 22-55). -/
def lookaheadMatchType (A B : Fst W) (m1 m2 : LaMatcher) : R SMatch :=
  match sortedMatchType A false false, sortedMatchType B true false with
  | .error e, _ => .error e
  | _, .error e => .error e
  | .ok t1, .ok t2 =>
    if t1 = .yes ∧ m1.flags.outputLa = true then .ok .output
    else if t2 = .yes ∧ m2.flags.inputLa = true then .ok .input
    else
      match (if m1.flags.outputLa then sortedMatchType A false true else .ok .none) with
      | .error e => .error e
      | .ok .yes => .ok .output
      | .ok _ =>
        match (if m2.flags.inputLa then sortedMatchType B true true else .ok .none) with
        | .error e => .error e
        | .ok .yes => .ok .input
        | .ok _ => .ok .none

/-- The fields of a `LookAheadComposeFilterBuilder` (lookahead_compose_filter.rs 47-67) beside the inner filter: whether to look ahead with the matcher of the first
FST on its output (`lookahead_output`, 321-329; the selector (lookahead_selector.rs 60-72) says the same), that matcher, and the flags. -/
structure LaCfg where
  out : Bool
  matcher : LaMatcher
  flags : LaFlags

section
variable [Zero W] [One W] [Add W] [DecidableEq W]

/-- `LookAheadComposeFilterBuilder::new` (lookahead_compose_filter.rs 114-160). -/
def laBuild (smt : SMatch) (A B : Fst W) (m1 m2 : LaMatcher) : R LaCfg :=
  match (if smt = .both then lookaheadMatchType A B m1 m2 else .ok smt) with
  | .error e => .error e
  | .ok .none => .error .err
  | .ok .output =>
    match m1.init A false B with
    | .error e => .error e
    | .ok m => .ok ⟨true, m, m1.flags⟩
  | .ok _ =>
    match m2.init B true A with
    | .error e => .error e
    | .ok m => .ok ⟨false, m, m2.flags⟩

variable [Mul W]

/-- The call of `lookahead_fst` (lookahead_compose_filter.rs 210-221). -/
def LaCfg.look (c : LaCfg) (A B : Fst W) (s1 s2 : StateId) : R (Option (LaData W)) :=
  if c.out then c.matcher.look A false s1 B s2 else c.matcher.look B true s2 A s1

/-- Whether a transition with this label makes the filter look ahead (lookahead_compose_filter.rs 202-207). -/
def LaCfg.looks (c : LaCfg) (l : Label) : Bool := if l = EPS then c.flags.epsilons else c.flags.nonEpsilons

/-- `filter_tr` of `LookAheadComposeFilter` (lookahead_compose_filter.rs 191-228, 254-265) over an inner filter: the new state, and the data if it looked ahead. -/
def lookFilterTr (c : LaCfg) (A B : Fst W) (flt : Tr W → Tr W → Option FS) (a b : Tr W) : R (Option (FS × Option (LaData W))) :=
  match flt a b with
  | none => .ok none
  | some fs =>
    if c.looks (if c.out then a.olabel else b.ilabel) then
      match c.look A B a.nextstate b.nextstate with
      | .error e => .error e
      | .ok none => .ok none
      | .ok (some d) => .ok (some (fs, some d))
    else .ok (some (fs, none))

end

/-- A composition filter (compose_filters/mod.rs 51-78) that may fail and may change weights: `filter_tr` for a state gives the new state and the
two weights, `filter_final` the two final weights. -/
structure LaFilter (FS : Type) (W : Type u) where
  start : FS
  filter : StateId → StateId → FS → R (Tr W → Tr W → R (Option (FS × W × W)))
  final : FS → W → W → R (W × W)
  props : Props → Props

section
variable [Zero W] [One W] [Add W] [Mul W] [DecidableEq W]

/-- `LookAheadComposeFilter` (lookahead_compose_filter.rs 231-294). -/
def lookFilter (c : LaCfg) (A B : Fst W) (F : ComposeFilter FS W) : LaFilter FS W where
  start := F.start
  filter s1 s2 fs :=
    match F.filter A B s1 s2 fs with
    | .error e => .error e
    | .ok flt => .ok fun a b =>
      match lookFilterTr c A B flt a b with
      | .error e => .error e
      | .ok none => .ok none
      | .ok (some (fs, _)) => .ok (some (fs, a.weight, b.weight))
  final _ w1 w2 := .ok (w1, w2)
  props p := p

end

section
variable {W : Type} [Zero W] [One W] [Add W] [Mul W] [DecidableEq W]

/-- `filter_tr` of `PushWeightsComposeFilter` (push_weights_compose_filter.rs 142-174) over a look-ahead filter, in a state with pushed weight `fw`. -/
def pushFilterTr (div quant : W → W → R W) (delta : W) (c : LaCfg) (A B : Fst W) (flt : Tr W → Tr W → Option FS) (fw : W) (a b : Tr W) :
    R (Option ((FS × W) × W × W)) :=
  match lookFilterTr c A B flt a b with
  | .error e => .error e
  | .ok none => .ok none
  | .ok (some (fs, d)) =>
    if !c.flags.weight then .ok (some ((fs, 1), a.weight, b.weight))
    else
      let lw := match d with
        | some d => d.weight
        | none => 1
      if lw = 0 then .ok none
      else
        match div (b.weight * lw) fw with
        | .error e => .error e
        | .ok w =>
          match quant lw delta with
          | .error e => .error e
          | .ok q => .ok (some ((fs, q), a.weight, w))

/-- `PushWeightsComposeFilter` (push_weights_compose_filter.rs 118-209). `div` is `divide_assign` with `DivideAny`, `quant` is `quantize`. -/
def pushFilter (div quant : W → W → R W) (delta : W) (c : LaCfg) (A B : Fst W) (F : ComposeFilter FS W) : LaFilter (FS × W) W where
  start := (F.start, 1)
  filter s1 s2 fs :=
    match F.filter A B s1 s2 fs.1 with
    | .error e => .error e
    | .ok flt => .ok (pushFilterTr div quant delta c A B flt fs.2)
  final fs w1 w2 :=
    if !c.flags.weight || decide (w1 = 0) then .ok (w1, w2)
    else
      match div w1 fs.2 with
      | .error e => .error e
      | .ok w => .ok (w, w2)
  props p := p.and Props.weightInvariantMask

end

/-! ### The operation -/

section
variable [One W] [Mul W]

/-- `match_tr_selected` (compose_fst_op.rs 287-322), with `add_tr` (267-285). -/
def matchTrSelectedL (input : Bool) (flt : Tr W → Tr W → R (Option (FS × W × W))) (sa : StateId) (tr : Tr W) (it : List (IterItem W)) :
    R (List (MTr (CTup FS) W)) :=
  collectR (fun i =>
    let arca := i.intoTr sa input
    let a := if input then tr else arca
    let b := if input then arca else tr
    match flt a b with
    | .error e => .error e
    | .ok none => .ok []
    | .ok (some (fs, w1, w2)) => .ok [⟨a.ilabel, b.olabel, w1 * w2, ⟨fs, a.nextstate, b.nextstate⟩⟩]) it

/-- `match_tr` (compose_fst_op.rs 324-357). The look-ahead matchers iterate as the `SortedMatcher` they wrap (tr_lookahead_matcher.rs 49-51,
label_lookahead_matcher.rs 44-46). -/
def matchTrL (M : Fst W) (input : Bool) (flt : Tr W → Tr W → R (Option (FS × W × W))) (sa : StateId) (tr : Tr W) : R (List (MTr (CTup FS) W)) :=
  match sortedIterR M input sa (if input then tr.olabel else tr.ilabel) with
  | .error e => .error e
  | .ok it => matchTrSelectedL input flt sa tr it

/-- `ordered_expand` (compose_fst_op.rs 221-265). -/
def orderedExpandL (A B : Fst W) (input : Bool) (flt : Tr W → Tr W → R (Option (FS × W × W))) (sa sb : StateId) : R (List (MTr (CTup FS) W)) :=
  let loop : Tr W := if input then ⟨EPS, NO_LABEL, 1, sb⟩ else ⟨NO_LABEL, EPS, 1, sb⟩
  let step := matchTrL (if input then B else A) input flt sa
  match step loop with
  | .error e => .error e
  | .ok l =>
    match (if input then A else B).getTrsR sb with
    | .error e => .error e
    | .ok tb =>
      match collectR step tb with
      | .error e => .error e
      | .ok ls => .ok (l ++ ls)

/-- `compute_trs` (compose_fst_op.rs 406-418). -/
def composeTrsL (A B : Fst W) (F : LaFilter FS W) (mt : MatchT) (t : CTup FS) : R (List (MTr (CTup FS) W)) :=
  match F.filter t.s1 t.s2 t.fs with
  | .error e => .error e
  | .ok flt =>
    match matchInput A B mt t.s1 t.s2 with
    | .error e => .error e
    | .ok true => orderedExpandL A B true flt t.s2 t.s1
    | .ok false => orderedExpandL A B false flt t.s1 t.s2

/-- `compute_start` (compose_fst_op.rs 389-404). -/
def composeStartL (A B : Fst W) (F : LaFilter FS W) : Option (CTup FS) :=
  match A.start with
  | none => none
  | some s1 =>
    match B.start with
    | none => none
    | some s2 => some ⟨F.start, s1, s2⟩

variable [Zero W] [DecidableEq W]

/-- `compute_final_weight` (compose_fst_op.rs 420-449). -/
def composeFinL (A B : Fst W) (F : LaFilter FS W) (t : CTup FS) : R (Option W) :=
  match A.finalWeightR t.s1 with
  | .error e => .error e
  | .ok none => .ok none
  | .ok (some w1) =>
    match B.finalWeightR t.s2 with
    | .error e => .error e
    | .ok none => .ok none
    | .ok (some w2) =>
      match F.filter t.s1 t.s2 t.fs with
      | .error e => .error e
      | .ok _ =>
        match F.final t.fs w1 w2 with
        | .error e => .error e
        | .ok (v1, v2) => .ok (if v1 * v2 = 0 then none else some (v1 * v2))

/-- `ComposeFstOp` (compose_fst_op.rs 132-167, 376-453). -/
def composeOpL (A B : Fst W) (F : LaFilter FS W) (mt : MatchT) : TupleOp (CTup FS) W where
  start := .ok (composeStartL A B F)
  trs := composeTrsL A B F mt
  fin := composeFinL A B F
  props := F.props (Props.compose A.props B.props)

variable [DecidableEq FS]

/-- `ComposeFst::new_with_options` with a filter (compose_fst.rs 106-129) and `compute`, with a `SimpleVecCache`. `ComposeFstOp::new` (compose_fst_op.rs 132-167) asks the
matchers for their match type (`composeMatchType`). -/
def composeLook (F : LaFilter FS W) (A B : Fst W) (n : Nat) : Option (R (Fst W)) :=
  match composeMatchType A B with
  | .error e => some (.error e)
  | .ok mt =>
    match Lz.compute vecCache ((composeOpL A B F mt).withTable BiMap.findId BiMap.findTuple) n ⟨vecCache.empty, BiMap.new⟩ with
    | none => none
    | some (.error e, _) => some (.error e)
    | some (.ok C, _) => some (.ok C)

end

/-! ### `MatcherFst` -/

/-- What `MatcherFst::new_with_relabeling` (matcher_fst.rs 73-93) returns and the second FST it changes: the FST, the data for input and for output. -/
structure MatcherFst (W : Type u) where
  fst : Fst W
  idata : Option LabelReachableData
  odata : Option LabelReachableData
  other : Fst W

section
variable [Zero W] [One W] [Add W] [DecidableEq W]

/-- `MatcherFst::new_with_relabeling` (matcher_fst.rs 73-93), with `init` and `relabel` of `LabelLookAheadRelabeler`
(label_lookahead_relabeler.rs 10-42). -/
def matcherFstNew (fl : LaFlags) (f g : Fst W) (relabelInput : Bool) : R (MatcherFst W) :=
  match laCreateData fl f true with
  | .error e => .error e
  | .ok i =>
    match laCreateData fl f false with
    | .error e => .error e
    | .ok o =>
      match i, o with
      | some d, o =>
        let a := d.relabelFst f true
        let b := a.1.relabelFst g relabelInput
        .ok ⟨a.2, some b.1, o, b.2⟩
      | none, some d =>
        let a := d.relabelFst f false
        let b := a.1.relabelFst g relabelInput
        .ok ⟨a.2, none, some b.1, b.2⟩
      | none, none => .error .err

end
end Verif
