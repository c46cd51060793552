import Verif.Model.Compose

/-!
# `compose_with_config` with sigma matchers (`algorithms/compose/matchers/sigma_matcher.rs`, `algorithms/compose/compose_static.rs`)

A `SigmaMatcher` always wraps a `SortedMatcher` here, as in `MatcherConfig::create_matcher`.
-/

namespace Verif
universe u
variable {W : Type u} {FS : Type}

/-- `MatcherRewriteMode` (matchers/mod.rs 75-80). -/
inductive RewriteMode where
  | auto
  | always
  | never
  deriving DecidableEq

/-- `SigmaMatcherConfig` (compose_static.rs 31-35). -/
structure SigmaConfig where
  sigma : Label
  mode : RewriteMode
  allowed : Option (List Label)

/-- The fields of a `SigmaMatcher` (sigma_matcher.rs 18-31) other than the matcher it wraps and its match type. -/
structure SigmaM where
  sigma : Label
  rewriteBoth : Bool
  allowed : Option (List Label)

/-- `SigmaMatcher::new` (sigma_matcher.rs 54-84). The match type is never `MatchBoth` here. -/
def SigmaM.new (c : SigmaConfig) (f : Fst W) : R SigmaM :=
  if c.sigma = EPS then .error .err
  else
    .ok ⟨c.sigma, (match c.mode with | .auto => f.props .acceptor | .always => true | .never => false), c.allowed⟩

/-- `MatcherConfig::create_matcher` (compose_static.rs 79-108): `none` is a plain `SortedMatcher`. -/
def createMatcher (c : Option SigmaConfig) (f : Fst W) : R (Option SigmaM) :=
  match c with
  | none => .ok none
  | some c =>
    match SigmaM.new c f with
    | .error e => .error e
    | .ok m => .ok (some m)

/-- `SortedMatcher::iter` (sorted_matcher.rs 43-49). -/
def sortedIterR (f : Fst W) (input : Bool) (s : StateId) (l : Label) : R (List (IterItem W)) :=
  match f.getTrsR s with
  | .error e => .error e
  | .ok ts => .ok (sortedIter input ts l)

namespace SigmaM

/-- `has_sigma` (sigma_matcher.rs 33-45). -/
def hasSigma (m : SigmaM) (f : Fst W) (input : Bool) (s : StateId) : R Bool :=
  if m.sigma ≠ NO_LABEL then
    match sortedIterR f input s m.sigma with
    | .error e => .error e
    | .ok l => .ok (!l.isEmpty)
  else .ok false

/-- `is_match_label_allowed` (sigma_matcher.rs 172-181). -/
def isAllowed (m : SigmaM) (l : Label) : Bool :=
  match m.allowed with
  | some ls => decide (l ∈ ls)
  | none => true

/-- The labels of a sigma transition matched with `l` (sigma_matcher.rs 254-265). -/
def rewrite (m : SigmaM) (input : Bool) (l : Label) (t : Tr W) : Tr W :=
  if m.rewriteBoth then
    { t with ilabel := if t.ilabel = m.sigma then l else t.ilabel, olabel := if t.olabel = m.sigma then l else t.olabel }
  else if input then { t with ilabel := l }
  else { t with olabel := l }

end SigmaM

/-- `IteratorSigmaMatcher` (sigma_matcher.rs 151-170). `items` is what the inner iterator will still yield and `sigmaItems` what a new
inner iterator for sigma would yield. `sigmaMatch` is `None` in the code only if `find_empty`. -/
structure SigmaIt (W : Type u) where
  matchLabel : Label
  findEmpty : Bool
  sigmaMatch : Label
  items : List (IterItem W)
  sigmaItems : List (IterItem W)
  hasSigma : Bool

namespace SigmaIt

/-- `IteratorSigmaMatcher::new` (sigma_matcher.rs 190-239). -/
def new (m : SigmaM) (f : Fst W) (input : Bool) (s : StateId) (l : Label) : R (SigmaIt W) :=
  if l = m.sigma ∧ m.sigma ≠ NO_LABEL then .error .err
  else
    match m.hasSigma f input s with
    | .error e => .error e
    | .ok has =>
      match sortedIterR f input s l with
      | .error e => .error e
      | .ok it =>
        match sortedIterR f input s m.sigma with
        | .error e => .error e
        | .ok its =>
          if it.isEmpty = false then .ok ⟨l, false, NO_LABEL, it, its, has⟩
          else if has && decide (l ≠ EPS) && decide (l ≠ NO_LABEL) && m.isAllowed l && !its.isEmpty then .ok ⟨l, false, l, its, its, has⟩
          else .ok ⟨l, true, NO_LABEL, its, its, has⟩

/-- `value_openfst` (sigma_matcher.rs 242-268) for the next item of the inner iterator. -/
def value [One W] (m : SigmaM) (input : Bool) (s : StateId) (it : SigmaIt W) (i : IterItem W) : IterItem W :=
  if it.sigmaMatch = NO_LABEL then i else .tr (m.rewrite input it.sigmaMatch (i.intoTr s input))

/-- `next_openfst` (sigma_matcher.rs 270-284). -/
def advance (it : SigmaIt W) : SigmaIt W :=
  let r := it.items.head?
  let it := { it with items := it.items.tail }
  if r.isNone && it.hasSigma && decide (it.sigmaMatch = NO_LABEL) && decide (0 < it.matchLabel) then
    { it with items := it.sigmaItems, sigmaMatch := it.matchLabel }
  else it

/-- `next` (sigma_matcher.rs 296-306). -/
def next [One W] (m : SigmaM) (input : Bool) (s : StateId) (it : SigmaIt W) : Option (IterItem W × SigmaIt W) :=
  if it.findEmpty then none
  else
    match it.items.head? with
    | none => none
    | some i => some (it.value m input s i, it.advance)

/-- What the iterator yields until it is exhausted. Each item of the inner iterators is yielded at most once, so the number of them is
enough fuel. -/
def drain [One W] (m : SigmaM) (input : Bool) (s : StateId) : Nat → SigmaIt W → List (IterItem W)
  | 0, _ => []
  | n + 1, it =>
    match it.next m input s with
    | none => []
    | some (i, it') => i :: drain m input s n it'

end SigmaIt

section
variable [One W]

/-- `SigmaMatcher::iter` (sigma_matcher.rs 106-116) and all that the iterator yields. -/
def sigmaIter (m : SigmaM) (f : Fst W) (input : Bool) (s : StateId) (l : Label) : R (List (IterItem W)) :=
  match SigmaIt.new m f input s l with
  | .error e => .error e
  | .ok it => .ok (it.drain m input s (it.items.length + it.sigmaItems.length + 1))

/-- `iter` of a matcher. -/
def matcherIter (m : Option SigmaM) (f : Fst W) (input : Bool) (s : StateId) (l : Label) : R (List (IterItem W)) :=
  match m with
  | none => sortedIterR f input s l
  | some m => sigmaIter m f input s l

/-- `priority` of a matcher (sorted_matcher.rs 91-93, sigma_matcher.rs 134-144); `none` is `REQUIRE_PRIORITY`. A number of transitions is
taken to be smaller than `usize::MAX`. -/
def matcherPriority (m : Option SigmaM) (f : Fst W) (input : Bool) (s : StateId) : R (Option Nat) :=
  match m with
  | none =>
    match f.numTrsR s with
    | .error e => .error e
    | .ok n => .ok (some n)
  | some m =>
    match m.hasSigma f input s with
    | .error e => .error e
    | .ok true => .ok none
    | .ok false =>
      match f.numTrsR s with
      | .error e => .error e
      | .ok n => .ok (some n)

/-- `flags().contains(REQUIRE_MATCH)` (sorted_matcher.rs 87-89, sigma_matcher.rs 126-132). -/
def requiresMatch (m : Option SigmaM) : Bool :=
  match m with
  | none => false
  | some m => decide (m.sigma ≠ NO_LABEL)

/-- The test for one operand (compose_fst_op.rs 170-179): a matcher that must be used can be used. -/
def requireOk (m : Option SigmaM) (f : Fst W) (input : Bool) : R Unit :=
  if requiresMatch m then
    match sortedMatchType f input true with
    | .error e => .error e
    | .ok .yes => .ok ()
    | .ok _ => .error .err
  else .ok ()

/-- `ComposeFstOp::match_type` (compose_fst_op.rs 169-197). -/
def composeMatchTypeM (A B : Fst W) (m1 m2 : Option SigmaM) : R MatchT :=
  match requireOk m1 A false with
  | .error e => .error e
  | .ok () =>
    match requireOk m2 B true with
    | .error e => .error e
    | .ok () => composeMatchType A B

/-- `match_input` (compose_fst_op.rs 199-219). -/
def matchInputM (A B : Fst W) (m1 m2 : Option SigmaM) (mt : MatchT) (s1 s2 : StateId) : R Bool :=
  match mt with
  | .input => .ok true
  | .output => .ok false
  | .both =>
    match matcherPriority m1 A false s1 with
    | .error e => .error e
    | .ok p1 =>
      match matcherPriority m2 B true s2 with
      | .error e => .error e
      | .ok p2 =>
        match p1, p2 with
        | none, none => .error .err
        | none, some _ => .ok false
        | some _, none => .ok true
        | some n1, some n2 => .ok (decide (n1 ≤ n2))

/-- A loop that appends what each step yields and stops at the first error. -/
def collectR {α β : Type*} (f : α → R (List β)) : List α → R (List β)
  | [] => .ok []
  | a :: as =>
    match f a with
    | .error e => .error e
    | .ok l =>
      match collectR f as with
      | .error e => .error e
      | .ok ls => .ok (l ++ ls)

variable [Mul W]

/-- `match_tr` (compose_fst_op.rs 324-357). -/
def matchTrM (M : Fst W) (m : Option SigmaM) (input : Bool) (flt : Tr W → Tr W → Option FS) (sa : StateId) (tr : Tr W) :
    R (List (MTr (CTup FS) W)) :=
  match matcherIter m M input sa (if input then tr.olabel else tr.ilabel) with
  | .error e => .error e
  | .ok it => .ok (matchTrSelected input flt sa tr it)

/-- `ordered_expand` (compose_fst_op.rs 221-265). -/
def orderedExpandM (A B : Fst W) (m1 m2 : Option SigmaM) (input : Bool) (flt : Tr W → Tr W → Option FS) (sa sb : StateId) :
    R (List (MTr (CTup FS) W)) :=
  let loop : Tr W := if input then ⟨EPS, NO_LABEL, 1, sb⟩ else ⟨NO_LABEL, EPS, 1, sb⟩
  let step := matchTrM (if input then B else A) (if input then m2 else m1) input flt sa
  match step loop with
  | .error e => .error e
  | .ok l =>
    match (if input then A else B).getTrsR sb with
    | .error e => .error e
    | .ok tb =>
      match collectR step tb with
      | .error e => .error e
      | .ok ls => .ok (l ++ ls)

/-- `compute_trs` (compose_fst_op.rs 406-418). -/
def composeTrsM (A B : Fst W) (m1 m2 : Option SigmaM) (F : ComposeFilter FS W) (mt : MatchT) (t : CTup FS) : R (List (MTr (CTup FS) W)) :=
  match F.filter A B t.s1 t.s2 t.fs with
  | .error e => .error e
  | .ok flt =>
    match matchInputM A B m1 m2 mt t.s1 t.s2 with
    | .error e => .error e
    | .ok true => orderedExpandM A B m1 m2 true flt t.s2 t.s1
    | .ok false => orderedExpandM A B m1 m2 false flt t.s1 t.s2

variable [Zero W] [DecidableEq W]

/-- `ComposeFstOp` (compose_fst_op.rs 376-453). The final weights do not depend on the matchers: `final_weight` of a `SigmaMatcher` is that of the
matcher it wraps (sigma_matcher.rs 118-120). -/
def composeOpM (A B : Fst W) (m1 m2 : Option SigmaM) (F : ComposeFilter FS W) (mt : MatchT) : TupleOp (CTup FS) W where
  start := .ok (composeStart A B F)
  trs := composeTrsM A B m1 m2 F mt
  fin := composeFin A B F
  props := Props.compose A.props B.props

variable [DecidableEq FS]

/-- `compose_with_config` (compose_static.rs 166-266) for a filter other than `AutoFilter`, which is an error together with sigma matchers
(186-192). -/
def composeConfig (F : ComposeFilter FS W) (connect : Bool) (c1 c2 : Option SigmaConfig) (A B : Fst W) (n : Nat) : Option (R (Fst W)) :=
  match createMatcher c1 A with
  | .error e => some (.error e)
  | .ok m1 =>
    match createMatcher c2 B with
    | .error e => some (.error e)
    | .ok m2 =>
      match composeMatchTypeM A B m1 m2 with
      | .error e => some (.error e)
      | .ok mt =>
        match Lz.compute vecCache ((composeOpM A B m1 m2 F mt).withTable BiMap.findId BiMap.findTuple) n ⟨vecCache.empty, BiMap.new⟩ with
        | none => none
        | some (.error e, _) => some (.error e)
        | some (.ok C, _) => some (if connect then C.connect else .ok C)

end
end Verif
