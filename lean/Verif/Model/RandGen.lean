import Verif.Model.Lazy
import Verif.Model.Dfs
import Mathlib.Algebra.Field.Rat

/-!
# Random paths (`algorithms/randgen`)

`RandGenFst` is a lazy FST of the second kind (`LazyFst2`), which computes the transitions and the final weight of a state together. A selector is any
program with an interior state (the generator of random numbers). Probabilities are rational numbers, and `neglog p` is `W::new(-p.ln())`.
Symbol tables are left out.
-/

namespace Verif
universe u v w
variable {W : Type u}

/-! ### Lazy FSTs of the second kind -/

/-- `FstOp2` (lazy/fst_op_2.rs) with the interior state `σ` of the operation. -/
structure LazyOp2 (σ : Type v) (W : Type u) where
  computeStart : σ → R (Option StateId) × σ
  computeTrsFinal : StateId → σ → R (List (Tr W) × Option W) × σ
  props : Props

namespace Lz
variable {C : Type v} {σ : Type w} (K : CacheOps W C) (O : LazyOp2 σ W)

/-- `LazyFst2::start` (lazy_fst_2.rs 29-39). -/
def start2 (z : Lz C σ) : R (Option StateId) × Lz C σ :=
  match K.getStart z.cache with
  | some r => (.ok r, z)
  | none => match O.computeStart z.op with
    | (.ok r, o) => (.ok r, ⟨K.insertStart z.cache r, o⟩)
    | (.error _, o) => (.error .panic, ⟨z.cache, o⟩)

/-- `LazyFst2::final_weight` (lazy_fst_2.rs 41-52). -/
def finalWeight2 (z : Lz C σ) (s : StateId) : R (Option W) × Lz C σ :=
  match K.getFinal z.cache s with
  | some w => (.ok w, z)
  | none => match O.computeTrsFinal s z.op with
    | (.ok (l, w), o) => (.ok w, ⟨K.insertFinal (K.insertTrs z.cache s l) s w, o⟩)
    | (.error e, o) => (.error e, ⟨z.cache, o⟩)

/-- `LazyFst2::get_trs` (lazy_fst_2.rs 68-78). -/
def getTrs2 (z : Lz C σ) (s : StateId) : R (List (Tr W)) × Lz C σ :=
  match K.getTrs z.cache s with
  | some l => (.ok l, z)
  | none => match O.computeTrsFinal s z.op with
    | (.ok (l, w), o) => (.ok l, ⟨K.insertFinal (K.insertTrs z.cache s l) s w, o⟩)
    | (.error e, o) => (.error e, ⟨z.cache, o⟩)

variable [Zero W] [One W] [DecidableEq W]

/-- The loop over the transitions of `s` (lazy_fst_2.rs 239-249): queue, set of visited states and output. `s` is a state of the output. -/
def scan2 (s : StateId) : List (Tr W) → List StateId → List StateId → Fst W → List StateId × List StateId × Fst W
  | [], q, vis, out => (q, vis, out)
  | t :: ts, q, vis, out =>
    let (q1, vis1) := if t.nextstate ∈ vis then (q, vis) else (q ++ [t.nextstate], t.nextstate :: vis)
    scan2 s ts q1 vis1 ((out.addStates (t.nextstate + 1 - out.numStates)).addTr s t)

/-- The loop of `compute` (lazy_fst_2.rs 238-253). `none`: out of fuel. -/
def computeLoop2 : Nat → List StateId → List StateId → Fst W → Lz C σ → Option (R (Fst W) × Lz C σ)
  | 0, _, _, _, _ => none
  | _ + 1, [], _, out, z => some (.ok out, z)
  | n + 1, s :: q, vis, out, z =>
    match z.getTrs2 K O s with
    | (.error e, z1) => some (.error e, z1)
    | (.ok l, z1) =>
      let (q1, vis1, out1) := scan2 s l q vis out
      match z1.finalWeight2 K O s with
      | (.error e, z2) => some (.error e, z2)
      | (.ok w, z2) => computeLoop2 n q1 vis1 (putFinal out1 s w) z2

/-- `LazyFst2::compute` (lazy_fst_2.rs 223-262). -/
def compute2 (n : Nat) (z : Lz C σ) : Option (R (Fst W) × Lz C σ) :=
  match z.start2 K O with
  | (.error e, z1) => some (.error e, z1)
  | (.ok none, z1) => some (.ok Fst.new, z1)
  | (.ok (some s), z1) =>
    match computeLoop2 K O n [s] [s] ((Fst.new.addStates (s + 1)).setStart s) z1 with
    | none => none
    | some (.error e, z2) => some (.error e, z2)
    | some (.ok out, z2) => some (.ok (out.setProps O.props), z2)

end Lz

/-! ### Sampling -/

/-- `TrSelector::select_tr` (tr_selector.rs 14-16) for a given FST. -/
abbrev Selector (σ : Type v) := σ → StateId → R Nat × σ

/-- `RandState` (rand_state.rs 6-17). `select` and `parent` are never read and are left out. -/
structure RandState where
  stateId : StateId
  nsamples : Nat
  length : Nat

/-- `*sample_map.entry(k).or_insert(0) += 1` on a `BTreeMap`, the list of its entries in order. -/
def bump : List (Nat × Nat) → Nat → List (Nat × Nat)
  | [], k => [(k, 1)]
  | (p, c) :: m, k => if k < p then (k, 1) :: (p, c) :: m else if k = p then (p, c + 1) :: m else (p, c) :: bump m k

/-- The loop of `sample` (tr_sampler.rs 76-81). -/
def sampleLoop {σ : Type v} (sel : Selector σ) (s : StateId) : Nat → List (Nat × Nat) → σ → R (List (Nat × Nat)) × σ
  | 0, m, g => (.ok m, g)
  | n + 1, m, g =>
    match sel g s with
    | (.error e, g) => (.error e, g)
    | (.ok k, g) => sampleLoop sel s n (bump m k) g

section
variable [Zero W] [DecidableEq W]

/-- `TrSampler::sample` (tr_sampler.rs 67-84): the new `sample_map`; the result itself is not used by the caller. -/
def sample {σ : Type v} (f : Fst W) (sel : Selector σ) (maxLength : Nat) (r : RandState) (g : σ) : R (List (Nat × Nat)) × σ :=
  match f.numTrsR r.stateId, f.isFinalR r.stateId with
  | .error e, _ => (.error e, g)
  | .ok _, .error e => (.error e, g)
  | .ok k, .ok fin =>
    if (k = 0 ∧ fin = false) ∨ r.length = maxLength then (.ok [], g)
    else sampleLoop sel r.stateId r.nsamples [] g

/-- `UniformTrSelector::select_tr` (tr_selector.rs 43-52): `draw` gives a number from 0 to `n - 1`. `n - 1` with `n = 0` overflows. -/
def uniformSelector {σ : Type v} (f : Fst W) (draw : σ → Nat → Nat × σ) : Selector σ := fun g s =>
  match f.numTrsR s, f.isFinalR s with
  | .error e, _ => (.error e, g)
  | .ok _, .error e => (.error e, g)
  | .ok k, .ok fin =>
    let n := if fin then k + 1 else k
    if n = 0 then (.error .panic, g) else (.ok (draw g n).1, (draw g n).2)

end

/-! ### The operation -/

/-- Fields of `RandGenConfig` (randgen_config.rs 4-15) other than the selector. -/
structure RandCfg where
  maxLength : Nat
  npath : Nat
  weighted : Bool
  removeTotal : Bool

/-- The interior state of `RandGenFstOp` (randgen_fst_op.rs 18-32); `superfinal` is `none` instead of `NO_STATE_ID`. -/
structure RandOp (σ : Type v) where
  gen : σ
  table : List RandState
  superfinal : Option StateId

/-- What the loop of `compute_trs_and_final_weight` changes. -/
structure RandExp (W : Type u) where
  table : List RandState
  superfinal : Option StateId
  trs : List (Tr W)
  fin : Option W

section
variable [One W]

/-- The body of the loop over the samples (randgen_fst_op.rs 120-166). -/
def expandOne (cfg : RandCfg) (neglog : ℚ → W) (trs : List (Tr W)) (r : RandState) (e : RandExp W) (pc : Nat × Nat) : RandExp W :=
  let prob : ℚ := pc.2 / r.nsamples
  match trs[pc.1]? with
  | some t =>
    { e with
      trs := e.trs ++ [⟨t.ilabel, t.olabel, if cfg.weighted then neglog prob else 1, e.table.length⟩]
      table := e.table ++ [⟨t.nextstate, pc.2, r.length + 1⟩] }
  | none =>
    if cfg.weighted then { e with fin := some (if cfg.removeTotal then neglog prob else neglog (prob * cfg.npath)) }
    else
      match e.superfinal with
      | some x => { e with trs := e.trs ++ List.replicate pc.2 ⟨EPS, EPS, 1, x⟩ }
      | none =>
        { e with
          table := e.table ++ [⟨NO_STATE_ID, 0, 0⟩]
          superfinal := some e.table.length
          trs := e.trs ++ List.replicate pc.2 ⟨EPS, EPS, 1, e.table.length⟩ }

variable [Zero W] [DecidableEq W] {σ : Type v}

/-- `compute_trs_and_final_weight` (randgen_fst_op.rs 105-169). -/
def randTrsFinal (f : Fst W) (sel : Selector σ) (cfg : RandCfg) (neglog : ℚ → W) (s : StateId) (o : RandOp σ) :
    R (List (Tr W) × Option W) × RandOp σ :=
  if o.superfinal = some s then (.ok ([], some 1), o)
  else
    match o.table[s]? with
    | none => (.error .panic, o)
    | some r =>
      match sample f sel cfg.maxLength r o.gen with
      | (.error e, g) => (.error e, { o with gen := g })
      | (.ok m, g) =>
        match f.getTrsR r.stateId with
        | .error e => (.error e, { o with gen := g })
        | .ok trs =>
          let e := m.foldl (expandOne cfg neglog trs r) ⟨o.table, o.superfinal, [], none⟩
          (.ok (e.trs, e.fin), ⟨g, e.table, e.superfinal⟩)

/-- `rand_gen_properties` (mutate_properties.rs 449-473) and the mask of `RandGenFstOp::properties` (randgen_fst_op.rs 171-174). -/
def randProps (p : Props) (weighted : Bool) : Props :=
  let out := Props.of [.acyclic, .initialAcyclic, .accessible, .unweightedCycles]
  if weighted then
    (out.or (Props.of [.topSorted])).or ((Props.of [.acceptor, .noEpsilons, .noIEpsilons, .noOEpsilons, .iDeterministic, .oDeterministic, .iLabelSorted,
      .oLabelSorted]).and p)
  else (out.or (Props.of [.unweighted])).or ((Props.of [.acceptor, .iLabelSorted, .oLabelSorted]).and p)

/-- `RandGenFstOp` (randgen_fst_op.rs 82-175). -/
def randOp (f : Fst W) (sel : Selector σ) (cfg : RandCfg) (neglog : ℚ → W) : LazyOp2 (RandOp σ) W where
  computeStart o := match f.start with
    | none => (.ok none, o)
    | some s => (.ok (some o.table.length), { o with table := o.table ++ [⟨s, cfg.npath, 0⟩] })
  computeTrsFinal := randTrsFinal f sel cfg neglog
  props := randProps f.props cfg.weighted

/-- `RandGenFst::new` followed by `compute` (randgen_fst.rs 140-167). -/
def randTree (f : Fst W) (sel : Selector σ) (g : σ) (cfg : RandCfg) (neglog : ℚ → W) (n : Nat) : Option (R (Fst W)) :=
  (Lz.compute2 mapCache (randOp f sel cfg neglog) n ⟨mapCache.empty, ⟨g, [], none⟩⟩).map (·.1)

/-! ### Writing the paths out -/

/-- `RandGenVisitor` (randgen_visitor.rs 7-11); `panicked` says that a callback has panicked. -/
structure RandV (W : Type u) where
  ofst : Fst W
  path : List (Tr W)
  panicked : Bool

namespace RandV

/-- The loop of `output_path` (randgen_visitor.rs 33-40) and `set_final`. -/
def chain (o : Fst W) (src : StateId) : List (Tr W) → Fst W
  | [] => o.setFinal src 1
  | t :: ts => chain (o.addState.addTr src ⟨t.ilabel, t.olabel, 1, o.numStates⟩) o.numStates ts

/-- `output_path` (randgen_visitor.rs 28-42) on the FST. -/
def output (o : Fst W) (path : List (Tr W)) : Fst W :=
  match o.start with
  | some s => chain o s path
  | none => chain (o.addState.setStart o.numStates) o.numStates path

/-- The callbacks (randgen_visitor.rs 45-84) for the FST `f`. A transition to a missing state panics in `is_final(..).unwrap()`. -/
def visitor (f : Fst W) : Visitor W (RandV W) where
  initState v _ _ := (v, true)
  treeTr v _ t := match f.isFinalR t.nextstate with
    | .error _ => ({ v with panicked := true }, false)
    | .ok false => ({ v with path := v.path ++ [t] }, true)
    | .ok true => ({ v with ofst := output v.ofst v.path }, true)
  backTr v _ _ := ({ v with panicked := true }, false)
  crossTr v _ _ := ({ v with ofst := output v.ofst v.path }, true)
  finishState v s p := if p.isSome ∧ f.isFinalR s = .ok false then { v with path := v.path.dropLast } else v
  finishVisit v := v

end RandV

/-- `dfs_visit` with `RandGenVisitor` (randgen/mod.rs 48-50). -/
def randFan (f : Fst W) : R (Fst W) :=
  let v := Dfs.visit f (RandV.visitor f) (fun _ => true) ⟨Fst.new, [], false⟩
  if v.panicked then .error .panic else .ok v.ofst

/-- `randgen_with_config` (randgen/mod.rs 26-52). -/
def randgen (f : Fst W) (sel : Selector σ) (g : σ) (cfg : RandCfg) (neglog : ℚ → W) (n : Nat) : Option (R (Fst W)) :=
  match randTree f sel g cfg neglog n with
  | none => none
  | some (.error e) => some (.error e)
  | some (.ok t) => if cfg.weighted then some (.ok t) else some (randFan t)

end
end Verif
