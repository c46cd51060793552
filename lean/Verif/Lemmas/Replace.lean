import Verif.Model.Replace
import Verif.Spec.Replace
import Verif.Lemmas.Mid
import Verif.Lemmas.FactorSums
import Mathlib.Algebra.BigOperators.Intervals

/-! # `replace`: the machine of a network and its paths -/

set_option linter.unusedSectionVars false

namespace Verif
universe u
variable {W : Type u}

/-- A configuration: the frames to return to, the current FST and its current state. -/
structure RCfg where
  stack : List RFrame
  fst : Nat
  state : StateId
  deriving DecidableEq

/-- A network with the labels of calls and returns. -/
structure RNet (W : Type u) where
  fst : Nat → Fst W
  callee : Tr W → Option Nat
  callIn : Tr W → Label
  callOut : Tr W → Label
  retIn : Label
  retOut : Label
  root : Nat

namespace RNet

section
variable [Zero W] [DecidableEq W] (N : RNet W)

/-- The return transition. -/
def retTr (t : RCfg) : List (MTr RCfg W) :=
  match t.stack, (N.fst t.fst).finOf t.state with
  | fr :: st, some w => if w = 0 then [] else [⟨N.retIn, N.retOut, w, ⟨st, fr.fst, fr.state⟩⟩]
  | _, _ => []

/-- The transitions for a transition of the current FST. -/
def stepTr (t : RCfg) (tr : Tr W) : List (MTr RCfg W) :=
  match N.callee tr with
  | none => [⟨tr.ilabel, tr.olabel, tr.weight, ⟨t.stack, t.fst, tr.nextstate⟩⟩]
  | some j => match (N.fst j).start with
    | none => []
    | some q => [⟨N.callIn tr, N.callOut tr, tr.weight, ⟨⟨t.fst, tr.nextstate⟩ :: t.stack, j, q⟩⟩]

/-- The machine of a network. -/
def machine : Machine RCfg W where
  start := (N.fst N.root).start.map fun s => ⟨[], N.root, s⟩
  trs t := N.retTr t ++ ((N.fst t.fst).trsOf t.state).flatMap (N.stepTr t)
  fin t := if t.stack = [] then (N.fst t.fst).finOf t.state else none

theorem machine_trs (t : RCfg) : N.machine.trs t = N.retTr t ++ ((N.fst t.fst).trsOf t.state).flatMap (N.stepTr t) := rfl

end

/-- The same as a specification. -/
def rtn [One W] (N : RNet W) : Rtn W where
  fst := N.fst
  callee := N.callee
  call tr := (strip (N.callIn tr), strip (N.callOut tr), tr.weight)
  ret := (strip N.retIn, strip N.retOut, 1)

section paths
variable [MonoidWithZero W] [DecidableEq W] (N : RNet W)

/-- What remains to be done with a stack, in `n` steps. -/
def after : List RFrame → Nat → Multiset (PathT W)
  | [], 0 => {([], [], 1)}
  | [], _ + 1 => 0
  | _ :: _, 0 => 0
  | fr :: st, n + 1 => ∑ k ∈ Finset.range (n + 1), catAll {N.rtn.ret} (catAll (N.rtn.expand k fr.fst fr.state) (after st (n - k)))

theorem catAll_finset_left {ι : Type*} (s : Finset ι) (A : ι → Multiset (PathT W)) (C : Multiset (PathT W)) :
    catAll (∑ k ∈ s, A k) C = ∑ k ∈ s, catAll (A k) C := by
  classical
  induction s using Finset.induction_on with
  | empty => simp
  | insert a s h ih => rw [Finset.sum_insert h, Finset.sum_insert h, catAll_add_left, ih]

theorem catAll_finset_right {ι : Type*} (s : Finset ι) (A : Multiset (PathT W)) (C : ι → Multiset (PathT W)) :
    catAll A (∑ k ∈ s, C k) = ∑ k ∈ s, catAll A (C k) := by
  classical
  induction s using Finset.induction_on with
  | empty => simp
  | insert a s h ih => rw [Finset.sum_insert h, Finset.sum_insert h, catAll_add_right, ih]

theorem bind_finset {α ι : Type*} (M : Multiset α) (s : Finset ι) (F : ι → α → Multiset (PathT W)) :
    M.bind (fun a => ∑ k ∈ s, F k a) = ∑ k ∈ s, M.bind (F k) := by
  induction M using Multiset.induction_on with
  | empty => simp
  | cons a M ih => simp only [Multiset.cons_bind, ih, Finset.sum_add_distrib]

/-- Three legs of total length `n`, cut in two ways. -/
theorem sum_three (n : Nat) (F : Nat → Nat → Nat → Multiset (PathT W)) :
    ∑ k ∈ Finset.range n, ∑ l ∈ Finset.range (n - k), F k l (n - 1 - k - l) =
    ∑ k ∈ Finset.range n, ∑ a ∈ Finset.range (k + 1), F a (k - a) (n - 1 - k) := by
  rw [Finset.sum_sigma', Finset.sum_sigma']
  refine Finset.sum_nbij' (fun p => ⟨p.1 + p.2, p.1⟩) (fun p => ⟨p.2, p.1 - p.2⟩) ?_ ?_ ?_ ?_ ?_
  · rintro ⟨k, l⟩ h; simp only [Finset.mem_sigma, Finset.mem_range] at h ⊢; omega
  · rintro ⟨k, l⟩ h; simp only [Finset.mem_sigma, Finset.mem_range] at h ⊢; omega
  · rintro ⟨k, l⟩ h; simp
  · rintro ⟨k, l⟩ h; simp only [Finset.mem_sigma, Finset.mem_range] at h; simp; omega
  · rintro ⟨k, l⟩ h
    simp only [Finset.mem_sigma, Finset.mem_range] at h
    have h1 : k + l - k = l := by omega
    have h2 : n - 1 - k - l = n - 1 - (k + l) := by omega
    simp only [h1, h2]

theorem expand_succ (n i s) : N.rtn.expand (n + 1) i s = ((N.fst i).trsOf s : Multiset (Tr W)).bind fun tr =>
    match N.callee tr with
    | none => catAll {tr.asPath} (N.rtn.expand n i tr.nextstate)
    | some j => match (N.fst j).start with
      | none => 0
      | some q => ∑ k ∈ Finset.range n, catAll {N.rtn.call tr} (catAll (N.rtn.expand k j q) (catAll {N.rtn.ret} (N.rtn.expand (n - 1 - k) i tr.nextstate))) := by
  rw [Rtn.expand]
  refine Multiset.bind_congr fun tr _ => ?_
  simp only [rtn]
  cases hc : N.callee tr with
  | none => rfl
  | some j =>
    cases hq : (N.fst j).start with
    | none => simp only [hq]
    | some q => simp only [hq]; rw [Finset.sum_range]

theorem expand_zero (i s) : N.rtn.expand 0 i s = match (N.fst i).finOf s with
    | none => 0
    | some w => {([], [], w)} := by rw [Rtn.expand]; rfl

theorem pathsFrom_eq (hz : ∀ i s, (N.fst i).finOf s ≠ some 0) : ∀ (n : Nat) (t : RCfg),
    N.machine.pathsFrom n t = ∑ k ∈ Finset.range (n + 1), catAll (N.rtn.expand k t.fst t.state) (N.after t.stack (n - k)) := by
  intro n
  induction n with
  | zero =>
    rintro ⟨st, i, s⟩
    simp only [Machine.pathsFrom, machine, zero_add, Finset.sum_range_one, Rtn.expand, rtn]
    cases st with
    | nil => cases (N.fst i).finOf s <;> simp [after, Fst.catAll_one_right]
    | cons fr st => simp [after]
  | succ n ih =>
    rintro ⟨st, i, s⟩
    rw [Finset.sum_range_succ', Machine.pathsFrom, machine_trs]
    simp only
    rw [← Multiset.coe_add, Multiset.add_bind, add_comm]
    congr 1
    · -- the transitions of the current FST
      have h1 : ∀ k ∈ Finset.range (n + 1), catAll (N.rtn.expand (k + 1) i s) (N.after st (n + 1 - (k + 1))) =
          ((N.fst i).trsOf s : Multiset (Tr W)).bind fun tr => catAll (match N.callee tr with
            | none => catAll {tr.asPath} (N.rtn.expand k i tr.nextstate)
            | some j => match (N.fst j).start with
              | none => 0
              | some q => ∑ a ∈ Finset.range k, catAll {N.rtn.call tr} (catAll (N.rtn.expand a j q) (catAll {N.rtn.ret} (N.rtn.expand (k - 1 - a) i tr.nextstate))))
            (N.after st (n - k)) := by
        intro k _
        rw [expand_succ, catAll_bind]
        simp
      rw [Finset.sum_congr rfl h1, ← bind_finset]
      have h2 : ∀ l : List (Tr W), ((l.flatMap (N.stepTr ⟨st, i, s⟩) : List (MTr RCfg W)) : Multiset (MTr RCfg W)).bind
            (fun a => (N.machine.pathsFrom n a.next).map fun p => a.asPath.cat p) =
          (l : Multiset (Tr W)).bind fun tr => (N.stepTr ⟨st, i, s⟩ tr : Multiset (MTr RCfg W)).bind
            (fun a => (N.machine.pathsFrom n a.next).map fun p => a.asPath.cat p) := by
        intro l
        induction l with
        | nil => simp
        | cons a l ih => rw [List.flatMap_cons, ← Multiset.coe_add, Multiset.add_bind, ih, ← Multiset.cons_coe, Multiset.cons_bind]
      refine (h2 _).trans (Multiset.bind_congr fun tr _ => ?_)
      unfold stepTr
      cases hc : N.callee tr with
      | none =>
        simp only [Multiset.coe_singleton, Multiset.singleton_bind, ih]
        rw [← catAll_singleton, catAll_finset_right]
        refine Finset.sum_congr rfl fun k _ => ?_
        rw [catAll_assoc]
        rfl
      | some j =>
        cases hq : (N.fst j).start with
        | none => simp [hq]
        | some q =>
          simp only [hq, Multiset.coe_singleton, Multiset.singleton_bind, ih]
          rw [← catAll_singleton, catAll_finset_right, Finset.sum_range_succ, Nat.sub_self, after, catAll_zero_right, catAll_zero_right, add_zero,
            Finset.sum_range_succ']
          simp only [Finset.range_zero, Finset.sum_empty, catAll_zero_left, add_zero]
          have e1 : ∀ k ∈ Finset.range n, catAll {MTr.asPath (⟨N.callIn tr, N.callOut tr, tr.weight, ⟨⟨i, tr.nextstate⟩ :: st, j, q⟩⟩ : MTr RCfg W)}
                (catAll (N.rtn.expand k j q) (N.after (⟨i, tr.nextstate⟩ :: st) (n - k))) =
              ∑ l ∈ Finset.range (n - k), (fun a b c => catAll {N.rtn.call tr} (catAll (N.rtn.expand a j q) (catAll {N.rtn.ret}
                (catAll (N.rtn.expand b i tr.nextstate) (N.after st c))))) k l (n - 1 - k - l) := by
            intro k hk
            rw [Finset.mem_range] at hk
            obtain ⟨m, hm⟩ : ∃ m, n - k = m + 1 := ⟨n - k - 1, by omega⟩
            rw [hm, after, catAll_finset_right, catAll_finset_right]
            refine Finset.sum_congr rfl fun l _ => ?_
            have : n - 1 - k - l = m - l := by omega
            rw [this]
            rfl
          rw [Finset.sum_congr rfl e1]
          refine (sum_three (W := W) n (fun a b c => catAll {N.rtn.call tr} (catAll (N.rtn.expand a j q) (catAll {N.rtn.ret}
            (catAll (N.rtn.expand b i tr.nextstate) (N.after st c)))))).trans ?_
          refine Finset.sum_congr rfl fun k hk => ?_
          rw [catAll_finset_left]
          refine Finset.sum_congr rfl fun a _ => ?_
          have h3 : k + 1 - 1 - a = k - a := by omega
          have h4 : n - (k + 1) = n - 1 - k := by omega
          simp only [h3, h4, catAll_assoc]
    · -- the return
      cases st with
      | nil => simp [retTr, after]
      | cons fr st =>
        simp only [retTr, expand_zero]
        cases hf : (N.fst i).finOf s with
        | none => simp
        | some w =>
          have hw : w ≠ 0 := fun h => hz i s (by rw [hf, h])
          simp only [hw, if_false, Multiset.coe_singleton, Multiset.singleton_bind, ih, Nat.sub_zero, after]
          rw [← catAll_singleton, catAll_finset_right, catAll_finset_right]
          refine Finset.sum_congr rfl fun k _ => ?_
          rw [← catAll_assoc, ← catAll_assoc, ← catAll_assoc]
          congr 2
          simp [catAll, PathT.cat, MTr.asPath, rtn]

/-- The accepting paths of the machine are the paths of the network. -/
theorem accPaths_eq (hz : ∀ i s, (N.fst i).finOf s ≠ some 0) (n : Nat) : N.machine.accPaths n = N.rtn.paths N.root n := by
  unfold Machine.accPaths Rtn.paths
  have h1 : N.machine.start = (N.fst N.root).start.map fun s => ⟨[], N.root, s⟩ := rfl
  have h2 : N.rtn.fst = N.fst := rfl
  rw [h1, h2]
  cases (N.fst N.root).start with
  | none => rfl
  | some s =>
    simp only [Option.map_some]
    refine (N.pathsFrom_eq hz n ⟨[], N.root, s⟩).trans ?_
    rw [Finset.sum_range_succ, Nat.sub_self, after, Fst.catAll_one_right, Finset.sum_eq_zero, zero_add]
    intro k hk
    rw [Finset.mem_range] at hk
    obtain ⟨m, hm⟩ : ∃ m, n - k = m + 1 := ⟨n - k - 1, by omega⟩
    rw [hm, after, catAll_zero_right]

/-! ### Final weights zero -/

theorem nonzero_catAll (A B : Multiset (PathT W)) : nonzero (catAll A B) = nonzero (catAll (nonzero A) (nonzero B)) := by
  induction A using Multiset.induction_on with
  | empty => simp [nonzero]
  | cons p A ih =>
    have h1 : catAll (p ::ₘ A) B = B.map (fun q => p.cat q) + catAll A B := by simp [catAll]
    rw [h1, nonzero_add, ih, nonzero_cat]
    by_cases hp : p.2.2 = 0
    · have h2 : nonzero (p ::ₘ A) = nonzero A := by
        unfold nonzero
        rw [Multiset.filter_cons_of_neg (p := fun p : PathT W => p.2.2 ≠ 0) (a := p) _ (by simp [hp])]
      have h3 : nonzero ((nonzero B).map fun q => p.cat q) = 0 := by
        unfold nonzero
        rw [Multiset.filter_eq_nil]
        intro q hq
        obtain ⟨r, _, rfl⟩ := Multiset.mem_map.1 hq
        simp [PathT.cat, hp]
      rw [h2, h3, zero_add]
    · have h2 : nonzero (p ::ₘ A) = p ::ₘ nonzero A := by
        unfold nonzero
        rw [Multiset.filter_cons_of_pos (p := fun p : PathT W => p.2.2 ≠ 0) (a := p) _ (by simp [hp])]
      have h3 : catAll (p ::ₘ nonzero A) (nonzero B) = (nonzero B).map (fun q => p.cat q) + catAll (nonzero A) (nonzero B) := by simp [catAll]
      rw [h2, h3, nonzero_add]

theorem nonzero_catAll_congr {A A' B B' : Multiset (PathT W)} (ha : nonzero A = nonzero A') (hb : nonzero B = nonzero B') :
    nonzero (catAll A B) = nonzero (catAll A' B') := by rw [nonzero_catAll, ha, hb, ← nonzero_catAll]

theorem nonzero_finset {ι : Type*} (s : Finset ι) (A : ι → Multiset (PathT W)) : nonzero (∑ k ∈ s, A k) = ∑ k ∈ s, nonzero (A k) := by
  classical
  induction s using Finset.induction_on with
  | empty => simp [nonzero]
  | insert a s h ih => rw [Finset.sum_insert h, Finset.sum_insert h, nonzero_add, ih]

/-- Without the final weights that are zero. -/
def dropZero (f : Fst W) : Fst W := { f with states := f.states.map fun st => { st with fin := st.fin.filter fun w => decide (w ≠ 0) } }

theorem dropZero_trs (f : Fst W) (s) : (dropZero f).trsOf s = f.trsOf s := by
  unfold dropZero Fst.trsOf
  rw [List.getElem?_map]
  cases f.states[s]? <;> rfl

theorem dropZero_fin (f : Fst W) (s) : (dropZero f).finOf s = (f.finOf s).filter fun w => decide (w ≠ 0) := by
  unfold dropZero Fst.finOf
  rw [List.getElem?_map]
  cases f.states[s]? <;> rfl

def clean : RNet W := { N with fst := fun i => dropZero (N.fst i) }

theorem nonzero_fin (o : Option W) : nonzero (match o with
      | none => (0 : Multiset (PathT W))
      | some w => {([], [], w)}) = nonzero (match o.filter fun w => decide (w ≠ 0) with
      | none => (0 : Multiset (PathT W))
      | some w => {([], [], w)}) := by
  cases o with
  | none => rfl
  | some w =>
    by_cases h : w = 0
    · subst h; simp [Option.filter, nonzero_zero_weight]; rfl
    · simp [Option.filter, h]

theorem expand_clean : ∀ (n i s), nonzero (N.rtn.expand n i s) = nonzero (N.clean.rtn.expand n i s) := by
  intro n
  induction n using Nat.strong_induction_on with
  | _ n ih =>
    intro i s
    cases n with
    | zero =>
      rw [expand_zero, expand_zero]
      show _ = nonzero (match (dropZero (N.fst i)).finOf s with | none => 0 | some w => {([], [], w)})
      rw [dropZero_fin]; exact nonzero_fin _
    | succ n =>
      rw [expand_succ, expand_succ, nonzero_bind, nonzero_bind]
      have h1 : (N.clean.fst i).trsOf s = (N.fst i).trsOf s := dropZero_trs _ _
      have h2 : N.clean.callee = N.callee := rfl
      have h3 : ∀ j, (N.clean.fst j).start = (N.fst j).start := fun _ => rfl
      rw [h1, h2]
      refine Multiset.bind_congr fun tr _ => ?_
      cases N.callee tr with
      | none => exact nonzero_catAll_congr rfl (ih n (by omega) _ _)
      | some j =>
        simp only [h3]
        cases (N.fst j).start with
        | none => rfl
        | some q =>
          simp only
          rw [nonzero_finset, nonzero_finset]
          refine Finset.sum_congr rfl fun k hk => ?_
          rw [Finset.mem_range] at hk
          exact nonzero_catAll_congr rfl (nonzero_catAll_congr (ih k (by omega) _ _) (nonzero_catAll_congr rfl (ih _ (by omega) _ _)))

theorem machine_clean : ∀ (n : Nat) (t : RCfg), nonzero (N.machine.pathsFrom n t) = nonzero (N.clean.machine.pathsFrom n t) := by
  intro n
  induction n with
  | zero =>
    intro t
    simp only [Machine.pathsFrom, machine]
    by_cases h : t.stack = []
    · simp only [h, if_true]
      show _ = nonzero (match (dropZero (N.fst t.fst)).finOf t.state with | none => 0 | some w => {([], [], w)})
      rw [dropZero_fin]; exact nonzero_fin _
    · simp [h]
  | succ n ih =>
    intro t
    rw [Machine.pathsFrom, Machine.pathsFrom, nonzero_bind, nonzero_bind]
    have : N.clean.machine.trs t = N.machine.trs t := by
      rw [machine_trs, machine_trs]
      have h1 : N.clean.retTr t = N.retTr t := by
        unfold retTr
        have : (N.clean.fst t.fst).finOf t.state = _ := dropZero_fin (N.fst t.fst) t.state
        rw [this]
        cases t.stack with
        | nil => rfl
        | cons fr st =>
          cases (N.fst t.fst).finOf t.state with
          | none => rfl
          | some w => by_cases h : w = 0 <;> simp [Option.filter, h, clean]
      have h2 : (N.clean.fst t.fst).trsOf t.state = (N.fst t.fst).trsOf t.state := dropZero_trs _ _
      have h3 : N.clean.stepTr t = N.stepTr t := rfl
      rw [h1, h2, h3]
    rw [this]
    refine Multiset.bind_congr fun a _ => ?_
    rw [nonzero_cat, ih, ← nonzero_cat]

/-- The accepting paths of the machine whose weight is not zero are those of the network. -/
theorem accPaths_nonzero (n : Nat) : nonzero (N.machine.accPaths n) = nonzero (N.rtn.paths N.root n) := by
  have h := N.clean.accPaths_eq (by
    intro i s h
    have : (N.clean.fst i).finOf s = _ := dropZero_fin (N.fst i) s
    rw [this, Option.filter_eq_some_iff] at h
    simp at h) n
  have h1 : nonzero (N.machine.accPaths n) = nonzero (N.clean.machine.accPaths n) := by
    unfold Machine.accPaths
    have : N.clean.machine.start = N.machine.start := rfl
    rw [this]
    cases N.machine.start with
    | none => rfl
    | some t => exact N.machine_clean n t
  rw [h1, h]
  unfold Rtn.paths
  have : (N.clean.rtn.fst N.clean.root).start = (N.rtn.fst N.root).start := rfl
  rw [this]
  cases (N.rtn.fst N.root).start with
  | none => rfl
  | some s => exact (N.expand_clean n _ s).symm

end paths
end RNet
end Verif
