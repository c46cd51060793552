import Verif.Lemmas.Agree
import Verif.Props.C39
import Verif.Props.C40
import Verif.Props.C41
import Verif.Props.C42

/-!
# C75: the delayed operations agree with the static functions

A delayed composition, determinization, replacement or weight factoring may be asked anything in any order. For each history there is one translation of its
state numbers to those of the FST that the static function returns, such that all answers are the answers of that FST. Expanding the delayed FST at any
moment ends, and gives a copy of that FST. All this holds for every kind of cache.
-/

namespace Verif
universe u v
variable {W : Type u} {C : Type v}
open Lz

/-- What a delayed FST, with the operation `O` beginning in the interior state `o`, promises with respect to the static FST `F`. -/
def DelayedOf {σ : Type*} [Zero W] [One W] [DecidableEq W] (K : CacheOps W C) (O : LazyOp σ W) (o : σ) (F : Fst W) : Prop :=
  ∀ h : List Query, Fair K O (fun _ => False) ⟨K.empty, o⟩ h →
    (∃ ρ, Agree F ρ ((⟨K.empty, o⟩ : Lz C σ).run K O h).1) ∧
    ∃ G z' ν, EndsWith (fun n => Lz.compute K O n ((⟨K.empty, o⟩ : Lz C σ).run K O h).2) (.ok G, z') ∧ G.WF ∧ G.AllCounters ∧ F.Copies G ν

section compose
variable [CommMonoidWithZero W] [DecidableEq W]

theorem compose_delayed {FS : Type} [DecidableEq FS] {A B : Fst W} {F : ComposeFilter FS W} {mt : MatchT} {ok : FS → Bool → Bool → Bool} {Valid : FS → Prop}
    (hc : Composable A B mt) (hF : FilterLaw A B F ok Valid) (hv : {f | Valid f}.Finite) (hm : composeMatchType A B = .ok mt) :
    ∃ D, EndsWith (composeWith F false A B) (.ok D) ∧ IsComposition A B D ∧ ∃ op, composeNew A B F = .ok op ∧
      ∀ (C : Type v) (K : CacheOps W C) (cinv : C → Prop), CacheLaw K cinv → DelayedOf K (op.withTable BiMap.findId BiMap.findTuple) BiMap.new D := by
  have R := compose_realizes hc hF
  have e1 : (composeOp A B F mt).start = .ok (composeMachine A B F mt).start := by rw [R.start, R.start_eq]
  have e2 := fun t (ht : (composeMachine A B F mt).Reach t) => (R.trs_ok (R.reach hF ht)).1
  have e3 := fun t (ht : (composeMachine A B F mt).Reach t) => (R.fin_ok (R.reach hF ht)).1
  obtain ⟨D, z, ⟨N, hN⟩, _, _, _, nm, hP, _⟩ := C38_present vecCache_law BiMap.law BiMap.findTuple_eq (composeOp A B F mt) (composeMachine A B F mt) e1 e2 e3
    BiMap.ok_new (fun s => by simp [BiMap.tup, BiMap.new]) (R.finite hF hv)
  have hD : EndsWith (composeWith F false A B) (.ok D) := ⟨N, fun n hn => by
    have := hN n hn
    simp only at this
    simp only [composeWith, composeNew, hm, this, Bool.false_eq_true, if_false]⟩
  obtain ⟨D', hD', _, _, hi⟩ := compose_static hc hF hv hm false
  have e : D' = D := by
    obtain ⟨N', hN'⟩ := hD'
    obtain ⟨N, hN⟩ := hD
    have a := hN (max N N') (le_max_left _ _)
    have b := hN' (max N N') (le_max_right _ _)
    rw [a] at b
    simpa using b.symm
  subst e
  refine ⟨D', hD, hi, composeOp A B F mt, by simp only [composeNew, hm], fun C K cinv L h hf => ?_⟩
  obtain ⟨inv, OL, h0⟩ := C36_table_op (composeOp A B F mt) (composeMachine A B F mt) e1 e2 e3
  exact agree_core L OL h0 hP h hf

/-- C75 for `ComposeFst`, with each of the filters that take care of ε: the static FST is the result of `compose` before useless states are removed. -/
theorem C75_compose {A B : Fst W} (h : Operands A B) (F : ComposeFilter Nat W) (hF : F = seqFilter ∨ F = altFilter ∨ F = matchFilter) :
    ∃ D, EndsWith (composeWith F false A B) (.ok D) ∧ IsComposition A B D ∧ ∃ op, composeNew A B F = .ok op ∧
      ∀ (C : Type v) (K : CacheOps W C) (cinv : C → Prop), CacheLaw K cinv → DelayedOf K (op.withTable BiMap.findId BiMap.findTuple) BiMap.new D := by
  obtain ⟨mt, h1, hc⟩ := h.composable
  rcases hF with rfl | rfl | rfl
  · exact compose_delayed hc (seqFilter_law hc.toJoinable h.counters1) (Set.finite_Iic 1) h1
  · exact compose_delayed hc (altFilter_law hc.toJoinable h.counters2) (Set.finite_Iic 1) h1
  · exact compose_delayed hc (matchFilter_law hc.toJoinable h.counters1 h.counters2) (Set.finite_Iic 2) h1

end compose

/-- C75 for the delayed determinization of acceptors, whatever the orders of the hash maps: the static FST is the result of `determinize`. -/
theorem C75_determinize [Zero W] [One W] [Mul W] [DecidableEq W] {S : Type*} [Semiring S] {f : Fst W} {o : DetOps W} {val : W → S} {good : W → Prop}
    {ord : DTup W → Label → List (DElt W) → List (DElt W)} (L : DetLaw o val good) (T : DetTotal o good) (hl : o.leftSemiring = true) (ho : Orders ord)
    (hi : DetInput f good) (hfin : {t | (detMachine f o ord).Reach t}.Finite) (distinct : Bool) :
    ∃ D, EndsWith (determinize f o ord distinct) (.ok D) ∧
      ∀ (C : Type v) (K : CacheOps W C) (cinv : C → Prop), CacheLaw K cinv → DelayedOf K ((detOp f o ord).withTable BiMap.findId BiMap.findTuple) BiMap.new D := by
  have hok := fun t => det_no_error (t := t) L T ho hi
  obtain ⟨D, h1, _, _, _, nm, hP, _⟩ := det_static hl hi.flag hok hfin distinct
  refine ⟨D, h1, fun C K cinv LK h hf => ?_⟩
  obtain ⟨inv, OL, h0⟩ := C36_table_op (detOp f o ord) (detMachine f o ord) rfl
    (fun t ht => by
      obtain ⟨as, h⟩ := (hok t ht).1
      show detTrs f o ord t = _
      simp only [TupleOp.machine, detOp, h])
    (fun t ht => by
      obtain ⟨w, h⟩ := (hok t ht).2
      show detFin f o t = _
      simp only [TupleOp.machine, detOp, h])
  exact agree_core LK OL h0 hP h hf

/-- C75 for `FactorWeightFst`: the static FST is the result of `factor_weight`. -/
theorem C75_factor_weight [Zero W] [One W] [Mul W] [DecidableEq W] {f : Fst W} {factors : W → List (W × W)} {quantize : W → R W} {o : FwOpts}
    (hq : Exact factors quantize) (hf : f.WF) (hm : o.factorFinal = true ∨ o.factorTr = true) (hfin : {e | (fwMachine f factors quantize o).Reach e}.Finite) :
    ∃ D, EndsWith (factorWeight f factors quantize o) (.ok D) ∧ ∃ op, fwNew f factors quantize o = .ok op ∧
      ∀ (C : Type v) (K : CacheOps W C) (cinv : C → Prop), CacheLaw K cinv → 
        DelayedOf K (op.withTable FwTable.findState FwTable.findTuple) (FwTable.new o.factorTr) D := by
  have e1 := fun t (ht : (fwMachine f factors quantize o).Reach t) => (fw_no_error hq hf t ht).1
  have e2 := fun t (ht : (fwMachine f factors quantize o).Reach t) => (fw_no_error hq hf t ht).2
  have hnew : ∀ s, FwTable.tup (FwTable.new o.factorTr : FwTable W) s = none := fun s => by simp [FwTable.tup, FwTable.byLeft, FwTable.new]
  obtain ⟨D, z, ⟨N, hN⟩, _, _, _, nm, hP, _⟩ := C38_present mapCache_law FwTable.law FwTable.findTuple_eq (fwOp f factors quantize o)
    (fwMachine f factors quantize o) rfl e1 e2 (FwTable.ok_new o.factorTr) hnew hfin
  have hop : fwNew f factors quantize o = .ok (fwOp f factors quantize o) := by
    unfold fwNew
    rw [if_neg (by rcases hm with h | h <;> simp [h])]
  refine ⟨D, ⟨N, fun n hn => ?_⟩, fwOp f factors quantize o, hop, fun C K cinv L h hh => ?_⟩
  · have := hN n hn
    simp only at this
    unfold factorWeight
    simp only [hop, this, Option.map_some]
  · exact agree_core L (TupleOp.law FwTable.law FwTable.findTuple_eq (fwOp f factors quantize o) (fwMachine f factors quantize o) rfl e1 e2)
      ⟨FwTable.ok_new _, fun s t h => by rw [hnew] at h; cases h⟩ hP h hh

/-- C75 for `ReplaceFst` without recursion: the static FST is the result of `replace`. -/
theorem C75_replace [MonoidWithZero W] [DecidableEq W] {list : List (Label × Fst W)} {root : Label} {r : Nat} {eps : Bool}
    (hwf : ∀ p ∈ list, p.2.WF) (hr : namedBy list root = some r) (hn : ¬ (rtnOf list eps).Recursive r) :
    ∃ D, EndsWith (replace list root eps) (.ok D) ∧ ∃ g, RGrammar.new list (ROpts.new root eps) = .ok g ∧
      ∀ (C : Type v) (K : CacheOps W C) (cinv : C → Prop), CacheLaw K cinv → DelayedOf K g.op RTables.new D := by
  obtain ⟨g, h1, h2, h3, h4, _⟩ := RGrammar.new_net eps hr hwf
  obtain ⟨D, e1, _, _, _, nm, hP⟩ := replace_present h1 h2 (.inl ((RGrammar.reach_finite h2).2 (by rw [h4, h3]; exact hn)))
  exact ⟨D, e1, g, h1, fun C K cinv L h hf => agree_core L (RGrammar.op_law h2) RGrammar.rinv_new hP h hf⟩

/-! ### Concrete cases -/

/-- The transitions of the start are asked for, the cache is cleared, and everything is asked for again. -/
def exAsk : List Query := [.start, .trs 0, .clear, .trs 0, .numTrs 0, .fin 0, .start]

/-- The history is one a client may have. -/
theorem exAsk_fair : Fair (W := Nat) mapCache ((composeOp exFirst exSecond seqFilter .both).withTable BiMap.findId BiMap.findTuple) (fun _ => False)
    ⟨mapCache.empty, BiMap.new⟩ exAsk := by
  refine ⟨trivial, ?_, trivial, ?_, ?_, ?_, trivial, trivial⟩
  all_goals simp only [Query.about]
  all_goals tauto

/-- So the delayed composition of the example agrees with the static one along it. -/
example : ∃ D ρ, EndsWith (composeWith seqFilter false exFirst exSecond) (.ok D) ∧
    Agree D ρ ((⟨mapCache.empty, BiMap.new⟩ : Lz _ _).run mapCache ((composeOp exFirst exSecond seqFilter .both).withTable BiMap.findId BiMap.findTuple)
      exAsk).1 := by
  obtain ⟨D, h1, _, op, h2, h3⟩ := C75_compose.{0, 0} exOperands seqFilter (.inl rfl)
  have e : composeNew exFirst exSecond seqFilter = .ok (composeOp exFirst exSecond seqFilter .both) := rfl
  rw [e] at h2
  injection h2 with h2
  subst h2
  obtain ⟨⟨ρ, hρ⟩, _⟩ := h3 _ mapCache _ mapCache_law exAsk exAsk_fair
  exact ⟨D, ρ, h1, hρ⟩

/-- The others apply to the examples of their static functions. -/
example : ∃ D, EndsWith (replace exCall 10 true) (.ok D) ∧ ∃ g, RGrammar.new exCall (ROpts.new 10 true) = .ok g ∧
    ∀ (C : Type) (K : CacheOps Nat C) (cinv : C → Prop), CacheLaw K cinv → DelayedOf K g.op RTables.new D :=
  C75_replace exCall_wf rfl (exCall_ranked true)

example : ∃ D, EndsWith (determinize exDet (tropDet (quantize (1 / 1024))) (fun _ _ es => es) true) (.ok D) ∧
    ∀ (C : Type) (K : CacheOps (TW ℚ) C) (cinv : C → Prop), CacheLaw K cinv →
      DelayedOf K ((detOp exDet (tropDet (quantize (1 / 1024))) (fun _ _ es => es)).withTable BiMap.findId BiMap.findTuple) BiMap.new D :=
  C75_determinize (tropDet_grid (by norm_num)).1 (tropDet_grid (by norm_num)).2 rfl (fun _ _ _ => List.Perm.refl _) exDet_input
    (det_finite_acyclic (tropDet_grid (by norm_num)).1 (fun _ _ _ => List.Perm.refl _) exDet_input.wf exDet_input.weights exDet_acyclic) true

example : ∃ D, EndsWith (factorWeight exStrings stringFactor strQuantize exFwOpts) (.ok D) ∧ ∃ op, fwNew exStrings stringFactor strQuantize exFwOpts = .ok op ∧
    ∀ (C : Type) (K : CacheOps StrW C) (cinv : C → Prop), CacheLaw K cinv →
      DelayedOf K (op.withTable FwTable.findState FwTable.findTuple) (FwTable.new exFwOpts.factorTr) D := by
  have ht : ∀ s, ∀ t ∈ exStrings.trsOf s, s < t.nextstate ∧ t.nextstate < 2 := by
    intro s t ht
    rcases s with _ | _ | s <;> simp [exStrings, Fst.trsOf] at ht
    subst ht; decide
  have hwf : exStrings.WF := ⟨by simp [exStrings, Fst.numStates], fun s t h => (ht s t h).2⟩
  exact C75_factor_weight string_laws.1 hwf (.inl rfl) (C41_finite string_laws.1 string_laws.2.1 hwf (.inl (Fst.acyclic_of_topSorted fun s t h => (ht s t h).1)))

end Verif
