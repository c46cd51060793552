import Verif.Lemmas.ComposeGen

/-! # `compose` ends, and its result has the paths of the machine -/

namespace Verif
universe u
variable {W : Type u} {FS : Type} [CommMonoidWithZero W] [DecidableEq W] {A B : Fst W} {F : ComposeFilter FS W} {mt : MatchT}
  {ok : FS → Bool → Bool → Bool} {Valid : FS → Prop}

/-- The tuples and transitions of a composition. -/
abbrev composeMachine (A B : Fst W) (F : ComposeFilter FS W) (mt : MatchT) : Machine (CTup FS) W := (composeOp A B F mt).machine

section
variable (hc : Composable A B mt) (hF : FilterLaw A B F ok Valid)
include hc hF

theorem compose_realizes : Realizes (composeOp A B F mt) A B F Valid where
  join := hc.toJoinable
  start := rfl
  trs t ht := by
    obtain ⟨flt, hf, _⟩ := hF.step t.s1 t.s2 t.fs ht.1 ht.2.1 ht.2.2
    exact composeTrs_eq A B F hc t ht.1 ht.2.1 hf
  fin t ht := by
    obtain ⟨flt, hf, _⟩ := hF.step t.s1 t.s2 t.fs ht.1 ht.2.1 ht.2.2
    exact composeFin_eq A B F t ht.1 ht.2.1 hf

variable [DecidableEq FS]

/-- The static result, before `connect`. -/
theorem compose_lazy (hv : {f | Valid f}.Finite) : ∃ C z, EndsWith (fun n => Lz.compute vecCache ((composeOp A B F mt).withTable BiMap.findId BiMap.findTuple) n ⟨vecCache.empty, BiMap.new⟩) (.ok C, z) ∧
    C.WF ∧ C.AllCounters ∧ ∀ n, C.accPaths n = (composeMachine A B F mt).accPaths n := (compose_realizes hc hF).lazy hF hv

theorem compose_static (hv : {f | Valid f}.Finite) (hm : composeMatchType A B = .ok mt) (connect : Bool) :
    ∃ C, EndsWith (composeWith F connect A B) (.ok C) ∧ C.WF ∧ C.AllCounters ∧ IsComposition A B C := by
  obtain ⟨C, z, ⟨N, hN⟩, h2, h3, h4⟩ := compose_lazy hc hF hv
  obtain ⟨part, p1, p2, p3⟩ := (compose_realizes hc hF).machine hF
  cases connect with
  | false =>
    refine ⟨C, ⟨N, fun n hn => ?_⟩, h2, h3, part, fun N => by rw [h4, p1], p2, p3⟩
    have := hN n hn
    simp only [composeWith, composeNew, hm, this, Bool.false_eq_true, if_false]
  | true =>
    obtain ⟨g, ds, hg, _⟩ := C18_connect C h2
    refine ⟨g, ⟨N, fun n hn => ?_⟩, (C18_wf C g hg).1, (C18_wf C g hg).2 h3, part, fun N => by rw [C18_paths C g h2 hg, h4, p1], p2, p3⟩
    have := hN n hn
    simp only [composeWith, composeNew, hm, this, if_true, hg]

end
end Verif
