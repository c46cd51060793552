import Verif.Lemmas.LabelPathsIn

/-!
# The composition that pushes labels on the input side, run to the end
-/

namespace Verif
universe u
variable {W : Type u} {FS FS' : Type}

section
variable [CommMonoidWithZero W] [Add W] [DecidableEq W]
variable {c : LaCfg} {A B : Fst W} {F : ComposeFilter FS W} {I : LaFilter FS' W} {ok : FS → Bool → Bool → Bool} {Valid : FS → Prop} {base : FS' → FS} {given : FS' → W}
  {P : CTup FS' → Prop} {Q : StateId → Label → Prop} {mt : MatchT}

/-- Finitely many tuples arise. -/
theorem labelTupIn_finite (hfin : {t | P t}.Finite) : {t | LabelTupIn c A B given P Q t}.Finite := by
  have hlab : {l : Label | ∃ q, q < A.numStates ∧ ∃ tr ∈ A.trsOf q, tr.olabel = l}.Finite := by
    have : {l : Label | ∃ q, q < A.numStates ∧ ∃ tr ∈ A.trsOf q, tr.olabel = l} ⊆
        ((List.range A.numStates).flatMap fun q => (A.trsOf q).map (·.olabel)).toFinset := by
      rintro l ⟨q, hq, tr, htr, rfl⟩
      simp only [List.coe_toFinset, Set.mem_setOf_eq, List.mem_flatMap, List.mem_range, List.mem_map]
      exact ⟨q, hq, tr, htr, rfl⟩
    exact (Finset.finite_toSet _).subset this
  have h1 : ((fun t : CTup FS' => (⟨(t.fs, NO_LABEL), t.s1, t.s2⟩ : CTup (FS' × Label))) '' {t | P t}).Finite := hfin.image _
  have h2 : ((fun x : CTup FS' × Label × Nat × Nat => (⟨(x.1.fs, x.2.1), x.2.2.1, x.2.2.2⟩ : CTup (FS' × Label))) ''
      ({t | P t} ×ˢ ({l : Label | ∃ q, q < A.numStates ∧ ∃ tr ∈ A.trsOf q, tr.olabel = l} ×ˢ (Set.Iio A.numStates ×ˢ Set.Iio B.numStates)))).Finite :=
    (hfin.prod (hlab.prod ((Set.finite_Iio _).prod (Set.finite_Iio _)))).image _
  refine (h1.union h2).subset ?_
  rintro ⟨⟨fs, l⟩, s1, s2⟩ (⟨e, hP⟩ | ⟨-, -, g1, g2, -, -, hq, u, hu, eu, -⟩)
  · dsimp only at e hP
    subst e
    exact .inl ⟨_, hP, rfl⟩
  · dsimp only at g1 g2 hq eu
    subst eu
    exact .inr ⟨(u, l, s1, s2), ⟨hu, hq, g1, g2⟩, rfl⟩

variable (hc : Composable A B mt) (hF : FilterLaw A B F ok Valid) (hG : Follows A B F I ok Valid base given P) (hL : PushesLabelsIn c A B F I ok base given P Q)

include hc hG hL

theorem PushesLabelsIn.machine_trs {t : CTup (FS' × Label)} (ht : LabelTupIn c A B given P Q t) : composeTrsP c A B I mt t = .ok ((composeOpP c A B I mt).machine.trs t) ∧
    ((composeOpP c A B I mt).machine.trs t : Multiset (MTr (CTup (FS' × Label)) W)) = (labelTagIn c A B I t).map (·.1) := by
  obtain ⟨l, e1, e2⟩ := hL.trs hc.toJoinable hG hc ht
  have : (composeOpP c A B I mt).machine.trs t = l := by simp only [TupleOp.machine, composeOpP, e1]
  rw [this]
  exact ⟨e1, e2⟩

theorem PushesLabelsIn.machine_fin {t : CTup (FS' × Label)} (ht : LabelTupIn c A B given P Q t) : composeFinP c A B I t = .ok ((composeOpP c A B I mt).machine.fin t) ∧
    (composeOpP c A B I mt).machine.fin t = labelFinOf c A B I t := by
  have h := (hL.fin hc.toJoinable hG ht).1
  have : (composeOpP c A B I mt).machine.fin t = labelFinOf c A B I t := by simp only [TupleOp.machine, composeOpP, h]
  rw [this]
  exact ⟨h, rfl⟩

theorem PushesLabelsIn.next {t : CTup (FS' × Label)} (ht : LabelTupIn c A B given P Q t) : ∀ a ∈ (composeOpP c A B I mt).machine.trs t, LabelTupIn c A B given P Q a.next := by
  intro a ha
  have := (hL.machine_trs hc hG ht).2 ▸ Multiset.mem_coe.2 ha
  obtain ⟨x, hx, rfl⟩ := Multiset.mem_map.1 this
  exact hL.tag_next hc.toJoinable hG ht x hx

omit hc in
theorem PushesLabelsIn.start_ok {t : CTup (FS' × Label)} (h : composeStartP A B I = some t) :
    P ⟨t.fs.1, t.s1, t.s2⟩ ∧ t.fs.2 = NO_LABEL ∧ t.fs.1 = I.start ∧ A.start = some t.s1 ∧ B.start = some t.s2 := by
  simp only [composeStartP] at h
  cases h1 : A.start with
  | none => simp [h1] at h
  | some i =>
    cases h2 : B.start with
    | none => simp [h1, h2] at h
    | some j =>
      simp only [h1, h2, Option.some.injEq] at h
      subst h
      exact ⟨hG.start.2.2 _ _ h1 h2, rfl, rfl, rfl, rfl⟩

theorem PushesLabelsIn.reach {t : CTup (FS' × Label)} (h : (composeOpP c A B I mt).machine.Reach t) : LabelTupIn c A B given P Q t := by
  induction h with
  | start h => have := hL.start_ok hG h; exact .inl ⟨this.2.1, this.1⟩
  | step _ ha ih => exact hL.next hc hG ih _ ha

include hF

/-- The whole of the composition, grouped. -/
theorem PushesLabelsIn.machine : ∃ part : Nat → Nat → Nat → Multiset (PathT W),
    (∀ N, (composeOpP c A B I mt).machine.accPaths N = ∑ n ∈ Finset.range (N + 1), ∑ m ∈ Finset.range (N + 1), part N n m) ∧
    (∀ N n m, part N n m ≠ 0 → n ≤ N ∧ m ≤ N ∧ N ≤ n + m) ∧
    ∀ n m, nonzero (∑ N ∈ Finset.range (n + m + 1), part N n m) = nonzero (joinPaths (A.accPaths n) (B.accPaths m)) := by
  have es : (composeOpP c A B I mt).machine.start = composeStartP A B I := rfl
  have hle : ∀ t, ∀ x ∈ labelTagIn c A B I t, x.2.1 ≤ 1 ∧ x.2.2 ≤ 1 := fun t x hx => (labelTagIn_spec hc.toJoinable t x hx).1
  have hpo : ∀ t, ∀ x ∈ labelTagIn c A B I t, 1 ≤ x.2.1 + x.2.2 := fun t x hx => (labelTagIn_spec hc.toJoinable t x hx).2
  cases hs : composeStartP A B I with
  | none =>
    refine ⟨fun _ _ _ => 0, fun N => by simp [Machine.accPaths, es, hs], fun _ _ _ h => absurd rfl h, fun n m => ?_⟩
    have : A.accPaths n = 0 ∨ B.accPaths m = 0 := by
      simp only [composeStartP] at hs
      cases h1 : A.start with
      | none => left; simp [Fst.accPaths, h1]
      | some i =>
        cases h2 : B.start with
        | none => right; simp [Fst.accPaths, h2]
        | some j => simp [h1, h2] at hs
    rcases this with h | h <;> simp [h]
  | some t =>
    obtain ⟨hP, hl, hb, h1, h2⟩ := hL.start_ok hG hs
    have ht : LabelTupIn c A B given P Q t := .inl ⟨hl, hP⟩
    refine ⟨fun N n m => Verif.graded (composeOpP c A B I mt).machine.fin (labelTagIn c A B I) N n m t, fun N => ?_, fun N n m h => ?_, fun n m => ?_⟩
    · have := graded_sum (composeOpP c A B I mt).machine (P := LabelTupIn c A B given P Q) (fun t ht => hL.next hc hG ht) (fun t ht => (hL.machine_trs hc hG ht).2) hle N t ht
      simp only [Machine.accPaths, es, hs]
      exact this
    · refine ⟨?_, ?_, ?_⟩ <;> by_contra hlt
      · exact h (graded_big hle N n m t (by omega))
      · exact h (graded_big hle N n m t (by omega))
      · exact h (graded_long hpo N n m t (by omega))
    · have hgr : ∀ N n m (t : CTup (FS' × Label)), LabelTupIn c A B given P Q t →
          Verif.graded (composeOpP c A B I mt).machine.fin (labelTagIn c A B I) N n m t = Verif.graded (labelFinOf c A B I) (labelTagIn c A B I) N n m t := by
        intro N
        induction N with
        | zero => intro n m t ht; simp only [Verif.graded, (hL.machine_fin (mt := mt) hc hG ht).2]
        | succ N ih =>
          intro n m t ht
          simp only [Verif.graded]
          refine Multiset.bind_congr fun x hx => ?_
          rw [ih _ _ _ (hL.tag_next hc.toJoinable hG ht x hx)]
      have key := (PushesLabelsIn.graded hc.toJoinable hF hG hL _ n m rfl t ht).1 hl
      have e : ∑ N ∈ Finset.range (n + m + 1), Verif.graded (composeOpP c A B I mt).machine.fin (labelTagIn c A B I) N n m t = gradedAll (labelFinOf c A B I) (labelTagIn c A B I) n m t :=
        Finset.sum_congr rfl fun N _ => hgr N n m t ht
      have eid : (scalePath (1 : W)) = id := by funext p; simp [scalePath]
      rw [hb, hG.start.2.1, eid, Multiset.map_id] at key
      have hlt := hG.lt _ hP
      rw [hb] at hlt
      dsimp only at hlt
      rw [e, key, compose_blocks hc.toJoinable hF _ n m rfl _ hlt]
      dsimp only
      rw [hG.start.1, blocks_all hF.start.2, Fst.accPaths_some h1, Fst.accPaths_some h2]

variable [DecidableEq FS']

/-- The composition ends, and its result holds the joined pairs of paths. -/
theorem PushesLabelsIn.static (hfin : {t | P t}.Finite) (hm : composeMatchType A B = .ok mt) :
    ∃ C, EndsWith (composePush c I A B) (.ok C) ∧ C.WF ∧ C.AllCounters ∧ IsComposition A B C := by
  have hr : {t | (composeOpP c A B I mt).machine.Reach t}.Finite := (labelTupIn_finite (c := c) (A := A) (B := B) (given := given) (Q := Q) hfin).subset fun t ht => hL.reach hc hG ht
  obtain ⟨inv, OL, h0⟩ := C36_table_op (composeOpP c A B I mt) (composeOpP c A B I mt).machine rfl (fun t ht => (hL.machine_trs hc hG (hL.reach hc hG ht)).1)
    (fun t ht => (hL.machine_fin hc hG (hL.reach hc hG ht)).1)
  obtain ⟨C, z, ⟨N, hN⟩, h2, h3⟩ := C38_paths vecCache_law OL h0 [] trivial hr
  obtain ⟨C', z', ⟨N', hN'⟩, h2', h3', _⟩ := C38_compute vecCache_law OL h0 [] trivial hr
  have e : (Except.ok C, z) = ((Except.ok C' : R (Fst W)), z') := by
    have a := hN (max N N') (le_max_left _ _)
    have b := hN' (max N N') (le_max_right _ _)
    rw [a] at b; injection b
  injection e with e _
  injection e with e
  subst e
  obtain ⟨part, p1, p2, p3⟩ := hL.machine hc hF hG
  refine ⟨C, ⟨N, fun n hn => ?_⟩, h2, h3', part, fun N => by rw [h3, p1], p2, p3⟩
  have := hN n hn
  simp only [Lz.run] at this
  simp only [composePush, hm, this]

end
end Verif
