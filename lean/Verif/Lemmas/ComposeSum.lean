import Verif.Lemmas.ComposeLaw

/-! # The paths of a composition are the joined pairs of paths -/

namespace Verif
universe u
variable {W : Type u} {FS : Type} [CommMonoidWithZero W] [DecidableEq W] {A B : Fst W} {F : ComposeFilter FS W}
  {ok : FS → Bool → Bool → Bool} {Valid : FS → Prop}

/-- The final weight of a tuple. -/
def composeFinOf (A B : Fst W) (t : CTup FS) : Option W :=
  match A.finOf t.s1, B.finOf t.s2 with
  | some w1, some w2 => if w1 * w2 = 0 then none else some (w1 * w2)
  | _, _ => none

/-- A tuple of states of the operands and a filter state. -/
def CTup.Ok (A B : Fst W) (Valid : FS → Prop) (t : CTup FS) : Prop := t.s1 < A.numStates ∧ t.s2 < B.numStates ∧ Valid t.fs

theorem nz_zero : nonzero (0 : Multiset (PathT W)) = 0 := rfl

theorem nz_sel_zero {A : Multiset (PathT W)} {c : Bool} (h : c = true → nonzero A = 0) : nonzero (sel c A) = 0 := by
  cases c <;> simp [sel, nz_zero]; exact h rfl

theorem next_lt' (h : A.WF) {s} {a : Tr W} {e : Bool} {f : Tr W → Label} (ha : a ∈ clsTrs f A e s) : a.nextstate < A.numStates :=
  h.next_lt _ _ (Multiset.mem_coe.1 (Multiset.mem_filter.1 ha).1)

section
variable (hc : Joinable A B) {s1 s2 : StateId} {fs : FS} {flt : Tr W → Tr W → Option FS} {am bm ep : Option FS} {f0 : FS} {SA SB : Bool → Bool}
  (mv : FilterMoves A B ok Valid s1 s2 fs flt am bm ep f0 SA SB) (h1 : s1 < A.numStates) (h2 : s2 < B.numStates)
  (G : Nat → Nat → CTup FS → Multiset (PathT W))
include hc mv h1 h2

/-- The second FST moves alone. -/
theorem partB (n m : Nat) (ih : ∀ n' m' : Nat, n' + m' < n + m → ∀ t : CTup FS, t.Ok A B Valid → nonzero (G n' m' t) = nonzero (blocks A B (ok t.fs) n' m' t.s1 t.s2)) :
    nonzero ((clsTrs Tr.ilabel B true s2).bind fun b => bm.elim 0 fun f => if 1 ≤ m then (G n (m - 1) ⟨f, s1, b.nextstate⟩).map fun p => PathT.cat ([], strip b.olabel, b.weight) p else 0) =
    nonzero (sel (SA true) (block A B true true n m s1 s2) + sel (SA false) (block A B false true n m s1 s2)) := by
  cases m with
  | zero =>
    have e : ∀ e1, block A B e1 true n 0 s1 s2 = 0 := fun e1 => by simp [block, pathsC]
    rw [e, e, bind_eq_zero_of]
    · cases SA true <;> cases SA false <;> rfl
    · intro b _; cases bm <;> simp
  | succ m =>
    cases hb : bm with
    | none =>
      simp only [Option.elim_none]
      rw [bind_eq_zero_of _ _ (fun _ _ => rfl), nonzero_add, nz_sel_zero fun h => show nonzero (block A B _ _ _ _ _ _) = 0 from join_vanish_left (mv.noB hb true h n) _,
        nz_sel_zero fun h => show nonzero (block A B _ _ _ _ _ _) = 0 from join_vanish_left (mv.noB hb false h n) _]
      rfl
    | some f =>
      obtain ⟨hv, ha⟩ := mv.afterB f hb
      have e : ∀ e1, block A B e1 true n (m + 1) s1 s2 = (clsTrs Tr.ilabel B true s2).bind fun b =>
          (joinPaths (pathsC Tr.olabel A e1 n s1) (B.pathsFrom m b.nextstate)).map fun p => PathT.cat ([], strip b.olabel, b.weight) p :=
        fun e1 => join_eps_right m s2 _
      have e' : sel (SA true) (block A B true true n (m + 1) s1 s2) + sel (SA false) (block A B false true n (m + 1) s1 s2) =
          (clsTrs Tr.ilabel B true s2).bind fun b => (sel (SA true) (joinPaths (pathsC Tr.olabel A true n s1) (B.pathsFrom m b.nextstate)) +
            sel (SA false) (joinPaths (pathsC Tr.olabel A false n s1) (B.pathsFrom m b.nextstate))).map fun p => PathT.cat ([], strip b.olabel, b.weight) p := by
        rw [e, e]
        cases SA true <;> cases SA false <;> simp [sel, Multiset.bind_add]
      rw [e']
      refine nz_bindM _ fun b hb => ?_
      simp only [Nat.le_add_left, if_true, Nat.add_sub_cancel]
      refine nz_map ?_ _
      rw [ih n m (by omega) ⟨f, s1, b.nextstate⟩ ⟨h1, next_lt' hc.wf2 hb, hv⟩]
      exact blocks_afterB ha n m _

/-- The first FST moves alone. -/
theorem partA (n m : Nat) (ih : ∀ n' m' : Nat, n' + m' < n + m → ∀ t : CTup FS, t.Ok A B Valid → nonzero (G n' m' t) = nonzero (blocks A B (ok t.fs) n' m' t.s1 t.s2)) :
    nonzero ((clsTrs Tr.olabel A true s1).bind fun a => am.elim 0 fun f => if 1 ≤ n then (G (n - 1) m ⟨f, a.nextstate, s2⟩).map fun p => PathT.cat (strip a.ilabel, [], a.weight) p else 0) =
    nonzero (sel (SB true) (block A B true true n m s1 s2) + sel (SB false) (block A B true false n m s1 s2)) := by
  cases n with
  | zero =>
    have e : ∀ e2, block A B true e2 0 m s1 s2 = 0 := fun e2 => by simp [block, pathsC]
    rw [e, e, bind_eq_zero_of]
    · cases SB true <;> cases SB false <;> rfl
    · intro b _; cases am <;> simp
  | succ n =>
    cases hb : am with
    | none =>
      simp only [Option.elim_none]
      rw [bind_eq_zero_of _ _ (fun _ _ => rfl), nonzero_add, nz_sel_zero fun h => show nonzero (block A B _ _ _ _ _ _) = 0 from join_vanish_right (mv.noA hb true h m) _,
        nz_sel_zero fun h => show nonzero (block A B _ _ _ _ _ _) = 0 from join_vanish_right (mv.noA hb false h m) _]
      rfl
    | some f =>
      obtain ⟨hv, ha⟩ := mv.afterA f hb
      have e : ∀ e2, block A B true e2 (n + 1) m s1 s2 = (clsTrs Tr.olabel A true s1).bind fun a =>
          (joinPaths (A.pathsFrom n a.nextstate) (pathsC Tr.ilabel B e2 m s2)).map fun p => PathT.cat (strip a.ilabel, [], a.weight) p :=
        fun e2 => join_eps_left n s1 _
      have e' : sel (SB true) (block A B true true (n + 1) m s1 s2) + sel (SB false) (block A B true false (n + 1) m s1 s2) =
          (clsTrs Tr.olabel A true s1).bind fun a => (sel (SB true) (joinPaths (A.pathsFrom n a.nextstate) (pathsC Tr.ilabel B true m s2)) +
            sel (SB false) (joinPaths (A.pathsFrom n a.nextstate) (pathsC Tr.ilabel B false m s2))).map fun p => PathT.cat (strip a.ilabel, [], a.weight) p := by
        rw [e, e]
        cases SB true <;> cases SB false <;> simp [sel, Multiset.bind_add]
      rw [e']
      refine nz_bindM _ fun b hb => ?_
      simp only [Nat.le_add_left, if_true, Nat.add_sub_cancel]
      refine nz_map ?_ _
      rw [ih n m (by omega) ⟨f, b.nextstate, s2⟩ ⟨next_lt' hc.wf1 hb, h2, hv⟩]
      exact blocks_afterA ha n m _

/-- Both read ε. -/
theorem partE (n m : Nat) (ih : ∀ n' m' : Nat, n' + m' < n + m → ∀ t : CTup FS, t.Ok A B Valid → nonzero (G n' m' t) = nonzero (blocks A B (ok t.fs) n' m' t.s1 t.s2)) :
    nonzero ((clsTrs Tr.olabel A true s1).bind fun a => (clsTrs Tr.ilabel B true s2).bind fun b => ep.elim 0 fun f => if 1 ≤ n ∧ 1 ≤ m then (G (n - 1) (m - 1) ⟨f, a.nextstate, b.nextstate⟩).map fun p => PathT.cat (strip a.ilabel, strip b.olabel, a.weight * b.weight) p else 0) =
    nonzero (sel ep.isSome (block A B true true n m s1 s2)) := by
  cases he : ep with
  | none => simp [sel]
  | some f =>
    obtain ⟨hv, ha⟩ := mv.afterEps f he
    cases n with
    | zero => simp [sel, block, pathsC]
    | succ n =>
      cases m with
      | zero => simp [sel, block, pathsC]
      | succ m =>
        simp only [sel, Option.isSome_some, if_true, block, join_eps_both]
        refine nz_bindM _ fun a ha' => nz_bindM _ fun b hb => ?_
        simp only [Nat.le_add_left, and_self, if_true, Nat.add_sub_cancel]
        refine nz_map ?_ _
        rw [ih n m (by omega) ⟨f, a.nextstate, b.nextstate⟩ ⟨next_lt' hc.wf1 ha', next_lt' hc.wf2 hb, hv⟩, blocks_all ha]

/-- Both read a label, or both end. -/
theorem partM (n m : Nat) (ih : ∀ n' m' : Nat, n' + m' < n + m → ∀ t : CTup FS, t.Ok A B Valid → nonzero (G n' m' t) = nonzero (blocks A B (ok t.fs) n' m' t.s1 t.s2)) :
    nonzero ((if n = 0 ∧ m = 0 then finPath (composeFinOf A B ⟨fs, s1, s2⟩) else 0) +
      (clsTrs Tr.olabel A false s1).bind fun a => ((clsTrs Tr.ilabel B false s2).filter fun b => b.ilabel = a.olabel).bind fun b =>
      if 1 ≤ n ∧ 1 ≤ m then (G (n - 1) (m - 1) ⟨f0, a.nextstate, b.nextstate⟩).map fun p => PathT.cat (strip a.ilabel, strip b.olabel, a.weight * b.weight) p else 0) =
    nonzero (block A B false false n m s1 s2) := by
  obtain ⟨hv, ha⟩ := mv.afterMatch
  cases n with
  | zero =>
    cases m with
    | zero =>
      simp only [and_self, if_true, block, pathsC, Bool.false_eq_true, if_false, join_fin, composeFinOf]
      rw [bind_eq_zero_of _ _ fun _ _ => bind_eq_zero_of _ _ fun _ _ => if_neg (by omega), add_zero]
      cases A.finOf s1 with
      | none => rfl
      | some w1 =>
        cases B.finOf s2 with
        | none => rfl
        | some w2 =>
          dsimp only
          by_cases hw : w1 * w2 = 0
          · simp [hw, finPath, nonzero, Multiset.filter_singleton]
          · simp [hw, finPath]
    | succ m => simp [block, join_end_left]
  | succ n =>
    cases m with
    | zero => simp [block, join_end_right]
    | succ m =>
      simp only [block, join_match]
      rw [if_neg (by omega), zero_add]
      refine nz_bindM _ fun a ha' => nz_bindM _ fun b hb => ?_
      simp only [Nat.le_add_left, and_self, if_true, Nat.add_sub_cancel]
      refine nz_map ?_ _
      rw [ih n m (by omega) ⟨f0, a.nextstate, b.nextstate⟩ ⟨next_lt' hc.wf1 ha', next_lt' hc.wf2 (Multiset.mem_of_mem_filter hb), hv⟩, blocks_all ha]

end

omit [CommMonoidWithZero W] [DecidableEq W] in
theorem sel_count {X : Multiset (PathT W)} {c c1 c2 c3 : Bool} (h : c.toNat = c1.toNat + c2.toNat + c3.toNat) :
    sel c X = sel c1 X + sel c2 X + sel c3 X := by
  cases c <;> cases c1 <;> cases c2 <;> cases c3 <;> simp_all [sel]

/-- The paths of the composition from a tuple that take `n` transitions of the first and `m` of the second FST are the
joined pairs of such paths that the filter state stands for, each once. -/
theorem compose_blocks (hc : Joinable A B) (hF : FilterLaw A B F ok Valid) : ∀ k n m : Nat, n + m = k → ∀ t : CTup FS, t.Ok A B Valid →
    nonzero (gradedAll (composeFinOf A B) (composeTag A B F) n m t) = nonzero (blocks A B (ok t.fs) n m t.s1 t.s2) := by
  intro k
  induction k using Nat.strong_induction_on with
  | _ k ih =>
  rintro n m rfl ⟨fs, s1, s2⟩ ⟨h1, h2, hv⟩
  have ih' : ∀ n' m' : Nat, n' + m' < n + m → ∀ t : CTup FS, t.Ok A B Valid → nonzero (gradedAll (composeFinOf A B) (composeTag A B F) n' m' t) =
      nonzero (blocks A B (ok t.fs) n' m' t.s1 t.s2) := fun n' m' hlt t ht => ih _ hlt n' m' rfl t ht
  obtain ⟨flt, hf, am, bm, ep, f0, SA, SB, mv⟩ := hF.step s1 s2 fs h1 h2 hv
  rw [gradedAll_rec (tag_pos hc)]
  generalize gradedAll (composeFinOf A B) (composeTag A B F) = G at ih'
  have eT : composeTag A B F ⟨fs, s1, s2⟩ = (pairsU A B s1 s2).filterMap fun x => (flt x.1 x.2).map fun fs =>
      (addTr x.1 x.2 fs, (if x.1.olabel = NO_LABEL then 0 else 1), (if x.2.ilabel = NO_LABEL then 0 else 1)) := by
    unfold composeTag; dsimp only at hf ⊢; rw [hf]
  rw [eT, bind_filterMap]
  unfold pairsU
  rw [Multiset.add_bind, Multiset.add_bind, Multiset.add_bind, Multiset.bind_map, Multiset.bind_map, Multiset.bind_assoc, Multiset.bind_assoc]
  simp only [Multiset.bind_map]
  have nl1 : ∀ e, ∀ a ∈ clsTrs Tr.olabel A e s1, a.olabel ≠ NO_LABEL := fun e a ha => hc.noLabel1 _ _ (Multiset.mem_coe.1 (Multiset.mem_filter.1 ha).1)
  have nl2 : ∀ e, ∀ a ∈ clsTrs Tr.ilabel B e s2, a.ilabel ≠ NO_LABEL := fun e a ha => hc.noLabel2 _ _ (Multiset.mem_coe.1 (Multiset.mem_filter.1 ha).1)
  have hB := partB hc mv h1 h2 G n m ih'
  have hA := partA hc mv h1 h2 G n m ih'
  have hE := partE hc mv h1 h2 G n m ih'
  have hM := partM hc mv h1 h2 G n m ih'
  have e0 : NO_LABEL ≠ EPS := by decide
  have goalB : ∀ b ∈ clsTrs Tr.ilabel B true s2, ((flt (loop1 s1) b).map fun fs => (addTr (loop1 s1) b fs, (if (loop1 s1 : Tr W).olabel = NO_LABEL then 0 else 1), (if b.ilabel = NO_LABEL then 0 else 1))).elim 0 (fun y => if y.2.1 ≤ n ∧ y.2.2 ≤ m then (G (n - y.2.1) (m - y.2.2) y.1.next).map (fun p => y.1.asPath.cat p) else 0) =
      bm.elim 0 fun f => if 1 ≤ m then (G n (m - 1) ⟨f, s1, b.nextstate⟩).map fun p => PathT.cat ([], strip b.olabel, b.weight) p else 0 := by
    intro b hb
    rw [mv.onB b hb]
    cases bm with
    | none => rfl
    | some f => simp [addTr, loop1, MTr.asPath, nl2 _ b hb]
  have goalA : ∀ a ∈ clsTrs Tr.olabel A true s1, ((flt a (loop2 s2)).map fun fs => (addTr a (loop2 s2) fs, (if a.olabel = NO_LABEL then 0 else 1), (if (loop2 s2 : Tr W).ilabel = NO_LABEL then 0 else 1))).elim 0 (fun y => if y.2.1 ≤ n ∧ y.2.2 ≤ m then (G (n - y.2.1) (m - y.2.2) y.1.next).map (fun p => y.1.asPath.cat p) else 0) =
      am.elim 0 fun f => if 1 ≤ n then (G (n - 1) m ⟨f, a.nextstate, s2⟩).map fun p => PathT.cat (strip a.ilabel, [], a.weight) p else 0 := by
    intro a ha
    rw [mv.onA a ha]
    cases am with
    | none => rfl
    | some f => simp [addTr, loop2, MTr.asPath, nl1 _ a ha]
  have goalE : ∀ a ∈ clsTrs Tr.olabel A true s1, ∀ b ∈ clsTrs Tr.ilabel B true s2, ((flt a b).map fun fs => (addTr a b fs, (if a.olabel = NO_LABEL then 0 else 1), (if b.ilabel = NO_LABEL then 0 else 1))).elim 0 (fun y => if y.2.1 ≤ n ∧ y.2.2 ≤ m then (G (n - y.2.1) (m - y.2.2) y.1.next).map (fun p => y.1.asPath.cat p) else 0) =
      ep.elim 0 fun f => if 1 ≤ n ∧ 1 ≤ m then (G (n - 1) (m - 1) ⟨f, a.nextstate, b.nextstate⟩).map fun p => PathT.cat (strip a.ilabel, strip b.olabel, a.weight * b.weight) p else 0 := by
    intro a ha b hb
    rw [mv.onEps a ha b hb]
    cases ep with
    | none => rfl
    | some f => simp [addTr, MTr.asPath, nl1 _ a ha, nl2 _ b hb]
  have goalM : ∀ a ∈ clsTrs Tr.olabel A false s1, ∀ b ∈ (clsTrs Tr.ilabel B false s2).filter (fun b => b.ilabel = a.olabel), ((flt a b).map fun fs => (addTr a b fs, (if a.olabel = NO_LABEL then 0 else 1), (if b.ilabel = NO_LABEL then 0 else 1))).elim 0 (fun y => if y.2.1 ≤ n ∧ y.2.2 ≤ m then (G (n - y.2.1) (m - y.2.2) y.1.next).map (fun p => y.1.asPath.cat p) else 0) =
      if 1 ≤ n ∧ 1 ≤ m then (G (n - 1) (m - 1) ⟨f0, a.nextstate, b.nextstate⟩).map fun p => PathT.cat (strip a.ilabel, strip b.olabel, a.weight * b.weight) p else 0 := by
    intro a ha b hb
    have hb := Multiset.mem_of_mem_filter hb
    rw [mv.onMatch a ha b hb]
    simp [addTr, MTr.asPath, nl1 _ a ha, nl2 _ b hb]
  rw [Multiset.bind_congr goalB, Multiset.bind_congr goalA, Multiset.bind_congr fun a ha => Multiset.bind_congr (goalE a ha),
    Multiset.bind_congr fun a ha => Multiset.bind_congr (goalM a ha)]
  have key : ∀ X0 XB XA XE XM : Multiset (PathT W), nonzero (X0 + (XB + XA + XE + XM)) = nonzero (X0 + XM) + nonzero XB + nonzero XA + nonzero XE := by
    intro X0 XB XA XE XM
    simp only [nonzero_add]
    ac_rfl
  rw [key, hB, hA, hE, hM]
  unfold blocks
  rw [sel_count mv.both, mv.first, mv.second, mv.neither]
  simp only [nonzero_add, sel, if_true]
  ac_rfl

end Verif
