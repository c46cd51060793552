import Verif.Lemmas.LabelPrefix
import Verif.Lemmas.LabelStaticIn

/-!
# When `LabelLookAheadMatcher` finds a single transition, on the input side
-/

namespace Verif
universe u
variable {FS : Type}
open LabelReachable LabelReachableData

section
variable {W : Type u} [CommMonoidWithZero W] [Add W] [DecidableEq W] {A B : Fst W}

/-- A transition found by the look ahead is the only one that can go on, and the other FST cannot end. -/
theorem labelLook_prefix_in {f : Fst W} {D : LabelReachableData} (hT : Tabled B true f D) (hL : LookedAt A false) {fl : LaFlags} {s1 s2 : StateId}
    (h1 : s1 < A.numStates) (h2 : s2 < B.numStates) {d : LaData W} (h : labelLook fl (some (D, false)) s2 A s1 = .ok (some d)) (hd : d.prefixTr.nextstate ≠ NO_STATE_ID) :
    d.weight = 1 ∧ d.prefixTr.olabel ≠ EPS ∧ (∃ x y, A.trsOf s1 = x ++ d.prefixTr :: y ∧ ∀ t ∈ x ++ y, reachLabel D s2 t.olabel = .ok false) ∧
      ∀ w, A.finOf s1 = some w → w ≠ 0 → reachFinal D s2 = .ok false := by
  have hsf : s2 < f.numStates := hT.states ▸ h2
  have ht : A.getTrsR s1 = .ok (A.trsOf s1) := by
    have : A.states[s1]? = some A.states[s1] := List.getElem?_eq_getElem h1
    simp [Fst.getTrsR, Fst.trsOf, this]
  obtain ⟨o, ho, -, g2⟩ := C66_reach hT.wf hT.true hT.start hT.one hT.noLabel hT.prep hsf hL.true hL.init s1 (hL.noLabel s1) 0 (A.trsOf s1).length (Nat.zero_le _) le_rfl fl.weight
  have hin : s2 < D.nIsets := by rw [(hT.prep.inv hT.wf hT.true hT.start hT.one hT.noLabel).nIsets]; exact hsf
  have htot : ∀ l, ∃ b, reachLabel D s2 l = .ok b := by
    intro l
    unfold reachLabel intervalSet
    by_cases he : l = EPS
    · exact ⟨false, by rw [if_pos he]⟩
    · exact ⟨_, by rw [if_neg he, if_pos hin]⟩
  simp only [labelLook, ht, ho] at h
  cases hrf : labelReachFin D s2 (A.finOf s1) with
  | error e => rw [hrf] at h; cases h
  | ok rf =>
    rw [hrf] at h
    dsimp only at h
    cases o with
    | none =>
      exfalso
      cases rf with
      | false => simp [labelLookData] at h
      | true =>
        cases hw : fl.weight <;> simp [labelLookData, hw] at h <;> subst h <;> exact hd rfl
    | some o =>
      obtain ⟨a, b, w⟩ := o
      obtain ⟨⟨-, hab, hbl⟩, ⟨ta, hta, hra⟩, -, hall, -⟩ := g2 a b w rfl
      by_cases hpre : (fl.prefixLa && decide (b - a = 1) && !rf) = true
      · have hrf0 : rf = false := by
          cases rf
          · rfl
          · simp at hpre
        have hb1 : b - a = 1 := by simp only [Bool.and_eq_true, decide_eq_true_eq] at hpre; exact hpre.1.2
        have e : d = { LaData.default with prefixTr := ta } := by
          simp only [labelLookData, hpre, if_true, hta] at h
          simp at h
          exact h.symm
        subst e
        dsimp only
        obtain ⟨hl, hta'⟩ := List.getElem?_eq_some_iff.1 hta
        refine ⟨rfl, fun e0 => ?_, ⟨(A.trsOf s1).take a, (A.trsOf s1).drop (a + 1), ?_, fun t ht => ?_⟩, fun w' hw' hw0 => ?_⟩
        · have e0' : ta.labelOn false = EPS := e0
          rw [e0'] at hra
          simp [reachLabel] at hra
        · rw [← hta', List.cons_getElem_drop_succ, List.take_append_drop]
        · obtain ⟨j, hj, hja⟩ : ∃ j, (A.trsOf s1)[j]? = some t ∧ j ≠ a := by
            rcases List.mem_append.1 ht with ht | ht
            · obtain ⟨j, hj, e⟩ := List.mem_take_iff_getElem.1 ht
              exact ⟨j, by rw [← e]; exact List.getElem?_eq_getElem _, by omega⟩
            · obtain ⟨j, hj, e⟩ := List.mem_drop_iff_getElem.1 ht
              exact ⟨_, by rw [← e]; exact List.getElem?_eq_getElem _, by omega⟩
          obtain ⟨r, hr⟩ := htot t.olabel
          cases r with
          | false => exact hr
          | true =>
            obtain ⟨hjl, -⟩ := List.getElem?_eq_some_iff.1 hj
            have := hall j t (Nat.zero_le _) hjl hj hr
            omega
        · simp only [labelReachFin, hw', if_neg hw0, hrf0] at hrf
          exact hrf
      · exfalso
        simp only [labelLookData, hpre] at h
        cases hrf' : rf && fl.weight <;> simp [hrf'] at h <;> subst h <;> exact hd rfl

/-- Then only the paths that begin with it matter. -/
theorem labelLook_begins_in {f : Fst W} {D : LabelReachableData} (hT : Tabled B true f D) (hL : LookedAt A false) {fl : LaFlags} {s1 s2 : StateId}
    (h1 : s1 < A.numStates) (h2 : s2 < B.numStates) {d : LaData W} (h : labelLook fl (some (D, false)) s2 A s1 = .ok (some d)) (hd : d.prefixTr.nextstate ≠ NO_STATE_ID) (n m : Nat) :
    nonzero (joinPaths (pathsC Tr.olabel A false n s1) (B.pathsFrom m s2)) = nonzero (joinPaths (begins A d.prefixTr n) (B.pathsFrom m s2)) := by
  obtain ⟨-, h0, ⟨x, y, hxy, hno⟩, hfin⟩ := labelLook_prefix_in hT hL h1 h2 h hd
  cases n with
  | zero =>
    have e : nonzero (joinPaths (pathsC Tr.olabel A false 0 s1) (B.pathsFrom m s2)) = 0 := by
      rw [nonzero_eq_zero]
      intro r hr
      obtain ⟨p, hp, q, hq, e, rfl⟩ := mem_join.1 hr
      simp only [pathsC, Bool.false_eq_true, if_false] at hp
      by_contra hw
      cases hf : A.finOf s1 with
      | none => rw [hf] at hp; simp [finPath] at hp
      | some w =>
        rw [hf] at hp
        simp [finPath] at hp
        subst hp
        have hc := hT.fin s2 h2 (path_canEnd (input := true) hq e (fun h => hw (by simp [h])))
        rw [hfin w hf (fun h => hw (by simp [h]))] at hc
        cases hc
    rw [e]
    simp [begins, nz_zero]
  | succ n =>
    have e : pathsC Tr.olabel A false (n + 1) s1 = begins A d.prefixTr (n + 1) +
        (((x ++ y : List (Tr W)) : Multiset (Tr W)).filter fun t => decide (t.olabel = EPS) = false).bind fun t => (A.pathsFrom n t.nextstate).map fun p => t.asPath.cat p := by
      have e1 : (A.trsOf s1 : Multiset (Tr W)) = d.prefixTr ::ₘ ((x ++ y : List (Tr W)) : Multiset (Tr W)) := by
        rw [hxy]
        exact Multiset.coe_eq_coe.2 List.perm_middle
      simp only [pathsC, clsTrs, e1]
      rw [Multiset.filter_cons_of_pos _ (by simp [h0]), Multiset.cons_bind]
      rfl
    rw [e, join_add_left, nonzero_add]
    have e2 : nonzero (joinPaths ((((x ++ y : List (Tr W)) : Multiset (Tr W)).filter fun t => decide (t.olabel = EPS) = false).bind
        fun t => (A.pathsFrom n t.nextstate).map fun p => t.asPath.cat p) (B.pathsFrom m s2)) = 0 := by
      rw [nonzero_eq_zero]
      intro r hr
      obtain ⟨p, hp, q, hq, e, rfl⟩ := mem_join.1 hr
      obtain ⟨t, ht, hp⟩ := Multiset.mem_bind.1 hp
      obtain ⟨q', -, rfl⟩ := Multiset.mem_map.1 hp
      obtain ⟨ht, ht0⟩ := Multiset.mem_filter.1 ht
      have ht0 : t.olabel ≠ EPS := by simpa using ht0
      simp only [PathT.cat, Tr.asPath, strip, if_neg ht0] at e
      have hc := hT.read s2 h2 _ ht0 (path_canRead (input := true) hq e)
      rw [hno t (Multiset.mem_coe.1 ht)] at hc
      cases hc
    rw [e2, add_zero]

/-- What is pushed was found. -/
theorem pushesNow_some_in {c : LaCfg} {a b tr : Tr W} (h : pushesNowIn c A B a b = some tr) :
    ∃ d, c.looks (if c.out then a.olabel else b.ilabel) = true ∧ c.look A B a.nextstate b.nextstate = .ok (some d) ∧ d.prefixTr = tr ∧ tr.nextstate ≠ NO_STATE_ID := by
  unfold pushesNowIn at h
  split at h
  · cases hl : lookData c A B a b with
    | none => rw [hl] at h; cases h
    | some d =>
      rw [hl] at h
      dsimp only at h
      split at h
      · cases h
      · split at h
        · cases h
        · split at h
          · cases h
          · rename_i hn
            rw [Option.some.injEq] at h
            subst h
            unfold lookData at hl
            by_cases hk : c.looks (if c.out then a.olabel else b.ilabel) = true
            · rw [if_pos hk] at hl
              refine ⟨d, hk, ?_, rfl, hn⟩
              cases hc : c.look A B a.nextstate b.nextstate with
              | error e => rw [hc] at hl; cases hl
              | ok r => rw [hc] at hl; dsimp only at hl; rw [hl]
            · rw [if_neg hk] at hl; cases hl
  · cases h

/-- A pair with ε of the second FST that `SequenceComposeFilter` lets through. -/
theorem seqFilter_eps (hj : Joinable A B) (h1 : A.AllCounters) {t : CTup Nat} (ht : t.Ok A B (· ≤ 1)) {flt} (hf : seqFilter.filter A B t.s1 t.s2 t.fs = .ok flt)
    {a b : Tr W} (hp : (a, b) ∈ pairsU A B t.s1 t.s2) {fs} (hs : flt a b = some fs) (hb0 : b.ilabel = EPS) :
    b ∈ B.trsOf t.s2 ∧ a = loop1 t.s1 ∧ ∀ n m, nonzero (blocks A B (fun e1 _ => decide (fs = 0) || !e1) n m t.s1 b.nextstate) =
      nonzero (joinPaths (pathsC Tr.olabel A false n t.s1) (B.pathsFrom m b.nextstate)) := by
  obtain ⟨al, no, he, hno, -⟩ := epsInfo_spec A h1 false t.s1 ht.1
  rw [sideLabel_false] at hno
  have ef : flt = seqFilterTr al no t.fs := by
    simp only [seqFilter, he] at hf
    injection hf with hf
    exact hf.symm
  rw [ef] at hs
  have hb : b ∈ B.trsOf t.s2 ∧ a = loop1 t.s1 := by
    simp only [pairsU, Multiset.mem_add, Multiset.mem_map, Multiset.mem_bind] at hp
    rcases hp with ((⟨b', hb', e⟩ | ⟨a', ha', e⟩) | ⟨a', ha', b', hb', e⟩) | ⟨a', ha', b', hb', e⟩ <;> injection e with e1 e2 <;> subst e1 e2
    · exact ⟨Multiset.mem_coe.1 (Multiset.mem_of_mem_filter hb'), rfl⟩
    · exact absurd hb0 (by simp [loop2, NO_LABEL])
    · simp [seqFilterTr, (cls_label1 hj ha').1, (cls_label2 hj hb').1, (cls_label1 hj ha').2.2 rfl, eps_ne_no] at hs
    · exact absurd hb0 (by simpa [clsTrs] using (Multiset.mem_filter.1 (Multiset.mem_of_mem_filter hb')).2)
  refine ⟨hb.1, hb.2, fun n m => ?_⟩
  have hai : a.olabel = NO_LABEL := by rw [hb.2]; rfl
  simp only [seqFilterTr, hai, if_true] at hs
  have e : ∀ e2, nonzero (sel (decide (fs = 0) || !true) (block A B true e2 n m t.s1 b.nextstate)) = 0 := by
    intro e2
    cases al
    · cases no
      · simp only [Bool.false_eq_true, if_false, Option.some.injEq] at hs
        subst hs
        rfl
      · exact nz_le_zero (sel_le _ _) (join_vanish_left (hno rfl n) _)
    · simp at hs
  unfold blocks
  rw [paths_cls Tr.ilabel B, join_add_right]
  simp only [nonzero_add, e, zero_add, Bool.not_false, Bool.or_true, add_zero]
  simp only [sel, if_true]
  rfl

end

section
variable {W : Type u} [CommMonoidWithZero W] [Add W] [DecidableEq W] {A B f : Fst W} {D : LabelReachableData}

theorem tabled_lookLabel_in (hT : Tabled B true f D) (fl : LaFlags) (s l) (hs : s < B.numStates) (h0 : l ≠ EPS) :
    ∃ b, (LaMatcher.label fl (some (D, false))).lookLabelR B true s l = .ok b ∧ (b = false → ∀ n, readsIn B l n s = 0) := by
  have hsf : s < f.numStates := hT.states ▸ hs
  have hin : s < D.nIsets := by rw [(hT.prep.inv hT.wf hT.true hT.start hT.one hT.noLabel).nIsets]; exact hsf
  obtain ⟨b, hb⟩ : ∃ b, reachLabel D s l = .ok b := by
    unfold reachLabel intervalSet
    exact ⟨_, by rw [if_neg h0, if_pos hin]⟩
  refine ⟨b, by simp only [LaMatcher.lookLabelR, if_neg h0, hb], fun e n => ?_⟩
  refine Multiset.eq_zero_of_forall_notMem fun p hp => ?_
  have := hT.read s hs l h0 (readsIn_canRead hp)
  rw [hb, e] at this
  cases this

/-- Labels pushed over the look-ahead filter. -/
theorem lookFilter_pushesLabels_in (hj : Joinable A B) (h2 : A.AllCounters) (hT : Tabled B true f D) (hL : LookedAt A false) (fl fl' : LaFlags) (hne : fl'.nonEpsilons = false) :
    PushesLabelsIn ⟨false, .label fl (some (D, false)), fl'⟩ A B seqFilter (lookFilter ⟨false, .label fl (some (D, false)), fl'⟩ A B seqFilter)
      (fun fs e1 _ => decide (fs = 0) || !e1) id (fun _ => 1) (fun t => t.Ok A B (· ≤ 1)) (fun _ _ => True) where
  out := rfl
  start s1 s2 g1 g2 := ⟨g1, g2, (seqFilter_law hj h2).start.1⟩
  set t ht _ s1 s2 g1 g2 := by
    obtain ⟨flt, hf, -⟩ := (seqFilter_law hj h2).step s1 s2 t.fs g1 g2 ht.2.2
    exact ⟨⟨_, by simp only [lookFilter, hf]; rfl⟩, fun w1 w2 => ⟨_, rfl⟩⟩
  push t ht flt flt' hf hf' a b hp fs fs' w1 w2 hs hs' tr htr := by
    obtain ⟨d, g1, g2, rfl, g4⟩ := pushesNow_some_in htr
    have ha0 : b.ilabel = EPS := by
      by_contra h0; simp [LaCfg.looks, h0, hne] at g1
    obtain ⟨k1, k2, k3⟩ := seqFilter_eps hj h2 ht hf hp hs ha0
    have hbn : a.nextstate = t.s1 := by rw [k2]; rfl
    rw [hbn] at g2
    have hl1 := hj.wf2.next_lt _ _ k1
    have g2' : labelLook fl (some (D, false)) b.nextstate A t.s1 = .ok (some d) := g2
    obtain ⟨-, q2, ⟨x, y, q3, -⟩, -⟩ := labelLook_prefix_in hT hL ht.1 hl1 g2' g4
    exact ⟨k1, k2, by rw [q3]; simp, q2, rfl, trivial, fun n m => (k3 n m).trans (labelLook_begins_in hT hL ht.1 hl1 g2' g4 n m)⟩
  label s l hs h0 _ _ a ha _ := ⟨trivial, tabled_lookLabel_in hT fl _ l (hj.wf2.next_lt _ _ ha) h0⟩

end

section
variable {W : Type} [CommMonoidWithZero W] [Add W] [DecidableEq W] {A B f : Fst W} {D : LabelReachableData}

/-- Labels pushed over the filter that pushes weights. -/
theorem pushFilter_pushesLabels_in {div quant : W → W → R W} {delta : W} (hj : Joinable A B) (h2 : A.AllCounters) (hT : Tabled B true f D) (hL : LookedAt A false) (fl fl' : LaFlags)
    (hne : fl'.nonEpsilons = false) (h1 : Pushable div quant delta 1) :
    PushesLabelsIn ⟨false, .label fl (some (D, false)), fl'⟩ A B seqFilter (pushFilter div quant delta ⟨false, .label fl (some (D, false)), fl'⟩ A B seqFilter)
      (fun fs e1 _ => decide (fs = 0) || !e1) Prod.fst Prod.snd
      (fun t => (⟨t.fs.1, t.s1, t.s2⟩ : CTup Nat).Ok A B (· ≤ 1) ∧ PushedAt ⟨false, .label fl (some (D, false)), fl'⟩ A B t.s1 t.s2 t.fs.2) (fun _ _ => True) where
  out := rfl
  start s1 s2 g1 g2 := ⟨⟨g1, g2, (seqFilter_law hj h2).start.1⟩, .inl rfl⟩
  set t ht hg s1 s2 g1 g2 := by
    obtain ⟨flt, hf, -⟩ := (seqFilter_law hj h2).step s1 s2 t.fs.1 g1 g2 ht.1.2.2
    refine ⟨⟨_, by simp only [pushFilter, hf]; rfl⟩, fun w1 w2 => ?_⟩
    obtain ⟨q, hq, -⟩ := h1.div w1
    simp only [pushFilter, hg, hq]
    split
    · exact ⟨_, rfl⟩
    · exact ⟨_, rfl⟩
  push t ht flt flt' hf hf' a b hp fs fs' w1 w2 hs hs' tr htr := by
    obtain ⟨d, g1, g2, rfl, g4⟩ := pushesNow_some_in htr
    have ha0 : b.ilabel = EPS := by
      by_contra h0; simp [LaCfg.looks, h0, hne] at g1
    obtain ⟨k1, k2, k3⟩ := seqFilter_eps hj h2 (t := ⟨t.fs.1, t.s1, t.s2⟩) ht.1 hf hp hs ha0
    have hbn : a.nextstate = t.s1 := by rw [k2]; rfl
    have hl1 := hj.wf2.next_lt _ _ k1
    have g2' : labelLook fl (some (D, false)) b.nextstate A t.s1 = .ok (some d) := by rw [← hbn]; exact g2
    obtain ⟨q1, q2, ⟨x, y, q3, -⟩, -⟩ := labelLook_prefix_in hT hL ht.1.1 hl1 g2' g4
    refine ⟨k1, k2, by rw [q3]; simp, q2, ?_, trivial, fun n m => (k3 n m).trans (labelLook_begins_in hT hL ht.1.1 hl1 g2' g4 n m)⟩
    simp only [pushFilter, hf, Except.ok.injEq] at hf'
    rw [← hf'] at hs'
    simp only [if_true] at g1
    have hlt : lookFilterTr ⟨false, .label fl (some (D, false)), fl'⟩ A B flt a b = .ok (some (fs, some d)) := by
      simp only [lookFilterTr, hs, g1, if_true, g2]
    simp only [pushFilterTr, hlt, q1, if_neg h1.ne, h1.quant] at hs'
    split at hs'
    · simp only [Except.ok.injEq, Option.some.injEq, Prod.mk.injEq] at hs'
      rw [← hs'.1]
    · split at hs'
      · cases hs'
      · simp only [Except.ok.injEq, Option.some.injEq, Prod.mk.injEq] at hs'
        rw [← hs'.1]
  label s l hs h0 _ _ a ha _ := ⟨trivial, tabled_lookLabel_in hT fl _ l (hj.wf2.next_lt _ _ ha) h0⟩

end
end Verif
