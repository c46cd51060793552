import Verif.Lemmas.LookTr
import Verif.Props.C39

/-!
# `MatcherFst::new_with_relabeling`: the relabelled FSTs compose as the original ones
-/

namespace Verif
universe u
variable {W : Type u}
open LabelReachable LabelReachableData

/-- A path with the labels of one tape renumbered. -/
def renumPath (side : Bool) (num : Label → Label) (p : PathT W) : PathT W := if side then (p.1.map num, p.2.1, p.2.2) else (p.1, p.2.1.map num, p.2.2)

/-- `f'` is `f` with the labels of one side renumbered and the transitions of each state reordered. -/
structure Renumbered (side : Bool) (num : Label → Label) (f f' : Fst W) : Prop where
  trs : ∀ s, (f'.trsOf s).Perm ((f.trsOf s).map fun t => if side then { t with ilabel := num t.ilabel } else { t with olabel := num t.olabel })
  fin : ∀ s, f'.finOf s = f.finOf s
  start : f'.start = f.start
  states : f'.numStates = f.numStates
  eps : num EPS = EPS
  pos : ∀ s, ∀ t ∈ f.trsOf s, t.labelOn side ≠ EPS → num (t.labelOn side) ≠ EPS

section
variable {side : Bool} {num : Label → Label} {f f' : Fst W}

theorem Renumbered.mem (h : Renumbered side num f f') {s : StateId} {t' : Tr W} (ht : t' ∈ f'.trsOf s) :
    ∃ t ∈ f.trsOf s, t'.labelOn side = num (t.labelOn side) ∧ t'.nextstate = t.nextstate ∧ t'.weight = t.weight := by
  obtain ⟨t, h1, rfl⟩ := List.mem_map.1 ((h.trs s).mem_iff.1 ht)
  refine ⟨t, h1, ?_⟩
  cases side <;> exact ⟨rfl, rfl, rfl⟩

theorem Renumbered.wf (h : Renumbered side num f f') (hw : f.WF) : f'.WF where
  start_lt s hs := by rw [h.states]; exact hw.start_lt s (h.start ▸ hs)
  next_lt s t' ht := by
    obtain ⟨t, h1, -, e, -⟩ := h.mem ht
    rw [h.states, e]; exact hw.next_lt s t h1

theorem Renumbered.eps_iff (h : Renumbered side num f f') {s : StateId} {t : Tr W} (ht : t ∈ f.trsOf s) : num (t.labelOn side) = EPS ↔ t.labelOn side = EPS :=
  ⟨fun e => by by_contra h0; exact h.pos s t ht h0 e, fun e => by rw [e, h.eps]⟩

theorem Renumbered.silent (h : Renumbered side num f f') {s q : StateId} (hs : f'.Silent side s q) : f.Silent side s q := by
  induction hs with
  | refl => exact .refl
  | tail _ hb ih =>
    obtain ⟨t', ht', e, rfl⟩ := hb
    obtain ⟨t, ht, e1, e2, -⟩ := h.mem ht'
    exact ih.tail ⟨t, ht, (h.eps_iff ht).1 (e1 ▸ e), e2.symm⟩

theorem Renumbered.canRead (h : Renumbered side num f f') {s : StateId} {l : Label} (hr : f'.CanRead side s l) :
    ∃ q, ∃ t ∈ f.trsOf q, l = num (t.labelOn side) ∧ f.CanRead side s (t.labelOn side) := by
  obtain ⟨q, hq, t', ht', rfl⟩ := hr
  obtain ⟨t, ht, e1, -⟩ := h.mem ht'
  exact ⟨q, t, ht, e1, q, h.silent hq, t, ht, rfl⟩

theorem Renumbered.canEnd [Zero W] (h : Renumbered side num f f') {s : StateId} (hr : f'.CanEnd side s) : f.CanEnd side s := by
  obtain ⟨q, hq, w, hw, h0⟩ := hr
  exact ⟨q, h.silent hq, w, h.fin q ▸ hw, h0⟩

variable [Mul W]

theorem renum_cat (a p : PathT W) : renumPath side num (a.cat p) = (renumPath side num a).cat (renumPath side num p) := by
  cases side <;> simp [renumPath, PathT.cat]

theorem Renumbered.asPath (h : Renumbered side num f f') {s : StateId} {t : Tr W} (ht : t ∈ f.trsOf s) :
    (if side then { t with ilabel := num t.ilabel } else { t with olabel := num t.olabel } : Tr W).asPath = renumPath side num t.asPath := by
  have := h.eps_iff ht
  cases side with
  | true =>
    simp only [Tr.labelOn, if_true] at this
    by_cases h0 : t.ilabel = EPS <;> simp [Tr.asPath, renumPath, strip, h0, this, h.eps]
  | false =>
    simp only [Tr.labelOn, Bool.false_eq_true, if_false] at this
    by_cases h0 : t.olabel = EPS <;> simp [Tr.asPath, renumPath, strip, h0, this, h.eps]

theorem Renumbered.pathsFrom (h : Renumbered side num f f') : ∀ n s, f'.pathsFrom n s = (f.pathsFrom n s).map (renumPath side num)
  | 0, s => by
    simp only [Fst.pathsFrom, h.fin]
    cases f.finOf s with
    | none => rfl
    | some w => cases side <;> rfl
  | n + 1, s => by
    rw [Fst.pathsFrom_succ, Fst.pathsFrom_succ, Multiset.coe_eq_coe.2 (h.trs s), ← Multiset.map_coe, Multiset.bind_map, Multiset.map_bind]
    refine Multiset.bind_congr fun t ht => ?_
    have hn : (if side then { t with ilabel := num t.ilabel } else { t with olabel := num t.olabel } : Tr W).nextstate = t.nextstate := by cases side <;> rfl
    rw [hn, h.pathsFrom n, h.asPath (Multiset.mem_coe.1 ht), Multiset.map_map, Multiset.map_map]
    refine Multiset.map_congr rfl fun p _ => ?_
    simp only [Function.comp_apply, renum_cat]

theorem Renumbered.accPaths (h : Renumbered side num f f') (n : Nat) : f'.accPaths n = (f.accPaths n).map (renumPath side num) := by
  cases hs : f.start with
  | none =>
    have : f'.start = none := by rw [h.start, hs]
    simp [Fst.accPaths, hs, this]
  | some s => rw [Fst.accPaths_some hs, Fst.accPaths_some (h.start.trans hs), h.pathsFrom]

/-- The labels on a tape are labels of transitions. -/
theorem tape_mem : ∀ {n s} {p : PathT W}, p ∈ f.pathsFrom n s → ∀ l ∈ p.tape side, ∃ q, ∃ t ∈ f.trsOf q, t.labelOn side = l
  | 0, s, p, hp, l, hl => by
    simp only [Fst.pathsFrom] at hp
    cases hw : f.finOf s with
    | none => rw [hw] at hp; simp at hp
    | some w => rw [hw] at hp; simp at hp; subst hp; cases side <;> simp [PathT.tape] at hl
  | n + 1, s, p, hp, l, hl => by
    rw [Fst.pathsFrom_succ] at hp
    obtain ⟨t, ht, hq⟩ := Multiset.mem_bind.1 hp
    obtain ⟨q, hq', rfl⟩ := Multiset.mem_map.1 hq
    have e : (t.asPath.cat q).tape side = strip (t.labelOn side) ++ q.tape side := by cases side <;> rfl
    rw [e, List.mem_append] at hl
    rcases hl with hl | hl
    · refine ⟨s, t, Multiset.mem_coe.1 ht, ?_⟩
      unfold strip at hl
      split at hl
      · cases hl
      · exact (List.mem_singleton.1 hl).symm
    · exact tape_mem hq' l hl

theorem tape_acc {n} {p : PathT W} (hp : p ∈ f.accPaths n) : ∀ l ∈ p.tape side, ∃ q, ∃ t ∈ f.trsOf q, t.labelOn side = l := by
  cases hs : f.start with
  | none => simp [Fst.accPaths, hs] at hp
  | some s => rw [Fst.accPaths_some hs] at hp; exact tape_mem hp

theorem map_num_inj {num : Label → Label} : ∀ {x y : List Label}, (∀ a ∈ x, ∀ b ∈ y, num a = num b → a = b) → x.map num = y.map num → x = y
  | [], [], _, _ => rfl
  | [], _ :: _, _, e => by cases e
  | _ :: _, [], _, e => by cases e
  | a :: x, b :: y, h, e => by
    simp only [List.map_cons, List.cons.injEq] at e
    rw [h a (by simp) b (by simp) e.1, map_num_inj (fun a' ha b' hb => h a' (by simp [ha]) b' (by simp [hb])) e.2]

theorem join_renum {P Q : Multiset (PathT W)} (h : ∀ p ∈ P, ∀ q ∈ Q, ∀ a ∈ q.1, ∀ b ∈ p.2.1, num a = num b → a = b) :
    joinPaths (P.map (renumPath false num)) (Q.map (renumPath true num)) = joinPaths P Q := by
  simp only [joinPaths, Multiset.bind_map, Multiset.filter_map, Multiset.map_map]
  refine Multiset.bind_congr fun p hp => ?_
  have : Q.filter (fun q => (renumPath true num q).1 = (renumPath false num p).2.1) = Q.filter fun q => q.1 = p.2.1 := by
    refine Multiset.filter_congr fun q hq => ?_
    simp only [renumPath, if_true, Bool.false_eq_true, if_false]
    exact ⟨fun e => map_num_inj (h p hp q hq) e, fun e => by rw [e]⟩
  simp only [Function.comp_def]
  rw [this]
  rfl

/-- Composing the renumbered FSTs composes the original ones. -/
theorem Renumbered.composition [Zero W] [DecidableEq W] {A A' B B' C : Fst W} (hA : Renumbered false num A A') (hB : Renumbered true num B B')
    (hi : ∀ s, ∀ a ∈ A.trsOf s, ∀ s', ∀ b ∈ B.trsOf s', num b.ilabel = num a.olabel → b.ilabel = a.olabel) (h : IsComposition A' B' C) : IsComposition A B C := by
  obtain ⟨part, p1, p2, p3⟩ := h
  refine ⟨part, p1, p2, fun n m => ?_⟩
  rw [p3, hA.accPaths, hB.accPaths, join_renum]
  intro p hp q hq a ha b hb e
  obtain ⟨s, t, ht, rfl⟩ := tape_acc (side := true) hq a ha
  obtain ⟨s', t', ht', rfl⟩ := tape_acc (side := false) hp b hb
  exact hi _ t' ht' _ t ht e

end

section
variable [CommMonoidWithZero W] [Add W] [DecidableEq W]

theorem Le.get {d D : LabelReachableData} (h : d.Le D) {l : Label} {x : Nat} (hx : d.label2index.get l = some x) : D.label2index.get l = some x := by
  obtain ⟨e, he⟩ := h.map
  rw [he, ReachMap.get_append hx]

theorem relabelFst_renum {d D : LabelReachableData} {f g : Fst W} {side inp : Bool} (hD : (d.relabelFst f side).1.Le D) (hI : DInv g inp D) :
    Renumbered side D.look f (d.relabelFst f side).2 ∧ ∀ s, ∀ t ∈ f.trsOf s, t.labelOn side ≠ EPS → D.label2index.get (t.labelOn side) = some (D.look (t.labelOn side)) := by
  obtain ⟨k1, k2, k3, k4, k5, k6, k7, k8, k9⟩ := relabelFst_spec d f side
  have hget : ∀ s, ∀ t ∈ f.trsOf s, t.labelOn side ≠ EPS → D.label2index.get (t.labelOn side) = some (D.look (t.labelOn side)) ∧
      D.look (t.labelOn side) = (d.relabelFst f side).1.look (t.labelOn side) := by
    intro s t ht h0
    have := Le.get hD (k2 s t ht h0)
    have e : D.look (t.labelOn side) = (d.relabelFst f side).1.look (t.labelOn side) := by
      conv_lhs => unfold look
      rw [if_neg h0, this]; rfl
    rw [e]
    exact ⟨this, rfl⟩
  refine ⟨⟨fun s => ?_, k4, k5, k6, by unfold look; simp, fun s t ht h0 e => ?_⟩, fun s t ht h0 => (hget s t ht h0).1⟩
  · rw [k3]
    refine (Fst.sortTrsBy_perm _ _).trans (List.Perm.of_eq (List.map_congr_left fun t ht => ?_))
    have hl : (d.relabelFst f side).1.look (t.labelOn side) = D.look (t.labelOn side) := by
      by_cases h0 : t.labelOn side = EPS
      · rw [h0]; unfold look; simp
      · exact (hget s t ht h0).2.symm
    cases side <;> simp only [relook, Tr.labelOn, if_true, Bool.false_eq_true, if_false] at hl ⊢ <;> rw [hl]
  · have := hI.pos (hget s t ht h0).1
    rw [e] at this
    exact absurd this (by decide)

theorem relabelFst_flag (d : LabelReachableData) (f : Fst W) (on : Bool) : (d.relabelFst f on).2.props (if on then .iLabelSorted else .oLabelSorted) = true := by
  unfold relabelFst
  simp only
  rw [show ∀ (x : Fst W) c, (x.trSort c).props = c.props x.props from fun x c => Fst.setPropsMask_all _ _]
  cases on <;> simp [Fst.SortSide.props, Props.setIf_apply, Props.set]


theorem computeData_keys {f : Fst W} {input : Bool} (hs : f.start ≠ none) {d : LabelReachableData} (h : computeData f input = .ok d) :
    ∀ p ∈ d.label2index, p.1 = NO_LABEL ∨ ∃ s, ∃ t ∈ f.trsOf s, t.labelOn input = p.1 := by
  obtain ⟨i, hi⟩ := Option.ne_none_iff_exists'.1 hs
  obtain ⟨hc, -, -⟩ := convert_spec f hi
  have hu := (transformFst_spec f.convert input).used
  unfold computeData at h
  simp only at h
  split at h
  · cases h
  · split at h
    · cases h
    · split at h
      · cases h
      · injection h with h
        subst h
        intro p hp
        obtain ⟨q, hq, rfl⟩ := List.mem_map.1 hp
        rcases hu q hq with ⟨s, t, ht, e, -⟩ | ⟨e, -⟩
        · exact .inr ⟨s, t, hc.trs s ▸ ht, e⟩
        · exact .inl e

/-- The keys are among these labels. -/
def KeysIn (L : List Label) (d : LabelReachableData) : Prop := ∀ p ∈ d.label2index, p.1 ∈ NO_LABEL :: L

theorem KeysIn.relabel {L : List Label} {d : LabelReachableData} {l : Label} (hl : l ∈ L) (h : KeysIn L d) : KeysIn L (d.relabel l).1 := by
  unfold LabelReachableData.relabel
  split
  · exact h
  · split
    · exact h
    · intro p hp
      rw [List.mem_append, List.mem_singleton] at hp
      rcases hp with hp | rfl
      · exact h p hp
      · exact List.mem_cons_of_mem _ hl

theorem KeysIn.bound {L : List Label} {d : LabelReachableData} {f : Fst W} {input : Bool} (h : KeysIn L d) (hI : DInv f input d) {l x : Nat}
    (hx : d.label2index.get l = some x) : x ≤ L.length + 1 := by
  have h1 := List.mem_map_of_mem (f := Prod.snd) (ReachMap.get_mem hx)
  rw [hI.vals.mem_iff, List.mem_range'_1] at h1
  have h2 : (d.label2index.map Prod.fst).length ≤ (NO_LABEL :: L).length := (hI.keys.subperm fun a ha => by
    obtain ⟨p, hp, rfl⟩ := List.mem_map.1 ha
    exact h p hp).length_le
  rw [List.length_map, List.length_cons] at h2
  omega

/-- What label look-ahead asks of the two FSTs: the tables are built for one side of `f`; the other side of `g` is matched with it. -/
structure LookOperands (side : Bool) (f g : Fst W) : Prop where
  wf1 : f.WF
  wf2 : g.WF
  counters1 : f.AllCounters
  counters2 : g.AllCounters
  true1 : f.Truthful
  true2 : g.Truthful
  start : f.start ≠ none
  one : (1 : W) ≠ 0
  noLabel1 : ∀ s, ∀ t ∈ f.trsOf s, t.labelOn side < NO_LABEL
  noLabel2 : ∀ s, ∀ t ∈ g.trsOf s, t.labelOn (!side) ≠ NO_LABEL
  few : ∃ L : List Label, L.length + 1 < NO_LABEL ∧ (∀ s, ∀ t ∈ f.trsOf s, t.labelOn side ∈ L) ∧ ∀ s, ∀ t ∈ g.trsOf s, t.labelOn (!side) ∈ L

/-- The two FSTs after `new_with_relabeling`. -/
structure Relabelled (side : Bool) (f g f' g' : Fst W) (D : LabelReachableData) (num : Label → Label) : Prop where
  fst1 : Renumbered side num f f'
  fst2 : Renumbered (!side) num g g'
  inj : ∀ s, ∀ t ∈ f.trsOf s, ∀ s', ∀ t' ∈ g.trsOf s', num (t.labelOn side) = num (t'.labelOn (!side)) → t.labelOn side = t'.labelOn (!side)
  tabled : Tabled f' side f D
  init : reachInit g' (!side) = .ok ()
  counters1 : f'.AllCounters
  counters2 : g'.AllCounters
  true1 : f'.Truthful
  true2 : g'.Truthful
  flag1 : f'.props (if side then .iLabelSorted else .oLabelSorted) = true
  flag2 : g'.props (if side then .oLabelSorted else .iLabelSorted) = true
  reachSide : D.reachInput = side
  noLabel1 : ∀ s, ∀ t ∈ f'.trsOf s, t.labelOn side ≠ NO_LABEL
  noLabel2 : ∀ s, ∀ t ∈ g'.trsOf s, t.labelOn (!side) ≠ NO_LABEL

theorem relabelled {side : Bool} {f g : Fst W} (h : LookOperands side f g) {d : LabelReachableData} (hd : computeData f side = .ok d) :
    ∃ num, Relabelled side f g (d.relabelFst f side).2 ((d.relabelFst f side).1.relabelFst g (!side)).2 ((d.relabelFst f side).1.relabelFst g (!side)).1 num := by
  have p0 : Prepared f side d := .init hd
  have p1 : Prepared f side (d.relabelFst f side).1 := .fst f side p0 fun s t ht => (h.noLabel1 s t ht).ne
  have p2 : Prepared f side ((d.relabelFst f side).1.relabelFst g (!side)).1 := .fst g (!side) p1 h.noLabel2
  obtain ⟨r1, hr1⟩ : ∃ r, r = d.relabelFst f side := ⟨_, rfl⟩
  obtain ⟨r2, hr2⟩ : ∃ r, r = r1.1.relabelFst g (!side) := ⟨_, rfl⟩
  rw [← hr1] at p1 p2 ⊢
  rw [← hr2] at p2 ⊢
  have hI := p2.inv h.wf1 h.true1 h.start h.one h.noLabel1
  obtain ⟨-, -, -, -, -, ka6, ka7, ka8, ka9⟩ := relabelFst_spec d f side
  obtain ⟨kb1, -, -, -, -, -, kb7, kb8, kb9⟩ := relabelFst_spec r1.1 g (!side)
  rw [← hr1] at ka6 ka7 ka8 ka9
  rw [← hr2] at kb1 kb7 kb8 kb9
  obtain ⟨L, hL0, hL1, hL2⟩ := h.few
  have hK : KeysIn L r2.1 := by
    refine kb9 (fun _ _ hl h => h.relabel hl) (ka9 (fun _ _ hl h => h.relabel hl) (fun p hp => ?_) hL1) hL2
    rcases computeData_keys h.start hd p hp with e | ⟨s, t, ht, e⟩
    · rw [e]; exact List.mem_cons_self
    · rw [← e]; exact List.mem_cons_of_mem _ (hL1 s t ht)
  obtain ⟨a1, a2⟩ := relabelFst_renum (d := d) (f := f) (side := side) (by rw [← hr1]; exact kb1) hI
  obtain ⟨b1, b2⟩ := relabelFst_renum (d := r1.1) (f := g) (side := !side) (D := r2.1) (by rw [← hr2]; exact .refl _) hI
  have fl1 := relabelFst_flag d f side
  have fl2 := relabelFst_flag r1.1 g (!side)
  rw [← hr1] at a1 fl1
  rw [← hr2] at b1 fl2
  have hin := (C66_relabel_fst h.wf1 h.true1 h.start h.one h.noLabel1 p1 g (!side) h.noLabel2).choose_spec.2.2.2.2.2.2.2.2
  rw [← hr2] at hin
  refine ⟨r2.1.look, a1, b1, ?_, ?_, hin, ka7 h.counters1, kb7 h.counters2, ka8 h.true1, kb8 h.true2, fl1, ?_, hI.side, ?_, ?_⟩
  · intro s t ht s' t' ht' e
    by_cases h1 : t.labelOn side = EPS
    · rw [h1, a1.eps] at e
      rw [h1]
      exact ((b1.eps_iff ht').1 e.symm).symm
    · have h2 : t'.labelOn (!side) ≠ EPS := fun h2 => by
        rw [h2, a1.eps] at e
        exact a1.pos s t ht h1 e
      have k := b2 s' t' ht' h2
      rw [← e] at k
      exact hI.inj (a2 s t ht h1) k
  · refine ⟨h.wf1, h.true1, h.start, h.one, h.noLabel1, p2, ka6, fun s hs l hl hr => ?_, fun s hs he => ?_⟩
    · obtain ⟨q, t, ht, e, hc⟩ := a1.canRead hr
      have hs' : s < f.numStates := ka6 ▸ hs
      have h0 : t.labelOn side ≠ EPS := fun h0 => hl (by rw [e, h0, a1.eps])
      unfold reachLabel intervalSet
      rw [if_neg hl, if_pos (by rw [hI.nIsets]; exact hs')]
      have := (C44_member _ (hI.norm s hs') (r2.1.look (t.labelOn side))).2 ((hI.mem_look hs' h0 (h.noLabel1 q t ht).ne (a2 q t ht h0)).2 hc)
      simp only [e, this]
    · have hs' : s < f.numStates := ka6 ▸ hs
      unfold reachFinal intervalSet
      rw [if_pos (by rw [hI.nIsets]; exact hs')]
      have := (C44_member _ (hI.norm s hs') r2.1.finalLabel).2 ((hI.final hs').2 (a1.canEnd he))
      simp only [this]
  · cases side <;> exact fl2
  · intro s t' ht' e'
    obtain ⟨t, ht, e, -⟩ := a1.mem ht'
    by_cases h0 : t.labelOn side = EPS
    · rw [e', h0, a1.eps] at e; exact absurd e (by decide)
    · have := hK.bound hI (a2 s t ht h0)
      omega
  · intro s t' ht' e'
    obtain ⟨t, ht, e, -⟩ := b1.mem ht'
    by_cases h0 : t.labelOn (!side) = EPS
    · rw [e', h0, b1.eps] at e; exact absurd e (by decide)
    · have := hK.bound hI (b2 s t ht h0)
      omega

theorem Relabelled.lookedAt {side : Bool} {f g f' g' : Fst W} {D : LabelReachableData} {num : Label → Label} (h : Relabelled side f g f' g' D num) :
    LookedAt g' (!side) := ⟨h.true2, h.init, h.noLabel2⟩

/-- `MatcherFst::new_with_relabeling` for a matcher type that looks ahead on the output side, the second FST being relabelled on its input. -/
theorem matcherFst_out {fl : LaFlags} {f g : Fst W} (h : LookOperands false f g) (hi : fl.inputLa = false) (ho : fl.outputLa = true) {m : MatcherFst W}
    (hm : matcherFstNew fl f g true = .ok m) : ∃ D num, m.odata = some D ∧ Relabelled false f g m.fst m.other D num := by
  have e1 : laCreateData fl f true = .ok none := by simp [laCreateData, hi]
  simp only [matcherFstNew, e1] at hm
  cases hc : computeData f false with
  | error e => simp [laCreateData, ho, hc] at hm
  | ok d =>
    simp only [laCreateData, ho, hc, Bool.not_false, Bool.and_true, Bool.false_and, Bool.false_or, Bool.true_and, if_true, Except.ok.injEq] at hm
    subst hm
    obtain ⟨num, hn⟩ := relabelled h hc
    exact ⟨_, num, rfl, hn⟩

/-- The same for the input side. -/
theorem matcherFst_in {fl : LaFlags} {f g : Fst W} (h : LookOperands true f g) (hi : fl.inputLa = true) (ho : fl.outputLa = false) {m : MatcherFst W}
    (hm : matcherFstNew fl f g false = .ok m) : ∃ D num, m.idata = some D ∧ Relabelled true f g m.fst m.other D num := by
  have e1 : laCreateData fl f false = .ok none := by simp [laCreateData, ho]
  simp only [matcherFstNew, e1] at hm
  cases hc : computeData f true with
  | error e => simp [laCreateData, hi, hc] at hm
  | ok d =>
    simp only [laCreateData, hi, hc, Bool.and_true, Bool.true_or, if_true, Except.ok.injEq] at hm
    subst hm
    obtain ⟨num, hn⟩ := relabelled h hc
    exact ⟨_, num, rfl, hn⟩

/-- When it succeeds. -/
theorem matcherFst_ok {side : Bool} {fl : LaFlags} {f g : Fst W} (h : LookOperands side f g) (hi : fl.inputLa = side) (ho : fl.outputLa = !side)
    (hz : ∀ x y, f.finOf x = some 0 → f.Silent side x y → f.Silent side y x → x = y) : ∃ m, matcherFstNew fl f g (!side) = .ok m := by
  obtain ⟨d, hd⟩ := (C66_compute f h.wf1 h.true1 h.start h.one side h.noLabel1).1 hz
  cases side <;> simp [matcherFstNew, laCreateData, hi, ho, hd]

end
end Verif
