import Verif.Lemmas.Replace
import Verif.Lemmas.LazyCompute

/-! # `replace`: the operation with its two tables computes the machine -/

set_option linter.unusedSectionVars false

namespace Verif
universe u
variable {W : Type u}

namespace RTables

/-- The configuration with a number. -/
def name (σ : RTables) (s : StateId) : Option RCfg :=
  match σ.tuples.tup s with
  | none => none
  | some t => (σ.prefixes.tup t.prefixId).map fun st => ⟨st, t.fst, t.state⟩

/-- The tables are consistent, and number 0 is the empty stack. -/
structure Base (σ : RTables) : Prop where
  pre : σ.prefixes.Ok
  tup : σ.tuples.Ok
  pref : ∀ s t, σ.tuples.tup s = some t → ∃ st, σ.prefixes.tup t.prefixId = some st
  zero : ∀ p st, σ.prefixes.tup p = some st → (p = 0 ↔ st = [])

/-- Nothing is forgotten. -/
structure Le (σ σ' : RTables) : Prop where
  pre : ∀ p st, σ.prefixes.tup p = some st → σ'.prefixes.tup p = some st
  tup : ∀ s t, σ.tuples.tup s = some t → σ'.tuples.tup s = some t

/-- The only new numbers are `ps`. -/
def Only (σ σ' : RTables) (ps : StateId → Prop) : Prop := ∀ p, (σ'.tuples.tup p).isSome → (σ.tuples.tup p).isSome ∨ ps p

theorem Le.refl (σ : RTables) : Le σ σ := ⟨fun _ _ h => h, fun _ _ h => h⟩
theorem Le.trans {a b c : RTables} (h : Le a b) (h' : Le b c) : Le a c := ⟨fun p st e => h'.pre p st (h.pre p st e), fun s t e => h'.tup s t (h.tup s t e)⟩

theorem Le.name {σ σ' : RTables} (h : Le σ σ') {s c} (e : σ.name s = some c) : σ'.name s = some c := by
  unfold RTables.name at e ⊢
  cases ht : σ.tuples.tup s with
  | none => rw [ht] at e; cases e
  | some t =>
    rw [ht] at e
    rw [h.tup s t ht]
    cases hp : σ.prefixes.tup t.prefixId with
    | none => simp [hp] at e
    | some st => simp only [h.pre _ st hp]; simpa [hp] using e

theorem name_of {σ : RTables} {s t st} (h : σ.tuples.tup s = some t) (h' : σ.prefixes.tup t.prefixId = some st) :
    σ.name s = some ⟨st, t.fst, t.state⟩ := by simp [RTables.name, h, h']

theorem of_name {σ : RTables} {s c} (h : σ.name s = some c) :
    ∃ t, σ.tuples.tup s = some t ∧ σ.prefixes.tup t.prefixId = some c.stack ∧ c = ⟨c.stack, t.fst, t.state⟩ := by
  unfold RTables.name at h
  cases ht : σ.tuples.tup s with
  | none => rw [ht] at h; cases h
  | some t =>
    rw [ht] at h
    simp only [Option.map_eq_some_iff] at h
    obtain ⟨st, h1, rfl⟩ := h
    exact ⟨t, rfl, h1, rfl⟩

theorem Base.isSome {σ : RTables} (h : Base σ) (s) : (σ.name s).isSome ↔ (σ.tuples.tup s).isSome := by
  unfold RTables.name
  cases ht : σ.tuples.tup s with
  | none => simp
  | some t => obtain ⟨st, hst⟩ := h.pref s t ht; simp [hst]

theorem Base.one {σ : RTables} (h : Base σ) : OneName σ.name := by
  intro a b c ha hb
  obtain ⟨t, h1, h2, h3⟩ := of_name ha
  obtain ⟨t', h1', h2', h3'⟩ := of_name hb
  have hp : t.prefixId = t'.prefixId := BiMap.law.inj _ h.pre _ _ _ h2 h2'
  have : t = t' := by
    rw [h3] at h3'
    injection h3' with _ e1 e2
    cases t; cases t'
    simp only at hp e1 e2
    rw [hp, e1, e2]
  subst this
  exact BiMap.law.inj _ h.tup _ _ _ h1 h1'

theorem base_new : Base RTables.new where
  pre := BiMap.ok_new
  tup := BiMap.ok_new
  pref s t h := by simp [RTables.new, BiMap.tup, BiMap.new] at h
  zero p st h := by simp [RTables.new, BiMap.tup, BiMap.new] at h

theorem prefixId_spec {σ : RTables} (h : Base σ) (st : List RFrame) (h0 : σ.prefixes.tup 0 = some [] ∨ st = []) :
    Base (σ.prefixId st).2 ∧ Le σ (σ.prefixId st).2 ∧ (σ.prefixId st).2.prefixes.tup (σ.prefixId st).1 = some st ∧
      (σ.prefixId st).2.tuples = σ.tuples := by
  have hm := BiMap.law.mono σ.prefixes h.pre st
  have hf := BiMap.law.found σ.prefixes h.pre st
  have hk := BiMap.law.keep σ.prefixes h.pre st
  refine ⟨⟨hk, h.tup, ?_, ?_⟩, ⟨hm, fun _ _ e => e⟩, hf, rfl⟩
  · intro s t e
    obtain ⟨st', e'⟩ := h.pref s t e
    exact ⟨st', hm _ _ e'⟩
  · intro p st' e
    have e' : (σ.prefixes.findId st).2.tup p = some st' := e
    rcases find_tight BiMap.law h.pre st p (by rw [e']; rfl) with h1 | h1
    · obtain ⟨st'', h2⟩ := Option.isSome_iff_exists.1 h1
      have : st'' = st' := by
        have := hm _ _ h2
        rw [e'] at this
        exact (Option.some.inj this).symm
      subst this
      exact h.zero p st'' h2
    · subst h1
      have : st' = st := by rw [hf] at e'; exact (Option.some.inj e').symm
      subst this
      constructor
      · intro hp
        rcases h0 with h0 | h0
        · have := hm _ _ h0
          rw [← hp, hf] at this
          exact Option.some.inj this
        · exact h0
      · intro hst
        subst hst
        by_cases hz : σ.prefixes.ofId.length = 0
        · rcases BiMap.law.grow σ.prefixes h.pre [] with g | ⟨_, g⟩
          · have hd := (BiMap.law.dense _ hk (σ.prefixes.findId []).1).2 (by rw [hf]; rfl)
            omega
          · omega
        · have : (σ.prefixes.tup 0).isSome := (BiMap.law.dense _ h.pre 0).1 (by omega)
          obtain ⟨x, hx⟩ := Option.isSome_iff_exists.1 this
          have hx' := (h.zero 0 x hx).1 rfl
          subst hx'
          exact BiMap.law.again h.pre hx

theorem tupleId_spec {σ : RTables} (h : Base σ) (t : RTuple) {st} (hp : σ.prefixes.tup t.prefixId = some st) :
    Base (σ.tupleId t).2 ∧ Le σ (σ.tupleId t).2 ∧ (σ.tupleId t).2.name (σ.tupleId t).1 = some ⟨st, t.fst, t.state⟩ ∧
      Only σ (σ.tupleId t).2 (fun p => p = (σ.tupleId t).1) := by
  have hm := BiMap.law.mono σ.tuples h.tup t
  have hf := BiMap.law.found σ.tuples h.tup t
  have hk := BiMap.law.keep σ.tuples h.tup t
  have ht := fun p => find_tight BiMap.law h.tup t p
  refine ⟨⟨h.pre, hk, ?_, h.zero⟩, ⟨fun _ _ e => e, hm⟩, name_of hf hp, ht⟩
  intro s u e
  have e' : (σ.tuples.findId t).2.tup s = some u := e
  rcases ht s (by rw [e']; rfl) with h1 | h1
  · obtain ⟨u', h2⟩ := Option.isSome_iff_exists.1 h1
    have : u' = u := by
      have := hm _ _ h2
      rw [e'] at this
      exact (Option.some.inj this).symm
    subst this
    exact h.pref s u' h2
  · subst h1
    rw [hf] at e'
    cases e'
    exact ⟨st, hp⟩

end RTables

open RTables

namespace RGrammar

/-- The FST with a number; an empty one if there is none. -/
def fstAt (g : RGrammar W) (i : Nat) : Fst W := (g.fsts[i]?).getD ⟨[], none, fun _ => false⟩

/-- The network of a grammar. -/
def net (g : RGrammar W) : RNet W where
  fst := g.fstAt
  callee tr := if tr.olabel = EPS then none else hashGet g.hash tr.olabel
  callIn tr := if g.callType.epsIn then 0 else tr.ilabel
  callOut tr := if g.callType.epsOut then 0 else g.callOut.getD tr.olabel
  retIn := if g.retType.epsIn then EPS else g.retLabel
  retOut := if g.retType.epsOut then 0 else g.retLabel
  root := g.root

/-- Names lead to FSTs, and the FSTs are well formed. -/
structure Ok (g : RGrammar W) : Prop where
  hash : ∀ l j, hashGet g.hash l = some j → l ∈ g.labels ∧ j < g.fsts.length
  root : g.root < g.fsts.length
  labels : g.labels ≠ []
  wf : ∀ f ∈ g.fsts, f.WF

/-- A frame, or the current position, exists. -/
def Pos (g : RGrammar W) (i : Nat) (s : StateId) : Prop := i < g.fsts.length ∧ s < (g.fstAt i).numStates

def Valid (g : RGrammar W) (c : RCfg) : Prop := g.Pos c.fst c.state ∧ ∀ fr ∈ c.stack, g.Pos fr.fst fr.state

theorem fst_eq {g : RGrammar W} {i} (h : i < g.fsts.length) : g.fst i = .ok (g.fstAt i) := by
  unfold fst fstAt
  rw [List.getElem?_eq_getElem h]
  rfl

theorem Ok.fstWF {g : RGrammar W} (h : g.Ok) (i : Nat) (hi : i < g.fsts.length) : (g.fstAt i).WF := by
  unfold fstAt
  rw [List.getElem?_eq_getElem hi]
  exact h.wf _ (List.getElem_mem hi)

section
variable [Zero W] [DecidableEq W] {g : RGrammar W}

theorem reach_valid (hg : g.Ok) {c : RCfg} (h : g.net.machine.Reach c) : g.Valid c := by
  induction h with
  | start h =>
    simp only [RNet.machine, net, Option.map_eq_some_iff] at h
    obtain ⟨s, h1, rfl⟩ := h
    exact ⟨⟨hg.root, (hg.fstWF _ hg.root).start_lt s h1⟩, by simp⟩
  | @step c a _ ha ih =>
    rw [RNet.machine_trs, List.mem_append] at ha
    rcases ha with ha | ha
    · unfold RNet.retTr at ha
      cases hs : c.stack with
      | nil => simp [hs] at ha
      | cons fr st =>
        cases hf : (g.net.fst c.fst).finOf c.state with
        | none => simp [hs, hf] at ha
        | some w =>
          by_cases hw : w = 0
          · simp [hs, hf, hw] at ha
          · simp only [hs, hf, hw, if_false, List.mem_singleton] at ha
            subst ha
            exact ⟨ih.2 fr (by rw [hs]; simp), fun x hx => ih.2 x (by rw [hs]; simp [hx])⟩
    · rw [List.mem_flatMap] at ha
      obtain ⟨tr, htr, ha⟩ := ha
      have hn : tr.nextstate < (g.fstAt c.fst).numStates := (hg.fstWF _ ih.1.1).next_lt c.state tr htr
      unfold RNet.stepTr at ha
      cases hc : g.net.callee tr with
      | none =>
        simp only [hc, List.mem_singleton] at ha
        subst ha
        exact ⟨⟨ih.1.1, hn⟩, ih.2⟩
      | some j =>
        cases hq : (g.net.fst j).start with
        | none => simp [hc, hq] at ha
        | some q =>
          simp only [hc, hq, List.mem_singleton] at ha
          subst ha
          have hj : j < g.fsts.length := by
            simp only [net] at hc
            by_cases he : tr.olabel = EPS
            · simp [he] at hc
            · rw [if_neg he] at hc
              exact (hg.hash _ _ hc).2
          refine ⟨⟨hj, (hg.fstWF _ hj).start_lt q hq⟩, ?_⟩
          intro x hx
          rcases List.mem_cons.1 hx with rfl | hx
          · exact ⟨ih.1.1, hn⟩
          · exact ih.2 x hx

/-- What a step of the computation does to the tables and returns. -/
def Steps (σ : RTables) (r : List (Tr W)) (σ' : RTables) (as : List (MTr RCfg W)) : Prop :=
  Base σ' ∧ Le σ σ' ∧ List.Forall₂ (Names σ'.name) r as ∧ Only σ σ' (fun p => ∃ tr ∈ r, tr.nextstate = p)

theorem zero_mem {σ : RTables} (h : Base σ) {p st} (hp : σ.prefixes.tup p = some st) : σ.prefixes.tup 0 = some [] := by
  have : (σ.prefixes.tup 0).isSome := (BiMap.law.dense _ h.pre 0).1 (Nat.lt_of_le_of_lt (Nat.zero_le p)
    ((BiMap.law.dense _ h.pre p).2 (by rw [hp]; rfl)))
  obtain ⟨x, hx⟩ := Option.isSome_iff_exists.1 this
  rw [hx, (h.zero 0 x hx).1 rfl]

theorem finalTr_spec {σ : RTables} (hb : Base σ) {t : RTuple} {st} (hp : σ.prefixes.tup t.prefixId = some st)
    (hv : g.Pos t.fst t.state) : ∃ o σ', g.computeFinalTr t σ = (.ok o, σ') ∧ Steps σ o.toList σ' (g.net.retTr ⟨st, t.fst, t.state⟩) := by
  obtain ⟨s, hs⟩ : ∃ s, (g.fstAt t.fst).states[t.state]? = some s := ⟨_, List.getElem?_eq_getElem hv.2⟩
  have hfin : (g.net.fst t.fst).finOf t.state = s.fin := by simp [net, Fst.finOf, hs]
  have triv : Steps σ ([] : List (Tr W)) σ ([] : List (MTr RCfg W)) := ⟨hb, Le.refl σ, .nil, fun p h => .inl h⟩
  unfold computeFinalTr
  obtain ⟨b, hb1, hb2⟩ : ∃ b, (g.fstAt t.fst).isFinalR t.state = .ok b ∧ (b = true ↔ ∃ w, s.fin = some w ∧ w ≠ 0) := by
    unfold Fst.isFinalR
    rw [hs]
    refine ⟨_, rfl, ?_⟩
    cases s.fin with
    | none => simp
    | some w => simp [isZeroW]
  simp only [fst_eq hv.1, hb1]
  by_cases hc : t.prefixId > 0 ∧ ∃ w, s.fin = some w ∧ w ≠ 0
  · obtain ⟨hpos, w, hw, hw0⟩ := hc
    have hst : st ≠ [] := fun e => by have := (hb.zero _ st hp).2 e; omega
    obtain ⟨fr, rest, rfl⟩ : ∃ fr rest, st = fr :: rest := by
      cases st with
      | nil => exact absurd rfl hst
      | cons fr rest => exact ⟨fr, rest, rfl⟩
    have hcond : (b && decide (t.prefixId > 0)) = true := by
      rw [hb2.2 ⟨w, hw, hw0⟩]; simp [hpos]
    rw [if_pos hcond, (BiMap.findTuple_eq _ _ _).2 hp]
    obtain ⟨b1, l1, p1, q1⟩ := prefixId_spec hb rest (.inl (zero_mem hb hp))
    obtain ⟨b2, l2, n2, o2⟩ := tupleId_spec b1 ⟨(σ.prefixId rest).1, fr.fst, fr.state⟩ p1
    simp only [Fst.finalWeightR, hs, hw]
    refine ⟨_, _, rfl, b2, l1.trans l2, ?_, ?_⟩
    · have : g.net.retTr ⟨fr :: rest, t.fst, t.state⟩ = [⟨g.net.retIn, g.net.retOut, w, ⟨rest, fr.fst, fr.state⟩⟩] := by
        unfold RNet.retTr
        rw [hfin, hw]
        simp [hw0]
      rw [this]
      exact .cons ⟨rfl, rfl, rfl, n2⟩ .nil
    · intro p h
      rcases o2 p h with h | h
      · rw [q1] at h; exact .inl h
      · exact .inr ⟨_, List.mem_singleton.2 rfl, h.symm⟩
  · have hcond : ¬ (b && decide (t.prefixId > 0)) = true := by
      intro h
      rw [Bool.and_eq_true] at h
      exact hc ⟨by simpa using h.2, hb2.1 h.1⟩
    rw [if_neg hcond]
    refine ⟨none, σ, rfl, ?_⟩
    have : g.net.retTr ⟨st, t.fst, t.state⟩ = [] := by
      unfold RNet.retTr
      rw [hfin]
      cases st with
      | nil => rfl
      | cons fr rest =>
        have hpos : t.prefixId > 0 := by
          rcases Nat.eq_zero_or_pos t.prefixId with e | e
          · have := (hb.zero _ _ hp).1 e; cases this
          · exact e
        cases hw : s.fin with
        | none => rfl
        | some w =>
          by_cases h0 : w = 0
          · simp [h0]
          · exact absurd ⟨hpos, w, hw, h0⟩ hc
    rw [this]
    exact triv

theorem labels_bounds {ls : List Label} (h : ls ≠ []) : ∃ lo hi, ls.min? = some lo ∧ ls.max? = some hi ∧ ∀ l ∈ ls, lo ≤ l ∧ l ≤ hi := by
  cases hlo : ls.min? with
  | none => exact absurd (List.min?_eq_none_iff.1 hlo) h
  | some lo =>
    cases hhi : ls.max? with
    | none => exact absurd (List.max?_eq_none_iff.1 hhi) h
    | some hi =>
      refine ⟨lo, hi, rfl, rfl, fun l hl => ⟨?_, ?_⟩⟩
      · exact (List.min?_eq_some_iff.1 hlo).2 l hl
      · exact (List.max?_eq_some_iff.1 hhi).2 l hl

theorem tr_spec (hg : g.Ok) {σ : RTables} (hb : Base σ) {t : RTuple} {st} (hp : σ.prefixes.tup t.prefixId = some st) (tr : Tr W) :
    ∃ o σ', g.computeTr t tr σ = (.ok o, σ') ∧ Steps σ o.toList σ' (g.net.stepTr ⟨st, t.fst, t.state⟩ tr) := by
  obtain ⟨lo, hi, hlo, hhi, hbd⟩ := labels_bounds hg.labels
  have plain : Steps σ [⟨tr.ilabel, tr.olabel, tr.weight, (σ.tupleId ⟨t.prefixId, t.fst, tr.nextstate⟩).1⟩]
      (σ.tupleId ⟨t.prefixId, t.fst, tr.nextstate⟩).2 [⟨tr.ilabel, tr.olabel, tr.weight, ⟨st, t.fst, tr.nextstate⟩⟩] := by
    obtain ⟨b, l, n, o⟩ := tupleId_spec hb ⟨t.prefixId, t.fst, tr.nextstate⟩ hp
    refine ⟨b, l, .cons ⟨rfl, rfl, rfl, n⟩ .nil, fun p h => ?_⟩
    rcases o p h with h | h
    · exact .inl h
    · exact .inr ⟨_, List.mem_singleton.2 rfl, h.symm⟩
  unfold computeTr RNet.stepTr
  simp only [hlo, hhi]
  by_cases hx : tr.olabel = EPS ∨ tr.olabel < lo ∨ tr.olabel > hi
  · have hc : g.net.callee tr = none := by
      simp only [net]
      by_cases he : tr.olabel = EPS
      · simp [he]
      · rw [if_neg he]
        cases hh : hashGet g.hash tr.olabel with
        | none => rfl
        | some j =>
          have := hbd _ (hg.hash _ _ hh).1
          omega
    rw [if_pos hx, hc]
    exact ⟨_, _, rfl, plain⟩
  · rw [if_neg hx]
    have hc : g.net.callee tr = hashGet g.hash tr.olabel := by
      simp only [net]
      rw [if_neg (fun h => hx (.inl h))]
    rw [hc]
    cases hh : hashGet g.hash tr.olabel with
    | none => exact ⟨_, _, rfl, plain⟩
    | some j =>
      have hj := (hg.hash _ _ hh).2
      simp only [(BiMap.findTuple_eq _ _ _).2 hp, fst_eq hj]
      obtain ⟨b1, l1, p1, q1⟩ := prefixId_spec hb (⟨t.fst, tr.nextstate⟩ :: st) (.inl (zero_mem hb hp))
      have hn : (g.net.fst j).start = (g.fstAt j).start := rfl
      rw [hn]
      cases hs : (g.fstAt j).start with
      | none =>
        refine ⟨none, _, rfl, b1, l1, .nil, fun p h => ?_⟩
        rw [q1] at h
        exact .inl h
      | some q =>
        obtain ⟨b2, l2, n2, o2⟩ := tupleId_spec b1 ⟨(σ.prefixId (⟨t.fst, tr.nextstate⟩ :: st)).1, j, q⟩ p1
        refine ⟨_, _, rfl, b2, l1.trans l2, .cons ⟨rfl, rfl, rfl, n2⟩ .nil, fun p h => ?_⟩
        rcases o2 p h with h | h
        · rw [q1] at h; exact .inl h
        · exact .inr ⟨_, List.mem_singleton.2 rfl, h.symm⟩

theorem names_mono {σ σ' : RTables} (h : Le σ σ') {l : List (Tr W)} {as : List (MTr RCfg W)} (hl : List.Forall₂ (Names σ.name) l as) :
    List.Forall₂ (Names σ'.name) l as := by
  induction hl with
  | nil => exact .nil
  | cons hd _ ih => exact .cons ⟨hd.1, hd.2.1, hd.2.2.1, h.name hd.2.2.2⟩ ih

theorem forall₂_append {α β : Type*} {R : α → β → Prop} {a b : List α} {c d : List β} (h : List.Forall₂ R a c) (h' : List.Forall₂ R b d) :
    List.Forall₂ R (a ++ b) (c ++ d) := by
  induction h with
  | nil => exact h'
  | cons hd _ ih => exact .cons hd ih

theorem Steps.append {σ σ' σ'' : RTables} {l l' : List (Tr W)} {as as' : List (MTr RCfg W)} (h : Steps σ l σ' as) (h' : Steps σ' l' σ'' as') :
    Steps σ (l ++ l') σ'' (as ++ as') := by
  refine ⟨h'.1, h.2.1.trans h'.2.1, forall₂_append (names_mono h'.2.1 h.2.2.1) h'.2.2.1, fun p hp => ?_⟩
  rcases h'.2.2.2 p hp with hp | ⟨tr, h1, h2⟩
  · rcases h.2.2.2 p hp with hp | ⟨tr, h1, h2⟩
    · exact .inl hp
    · exact .inr ⟨tr, List.mem_append_left _ h1, h2⟩
  · exact .inr ⟨tr, List.mem_append_right _ h1, h2⟩

theorem rest_spec (hg : g.Ok) {t : RTuple} {st} : ∀ (l : List (Tr W)) (σ : RTables), Base σ → σ.prefixes.tup t.prefixId = some st →
    ∃ r σ', g.computeRest t l σ = (.ok r, σ') ∧ Steps σ r σ' (l.flatMap (g.net.stepTr ⟨st, t.fst, t.state⟩)) := by
  intro l
  induction l with
  | nil => intro σ hb _; exact ⟨[], σ, rfl, hb, Le.refl σ, .nil, fun p h => .inl h⟩
  | cons tr l ih =>
    intro σ hb hp
    obtain ⟨o, σ1, h1, h2⟩ := tr_spec hg hb hp tr
    obtain ⟨r, σ2, h3, h4⟩ := ih σ1 h2.1 (h2.2.1.pre _ _ hp)
    refine ⟨o.toList ++ r, σ2, ?_, ?_⟩
    · simp only [computeRest, h1, h3]
    · rw [List.flatMap_cons]
      exact h2.append h4

theorem trs_spec (hg : g.Ok) {σ : RTables} (hb : Base σ) {s : StateId} {c : RCfg} (hn : σ.name s = some c) (hv : g.Valid c) :
    ∃ r σ', g.computeTrs s σ = (.ok r, σ') ∧ Steps σ r σ' (g.net.machine.trs c) := by
  obtain ⟨t, h1, h2, h3⟩ := of_name hn
  obtain ⟨st, i, q⟩ := c
  injection h3 with _ e1 e2
  simp only at e1 e2 h2 hv
  subst e1 e2
  obtain ⟨o, σ1, h4, h5⟩ := finalTr_spec (g := g) hb h2 hv.1
  obtain ⟨r, σ2, h6, h7⟩ := rest_spec hg ((g.fstAt t.fst).trsOf t.state) σ1 h5.1 (h5.2.1.pre _ _ h2)
  have hgt : (g.fstAt t.fst).getTrsR t.state = .ok ((g.fstAt t.fst).trsOf t.state) := by
    unfold Fst.getTrsR Fst.trsOf
    rw [List.getElem?_eq_getElem hv.1.2]
  refine ⟨o.toList ++ r, σ2, ?_, ?_⟩
  · simp only [computeTrs, (BiMap.findTuple_eq _ _ _).2 h1, h4, fst_eq hv.1.1, hgt, h6]
  · rw [RNet.machine_trs]
    exact h5.append h7

theorem start_spec (hg : g.Ok) {σ : RTables} (hb : Base σ) : ∃ r σ', g.computeStart σ = (.ok r, σ') ∧ Base σ' ∧ Le σ σ' ∧
    Option.Rel (fun s c => σ'.name s = some c) r g.net.machine.start ∧ Only σ σ' (fun p => r = some p) := by
  have hne : g.fsts.isEmpty = false := by
    have := hg.root
    cases h : g.fsts with
    | nil => rw [h] at this; simp at this
    | cons => rfl
  unfold computeStart
  rw [if_neg (by simp [hne])]
  simp only [fst_eq hg.root, RNet.machine, net]
  cases hs : (g.fstAt g.root).start with
  | none => exact ⟨none, σ, rfl, hb, Le.refl σ, .none, fun p h => .inl h⟩
  | some s =>
    obtain ⟨b1, l1, p1, q1⟩ := prefixId_spec hb [] (.inr rfl)
    obtain ⟨b2, l2, n2, o2⟩ := tupleId_spec b1 ⟨(σ.prefixId []).1, g.root, s⟩ p1
    refine ⟨_, _, rfl, b2, l1.trans l2, .some n2, fun p h => ?_⟩
    rcases o2 p h with h | h
    · rw [q1] at h; exact .inl h
    · exact .inr (by rw [h])

theorem final_spec {σ : RTables} (hb : Base σ) {s : StateId} {c : RCfg} (hn : σ.name s = some c) (hv : g.Valid c) :
    g.computeFinal s σ = (.ok (g.net.machine.fin c), σ) := by
  obtain ⟨t, h1, h2, h3⟩ := of_name hn
  obtain ⟨st, i, q⟩ := c
  injection h3 with _ e1 e2
  simp only at e1 e2 h2 hv
  subst e1 e2
  have hf : (g.fstAt t.fst).finalWeightR t.state = .ok ((g.fstAt t.fst).finOf t.state) := by
    unfold Fst.finalWeightR Fst.finOf
    rw [List.getElem?_eq_getElem hv.1.2]
  simp only [computeFinal, (BiMap.findTuple_eq _ _ _).2 h1, RNet.machine, fst_eq hv.1.1, hf]
  by_cases h0 : t.prefixId = 0
  · rw [if_pos h0, if_pos ((hb.zero _ _ h2).1 h0)]; rfl
  · rw [if_neg h0, if_neg (fun e => h0 ((hb.zero _ _ h2).2 e))]

/-- The invariant of the tables. -/
def RInv (g : RGrammar W) (σ : RTables) : Prop := Base σ ∧ ∀ s c, σ.name s = some c → g.net.machine.Reach c

theorem op_law (hg : g.Ok) : OpLaw g.op g.net.machine RTables.name (RInv g) where
  one o ho := ho.1.one
  reach o ho := ho.2
  start o ho := by
    obtain ⟨r, σ', h1, h2, h3, h4, h5⟩ := start_spec hg ho.1
    simp only [op, h1]
    refine ⟨⟨h2, fun s c hs => ?_⟩, fun s t h => h3.name h, r, rfl, h4⟩
    rcases h5 s ((h2.isSome s).1 (by rw [hs]; rfl)) with h | h
    · obtain ⟨c', hc'⟩ := Option.isSome_iff_exists.1 ((ho.1.isSome s).2 h)
      have := h3.name hc'
      rw [hs] at this
      cases this
      exact ho.2 s c hc'
    · subst h
      revert h4
      cases hm : g.net.machine.start with
      | none => intro h4; cases h4
      | some c' =>
        intro h4
        cases h4 with
        | some h4 =>
          rw [hs] at h4
          cases h4
          exact .start hm
  trs o ho s t hs := by
    have hr := ho.2 s t hs
    obtain ⟨r, σ', h1, h2, h3, h4, h5⟩ := trs_spec hg ho.1 hs (reach_valid hg hr)
    simp only [op, h1]
    refine ⟨⟨h2, fun p c hp => ?_⟩, fun s t h => h3.name h, r, rfl, h4⟩
    rcases h5 p ((h2.isSome p).1 (by rw [hp]; rfl)) with h | ⟨tr, htr, rfl⟩
    · obtain ⟨c', hc'⟩ := Option.isSome_iff_exists.1 ((ho.1.isSome p).2 h)
      have := h3.name hc'
      rw [hp] at this
      cases this
      exact ho.2 p c hc'
    · have : ∀ l as, List.Forall₂ (Names σ'.name) l as → tr ∈ l → ∃ a ∈ as, Names σ'.name tr a := by
        intro l as hl
        induction hl with
        | nil => intro h; cases h
        | cons hd _ ih =>
          intro h
          rcases List.mem_cons.1 h with rfl | h
          · exact ⟨_, List.mem_cons_self .., hd⟩
          · obtain ⟨a, ha, hn⟩ := ih h
            exact ⟨a, List.mem_cons_of_mem _ ha, hn⟩
      obtain ⟨a, ha, hn⟩ := this _ _ h4 htr
      have := hn.2.2.2
      rw [hp] at this
      cases this
      exact .step hr ha
  fin o ho s t hs := by
    simp only [op, final_spec ho.1 hs (reach_valid hg (ho.2 s t hs))]
    exact ⟨ho, fun _ _ h => h, trivial⟩

theorem op_tight (hg : g.Ok) : TightOp g.op RTables.name (RInv g) where
  start o ho p hp := by
    obtain ⟨r, σ', h1, h2, h3, h4, h5⟩ := start_spec hg ho.1
    simp only [op, h1] at hp ⊢
    rcases h5 p ((h2.isSome p).1 hp) with h | h
    · exact .inl ((ho.1.isSome p).2 h)
    · exact .inr (by rw [h])
  trs o ho s hs p hp := by
    obtain ⟨c, hc⟩ := Option.isSome_iff_exists.1 hs
    obtain ⟨r, σ', h1, h2, h3, h4, h5⟩ := trs_spec hg ho.1 hc (reach_valid hg (ho.2 s c hc))
    simp only [op, h1] at hp ⊢
    rcases h5 p ((h2.isSome p).1 hp) with h | h
    · exact .inl ((ho.1.isSome p).2 h)
    · exact .inr ⟨r, rfl, h⟩
  fin o ho s hs p hp := by
    obtain ⟨c, hc⟩ := Option.isSome_iff_exists.1 hs
    simp only [op, final_spec ho.1 hc (reach_valid hg (ho.2 s c hc))] at hp
    exact hp

theorem op_dense : Lz.Dense RTables.name (RInv g) := by
  intro σ hσ s s' hs h
  rw [hσ.1.isSome] at h ⊢
  exact (BiMap.law.dense _ hσ.1.tup s').1 (Nat.lt_of_le_of_lt hs ((BiMap.law.dense _ hσ.1.tup s).2 h))

theorem name_new (s : StateId) : RTables.new.name s = none := by simp [RTables.name, RTables.new, BiMap.tup, BiMap.new]

theorem rinv_new : RInv g RTables.new := ⟨base_new, fun s c h => by rw [name_new] at h; cases h⟩

end
end RGrammar
end Verif
