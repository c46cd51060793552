import Verif.Lemmas.ReachLabel
import Verif.Spec.Reachable
import Verif.Props.C23

/-!
# `LabelReachable`: what its data say
-/

namespace Verif
universe u
variable {W : Type u} [Zero W] [One W] [DecidableEq W]
open Dfs ReachV RedirSt LabelReachable

theorem computeAndUpdate_acyclic [Add W] (f : Fst W) (hw : f.WF) (tf : f.Truthful) (hs : f.start ≠ none) :
    ∃ g p, f.computeAndUpdate (Props.of [.acyclic]) = .ok (g, p) ∧ g.states = f.states ∧ g.start = f.start ∧
      g.props.knows (Props.of [.acyclic]) = true ∧ (g.props .acyclic = true ↔ f.Holds .acyclic) := by
  obtain ⟨g, p, h1, h2, h3, h4, h5, h6⟩ := C07_update f hw tf (.inl hs) (Props.of [.acyclic, .cyclic]) (fun h => absurd h (by decide))
  have e : f.props.known.containsAll (Props.of [.acyclic]) = f.props.known.containsAll (Props.of [.acyclic, .cyclic]) := by
    have : f.props.known .cyclic = f.props.known .acyclic := by simp only [Props.known, PropBit.neg]; exact Bool.or_comm _ _
    simp [Props.containsAll, PropBit.all, Props.of, this]
  have e2 : f.computeProps (Props.of [.acyclic]) true = f.computeProps (Props.of [.acyclic, .cyclic]) true := by
    unfold Fst.computeProps
    rw [e, show (Props.of [.acyclic]).needsVisit = (Props.of [.acyclic, .cyclic]).needsVisit by decide,
      show (Props.of [.acyclic]).needsScan = false by decide, show (Props.of [.acyclic, .cyclic]).needsScan = false by decide]
    rfl
  unfold Fst.computeAndUpdate at h1 ⊢
  rw [e2]
  cases hc : f.computeProps (Props.of [.acyclic, .cyclic]) true with
  | error e => rw [hc] at h1; cases h1
  | ok r =>
    rw [hc] at h1
    simp only [Except.ok.injEq, Prod.mk.injEq] at h1
    refine ⟨_, _, rfl, ?_⟩
    rw [h1.1]
    refine ⟨h3, h4, ?_, h6 _ (by decide)⟩
    have k1 := h6 .acyclic (by decide)
    have k2 := h6 .cyclic (by decide)
    unfold Props.knows Props.containsAll
    rw [List.all_eq_true]
    intro b _
    cases b <;> simp [Props.of, Props.known, PropBit.neg]
    by_cases hh : f.Holds .acyclic
    · exact .inl (k1.2 hh)
    · refine .inr (k2.2 ?_)
      simp only [Fst.Holds] at hh ⊢
      exact not_not.1 hh

/-- What label `l` stands for: `NO_LABEL` for the end of a path. -/
def Goes (f : Fst W) (input : Bool) (s : StateId) (l : Label) : Prop := if l = NO_LABEL then f.CanEnd input s else f.CanRead input s l

/-- The data are right for `f`, and stay so when more labels are entered. -/
structure DInv (f : Fst W) (input : Bool) (d : LabelReachableData) : Prop where
  side : d.reachInput = input
  nIsets : d.nIsets = f.numStates
  keys : (d.label2index.map Prod.fst).Nodup
  noEps : EPS ∉ d.label2index.map Prod.fst
  vals : (d.label2index.map Prod.snd).Perm (List.range' 1 d.label2index.length)
  norm : ∀ s, s < f.numStates → (d.isets s).Normalized
  mem : ∀ s, s < f.numStates → ∀ m, (d.isets s).Mem m ↔ ∃ l, l ≠ EPS ∧ d.label2index.get l = some m ∧ Goes f input s l
  known : ∀ s, s < f.numStates → ∀ l, l ≠ EPS → Goes f input s l → (d.label2index.get l).isSome = true
  fin : d.label2index.get NO_LABEL = some d.finalLabel ∨
    ((∀ s, s < f.numStates → ¬ f.CanEnd input s) ∧ ∀ s, s < f.numStates → ¬ (d.isets s).Mem d.finalLabel)

section
variable {f g : Fst W} {input : Bool} {m : ReachMap}

omit [Zero W] [One W] [DecidableEq W] in
theorem Fst.Silent.lt (hw : f.WF) {s q : StateId} (h : f.Silent input s q) (hs : s < f.numStates) : q < f.numStates := by
  induction h with
  | refl => exact hs
  | tail _ hb ih =>
    obtain ⟨t, ht, -, rfl⟩ := hb
    exact hw.next_lt _ _ ht

theorem mem_finTr {s : StateId} {t : Tr W} : t ∈ finTr f m s ↔ hasFinal f s = true ∧ t.nextstate = (m.get NO_LABEL).getD 0 ∧
    ∃ w, f.finOf s = some w ∧ t = ⟨NO_LABEL, NO_LABEL, w, (m.get NO_LABEL).getD 0⟩ := by
  cases h : hasFinal f s with
  | false => rw [finTr_not h]; simp
  | true =>
    obtain ⟨w, hw, hw0⟩ := hasFinal_iff.1 h
    unfold finTr; rw [hw]; simp only [if_neg hw0, List.mem_singleton, true_and, Option.some.injEq]
    constructor
    · rintro rfl; exact ⟨rfl, w, rfl, rfl⟩
    · rintro ⟨-, w', rfl, h⟩; exact h

theorem Transformed.val (h : Transformed f input g m) {l x} (hg : m.get l = some x) : f.numStates ≤ x ∧ x < f.numStates + m.length := by
  have := List.mem_map_of_mem (f := Prod.snd) (ReachMap.get_mem hg)
  rw [h.vals, List.mem_range'_1] at this
  exact this

theorem Transformed.inj (h : Transformed f input g m) {l k x} (h1 : m.get l = some x) (h2 : m.get k = some x) : l = k := by
  have hnd : (m.map Prod.snd).Nodup := by rw [h.vals]; exact List.nodup_range'
  have := List.inj_on_of_nodup_map hnd (ReachMap.get_mem h1) (ReachMap.get_mem h2) rfl
  exact congrArg Prod.fst this

/-- The edges of the transformed FST from the states of the original. -/
theorem Transformed.edge (h : Transformed f input g m) {s q : StateId} (hs : s < f.numStates) : g.Edge s q ↔ f.SilentStep input s q ∨
    (∃ t ∈ f.trsOf s, t.labelOn input ≠ EPS ∧ m.get (t.labelOn input) = some q) ∨ (hasFinal f s = true ∧ m.get NO_LABEL = some q) := by
  unfold Fst.Edge
  rw [h.trs s hs]
  constructor
  · rintro ⟨t', ht', rfl⟩
    rw [List.mem_append, List.mem_map] at ht'
    rcases ht' with ⟨t, ht, rfl⟩ | ht'
    · by_cases he : t.labelOn input = EPS
      · refine .inl ⟨t, ht, he, ?_⟩
        unfold redir
        rw [if_pos (show LabelReachable.side input t = EPS from he)]
      · refine .inr (.inl ⟨t, ht, he, ?_⟩)
        obtain ⟨x, hx⟩ := Option.isSome_iff_exists.1 (h.labels s t ht he)
        unfold redir
        rw [if_neg (show ¬ LabelReachable.side input t = EPS from he), hx]
        exact hx
    · obtain ⟨h1, h2, -⟩ := mem_finTr.1 ht'
      obtain ⟨x, hx⟩ := Option.isSome_iff_exists.1 (h.finals s h1)
      refine .inr (.inr ⟨h1, ?_⟩)
      rw [h2, hx]; rfl
  · rintro (⟨t, ht, he, rfl⟩ | ⟨t, ht, he, hx⟩ | ⟨h1, hx⟩)
    · refine ⟨redir input m t, List.mem_append_left _ (List.mem_map_of_mem ht), ?_⟩
      unfold redir
      rw [if_pos (show LabelReachable.side input t = EPS from he)]
    · refine ⟨redir input m t, List.mem_append_left _ (List.mem_map_of_mem ht), ?_⟩
      unfold redir
      simp only
      rw [if_neg (show ¬ LabelReachable.side input t = EPS from he), show m.get (LabelReachable.side input t) = some q from hx]
      rfl
    · obtain ⟨w, hw, -⟩ := hasFinal_iff.1 h1
      refine ⟨⟨NO_LABEL, NO_LABEL, w, (m.get NO_LABEL).getD 0⟩, List.mem_append_right _ (mem_finTr.2 ⟨h1, rfl, w, hw, rfl⟩), ?_⟩
      rw [hx]; rfl

theorem Transformed.wf (h : Transformed f input g m) (hw : f.WF) : g.WF := by
  refine ⟨fun i hi => ?_, fun s t ht => ?_⟩
  · rw [h.start, Option.some.injEq] at hi
    rw [h.num]; omega
  · rw [h.num]
    have hl := Fst.lt_of_mem_trsOf ht
    rw [h.num] at hl
    by_cases h1 : s < f.numStates
    · rcases (h.edge h1).1 ⟨t, ht, rfl⟩ with ⟨t', ht', -, e⟩ | ⟨t', ht', -, e⟩ | ⟨-, e⟩
      · have := hw.next_lt _ _ ht'; rw [← e]; omega
      · have := h.val e; omega
      · have := h.val e; omega
    · by_cases h2 : s < f.numStates + m.length
      · rw [(h.ends s (by omega) h2).1] at ht; cases ht
      · have : s = f.numStates + m.length := by omega
        subst this
        have := h.first.2 t ht; omega

theorem Transformed.no_edge (h : Transformed f input g m) {s q : StateId} (h1 : f.numStates ≤ s) (h2 : s < f.numStates + m.length) : ¬ g.Edge s q := by
  rintro ⟨t, ht, -⟩
  rw [(h.ends s h1 h2).1] at ht; cases ht

theorem Transformed.reach_old (h : Transformed f input g m) (hw : f.WF) {s q : StateId} (hs : s < f.numStates) (hr : g.Reach s q) :
    (f.Silent input s q ∧ q < f.numStates) ∨ ∃ p, f.Silent input s p ∧ p < f.numStates ∧
      ((∃ t ∈ f.trsOf p, t.labelOn input ≠ EPS ∧ m.get (t.labelOn input) = some q) ∨ (hasFinal f p = true ∧ m.get NO_LABEL = some q)) := by
  induction hr with
  | refl => exact .inl ⟨.refl, hs⟩
  | @tail b c hb hc ih =>
    rcases ih with ⟨i1, i2⟩ | ⟨p, i1, i2, i3⟩
    · rcases (h.edge i2).1 hc with he | he | he
      · have : f.Silent input s c := i1.tail he
        exact .inl ⟨this, this.lt hw hs⟩
      · exact .inr ⟨b, i1, i2, .inl he⟩
      · exact .inr ⟨b, i1, i2, .inr he⟩
    · exfalso
      have : f.numStates ≤ b ∧ b < f.numStates + m.length := by
        rcases i3 with ⟨t, -, -, e⟩ | ⟨-, e⟩ <;> exact h.val e
      exact h.no_edge this.1 this.2 hc

theorem Transformed.reach_silent (h : Transformed f input g m) (hw : f.WF) {s q : StateId} (hs : s < f.numStates) (hr : f.Silent input s q) : g.Reach s q := by
  induction hr with
  | refl => exact .refl
  | @tail b c hb hc ih => exact ih.tail ((h.edge (Fst.Silent.lt hw hb hs)).2 (.inl hc))

theorem Transformed.reach_label (h : Transformed f input g m) (hw : f.WF) (hno : ∀ s, ∀ t ∈ f.trsOf s, t.labelOn input < NO_LABEL)
    {s : StateId} (hs : s < f.numStates) {l : Label} {x} (hl : l ≠ EPS) (hx : m.get l = some x) : g.Reach s x ↔ Goes f input s l := by
  have hv := h.val hx
  unfold Goes
  constructor
  · intro hr
    rcases h.reach_old hw hs hr with ⟨-, h1⟩ | ⟨p, h1, h2, h3⟩
    · omega
    · rcases h3 with ⟨t, ht, hte, e⟩ | ⟨hf, e⟩
      · have := h.inj hx e
        have := hno p t ht
        rw [if_neg (by omega)]
        exact ⟨p, h1, t, ht, by omega⟩
      · have := h.inj hx e
        rw [if_pos this]
        exact ⟨p, h1, hasFinal_iff.1 hf⟩
  · split
    · next e =>
      subst e
      rintro ⟨p, h1, hf⟩
      exact (h.reach_silent hw hs h1).tail ((h.edge (Fst.Silent.lt hw h1 hs)).2 (.inr (.inr ⟨hasFinal_iff.2 hf, hx⟩)))
    · rintro ⟨p, h1, t, ht, e⟩
      exact (h.reach_silent hw hs h1).tail ((h.edge (Fst.Silent.lt hw h1 hs)).2 (.inr (.inl ⟨t, ht, e ▸ hl, e ▸ hx⟩)))

theorem Transformed.not_start (h : Transformed f input g m) (hw : f.WF) {s : StateId} (hr : g.Reach s (f.numStates + m.length)) : s = f.numStates + m.length := by
  rcases Relation.ReflTransGen.cases_tail hr with e | ⟨b, -, t, ht, e⟩
  · exact e.symm
  · exfalso
    have hl := Fst.lt_of_mem_trsOf ht
    rw [h.num] at hl
    by_cases h1 : b < f.numStates
    · rcases (h.edge h1).1 ⟨t, ht, e⟩ with ⟨t', ht', -, e'⟩ | ⟨t', ht', -, e'⟩ | ⟨-, e'⟩
      · have := hw.next_lt _ _ ht'; omega
      · have := h.val e'; omega
      · have := h.val e'; omega
    · by_cases h2 : b < f.numStates + m.length
      · exact h.no_edge (by omega) h2 ⟨t, ht, e⟩
      · have : b = f.numStates + m.length := by omega
        subst this
        have := h.first.2 t ht; omega

/-- The only final states of the transformed FST that can lie on a cycle have the final weight zero in the original. -/
theorem Transformed.cycles (h : Transformed f input g m) (hw : f.WF) {x y : StateId} :
    (x ≠ y ∧ g.IsFinal x ∧ g.Reach x y ∧ g.Reach y x) ↔ (x ≠ y ∧ f.finOf x = some 0 ∧ f.Silent input x y ∧ f.Silent input y x) := by
  constructor
  · rintro ⟨h0, h1, h2, h3⟩
    have hxl : x < g.numStates := by
      unfold Fst.IsFinal at h1
      obtain ⟨w, hw'⟩ := Option.isSome_iff_exists.1 h1
      exact Fst.lt_of_finOf hw'
    rw [h.num] at hxl
    have hxo : x < f.numStates := by
      by_contra hc
      by_cases h4 : x < f.numStates + m.length
      · rcases Relation.ReflTransGen.cases_head h2 with e | ⟨b, hb, -⟩
        · exact h0 e
        · exact h.no_edge (by omega) h4 hb
      · have : x = f.numStates + m.length := by omega
        subst this
        unfold Fst.IsFinal at h1
        rw [h.first.1] at h1; cases h1
    have hyo : y < f.numStates := by
      rcases h.reach_old hw hxo h2 with ⟨-, h4⟩ | ⟨p, -, -, h5⟩
      · exact h4
      · exfalso
        have hv : f.numStates ≤ y ∧ y < f.numStates + m.length := by
          rcases h5 with ⟨t, -, -, e⟩ | ⟨-, e⟩ <;> exact h.val e
        rcases Relation.ReflTransGen.cases_head h3 with e | ⟨b, hb, -⟩
        · exact h0 e.symm
        · exact h.no_edge hv.1 hv.2 hb
    have hsil : ∀ {a b}, a < f.numStates → b < f.numStates → g.Reach a b → f.Silent input a b := by
      intro a b ha hb hr
      rcases h.reach_old hw ha hr with ⟨h4, -⟩ | ⟨p, -, -, h5⟩
      · exact h4
      · have hv : f.numStates ≤ b ∧ b < f.numStates + m.length := by
          rcases h5 with ⟨t, -, -, e⟩ | ⟨-, e⟩ <;> exact h.val e
        omega
    refine ⟨h0, ?_, hsil hxo hyo h2, hsil hyo hxo h3⟩
    unfold Fst.IsFinal at h1
    rw [h.fin x hxo] at h1
    split at h1
    · cases h1
    · next hf =>
      cases hfx : f.finOf x with
      | none => rw [hfx] at h1; cases h1
      | some w =>
        by_contra hw0
        exact hf (hasFinal_iff.2 ⟨w, hfx, fun e => hw0 (by rw [e])⟩)
  · rintro ⟨h0, h1, h2, h3⟩
    have hxo : x < f.numStates := Fst.lt_of_finOf h1
    have hyo := Fst.Silent.lt hw h2 hxo
    refine ⟨h0, ?_, h.reach_silent hw hxo h2, h.reach_silent hw hyo h3⟩
    unfold Fst.IsFinal
    rw [h.fin x hxo, if_neg, h1]
    · rfl
    · rw [hasFinal_iff]; rintro ⟨w, e, hw0⟩
      rw [h1, Option.some.injEq] at e
      exact hw0 e.symm

theorem ReachMap.get_map (m : ReachMap) (k : Nat → Nat) (l : Label) : ReachMap.get (m.map fun p => (p.1, k p.2)) l = (m.get l).map k := by
  unfold ReachMap.get
  induction m with
  | nil => rfl
  | cons p m ih =>
    simp only [List.map_cons, List.find?_cons]
    cases h : p.1 == l with
    | true => rfl
    | false => exact ih

theorem Transformed.final_iff (h : Transformed f input g m) (h1 : (1 : W) ≠ 0) {x : StateId} :
    hasFinal g x = true ↔ f.numStates ≤ x ∧ x < f.numStates + m.length := by
  constructor
  · intro hf
    have hl := hasFinal_lt hf
    rw [h.num] at hl
    obtain ⟨w, hw, hw0⟩ := hasFinal_iff.1 hf
    by_cases h2 : x < f.numStates
    · exfalso
      rw [h.fin x h2] at hw
      split at hw
      · cases hw
      · next hn => exact hn (hasFinal_iff.2 ⟨w, hw, hw0⟩)
    · by_cases h3 : x < f.numStates + m.length
      · exact ⟨by omega, h3⟩
      · have : x = f.numStates + m.length := by omega
        subst this
        rw [h.first.1] at hw; cases hw
  · rintro ⟨h2, h3⟩
    exact hasFinal_iff.2 ⟨1, (h.ends x h2 h3).2, h1⟩

theorem Transformed.data (h : Transformed f input g m) (hw : f.WF) (h1 : (1 : W) ≠ 0) (hno : ∀ s, ∀ t ∈ f.trsOf s, t.labelOn input < NO_LABEL)
    {r : StateReachable} (hr : r.Exact g.numStates (fun x => hasFinal g x = true) g.Reach) {fl : Label}
    (hfl : fl = ((m.get NO_LABEL).map r.state2index).getD NO_LABEL) :
    DInv f input ⟨input, fl, m.map fun p => (p.1, r.state2index p.2), fun s => if s < r.nIsets then r.isets s else .empty, f.numStates⟩ := by
  have hkeys : (m.map fun p => (p.1, r.state2index p.2)).map Prod.fst = m.map Prod.fst := by rw [List.map_map]; rfl
  have hne : ∀ l ∈ m.map Prod.fst, l ≠ EPS ∧ l ≤ NO_LABEL := by
    intro l hl
    obtain ⟨p, hp, rfl⟩ := List.mem_map.1 hl
    rcases h.used p hp with ⟨s, t, ht, e, h2⟩ | ⟨e, -⟩
    · exact ⟨h2, by rw [← e]; exact Nat.le_of_lt (hno s t ht)⟩
    · rw [e]; exact ⟨by decide, le_rfl⟩
  have hval : ∀ l x, m.get l = some x → hasFinal g x = true := fun l x hx => (h.final_iff h1).2 (h.val hx)
  have hkey : ∀ x, hasFinal g x = true → ∃ l, l ≠ EPS ∧ m.get l = some x := by
    intro x hx
    have := (h.final_iff h1).1 hx
    have hm : x ∈ m.map Prod.snd := by rw [h.vals, List.mem_range'_1]; exact this
    obtain ⟨⟨l, y⟩, hp, rfl⟩ := List.mem_map.1 hm
    exact ⟨l, (hne l (List.mem_map_of_mem (f := Prod.fst) hp)).1, ReachMap.get_of_mem h.keys hp⟩
  obtain ⟨N, hN1, hN2, hN3⟩ := hr.numbers
  have hperm : ((m.map fun p => (p.1, r.state2index p.2)).map Prod.snd).Perm (List.range' 1 N) := by
    have e : (m.map fun p => (p.1, r.state2index p.2)).map Prod.snd = (List.range' f.numStates m.length).map r.state2index := by
      rw [← h.vals, List.map_map, List.map_map]; rfl
    rw [e]
    refine (List.perm_ext_iff_of_nodup ?_ List.nodup_range').2 fun v => ?_
    · refine List.Nodup.map_on (fun x hx y hy he => ?_) List.nodup_range'
      rw [List.mem_range'_1] at hx hy
      exact hr.inj x y ((h.final_iff h1).2 hx) ((h.final_iff h1).2 hy) he
    · rw [List.mem_map, List.mem_range'_1]
      constructor
      · rintro ⟨x, hx, rfl⟩
        rw [List.mem_range'_1] at hx
        have := hN2 x ((h.final_iff h1).2 hx)
        omega
      · intro hv
        obtain ⟨x, hx, rfl⟩ := hN3 v hv.1 (by omega)
        exact ⟨x, by rw [List.mem_range'_1]; exact (h.final_iff h1).1 hx, rfl⟩
  have hN : N = m.length := by
    have := hperm.length_eq
    simp only [List.length_map, List.length_range'] at this
    exact this.symm
  subst hN
  have hget : ∀ l, ReachMap.get (m.map fun p => (p.1, r.state2index p.2)) l = (m.get l).map r.state2index := fun l => ReachMap.get_map m _ l
  have hmem : ∀ s, s < f.numStates → ∀ v, (r.isets s).Mem v ↔
      ∃ l, l ≠ EPS ∧ ReachMap.get (m.map fun p => (p.1, r.state2index p.2)) l = some v ∧ Goes f input s l := by
    intro s hs v
    rw [hr.mem s (by rw [h.num]; omega)]
    constructor
    · rintro ⟨x, hx, hrx, rfl⟩
      obtain ⟨l, hl, hg⟩ := hkey x hx
      exact ⟨l, hl, by rw [hget, hg]; rfl, (h.reach_label hw hno hs hl hg).1 hrx⟩
    · rintro ⟨l, hl, hg, hgo⟩
      rw [hget, Option.map_eq_some_iff] at hg
      obtain ⟨x, hx, rfl⟩ := hg
      exact ⟨x, hval l x hx, (h.reach_label hw hno hs hl hx).2 hgo, rfl⟩
  have hin : ∀ s, s < f.numStates → s < r.nIsets := fun s hs => by rw [hr.nIsets, h.num]; omega
  refine ⟨rfl, rfl, by rw [hkeys]; exact h.keys, by rw [hkeys]; exact fun he => (hne _ he).1 rfl, ?_, ?_, ?_, ?_, ?_⟩
  · simpa using hperm
  · intro s hs
    simp only [hin s hs, if_true]
    exact hr.norm s (by rw [h.num]; omega)
  · intro s hs v
    simp only [hin s hs, if_true]
    exact hmem s hs v
  · intro s hs l hl hgo
    simp only
    rw [hget, Option.isSome_map]
    unfold Goes at hgo
    split at hgo
    · next e =>
      subst e
      obtain ⟨q, -, hq⟩ := hgo
      exact h.finals q (hasFinal_iff.2 hq)
    · obtain ⟨q, -, t, ht, e⟩ := hgo
      rw [← e] at hl ⊢
      exact h.labels q t ht hl
  · simp only
    rw [hget, hfl]
    cases hn : m.get NO_LABEL with
    | some x => exact .inl rfl
    | none =>
      refine .inr ⟨?_, ?_⟩
      · rintro s hs ⟨q, -, hq⟩
        have := h.finals q (hasFinal_iff.2 hq)
        rw [hn] at this; cases this
      · intro s hs
        simp only [hin s hs, if_true]
        rw [hmem s hs]
        rintro ⟨l, hl, hg, -⟩
        have hv : NO_LABEL ∈ (m.map fun p => (p.1, r.state2index p.2)).map Prod.snd :=
          List.mem_map_of_mem (f := Prod.snd) (ReachMap.get_mem hg)
        rw [hperm.mem_iff, List.mem_range'_1] at hv
        have hk : m.map Prod.fst ⊆ List.range' 1 (NO_LABEL - 1) := by
          intro k hk
          have h2 := hne k hk
          have h3 : k ≠ NO_LABEL := by rintro rfl; exact ReachMap.get_none.1 hn hk
          have h4 : k ≠ 0 := h2.1
          rw [List.mem_range'_1]
          omega
        have := (h.keys.subperm hk).length_le
        rw [List.length_map, List.length_range'] at this
        have h5 : 1 ≤ NO_LABEL := by decide
        omega

end

/-- A final state with weight zero that lies on a cycle of silent transitions with another state. -/
def BadZero (f : Fst W) (input : Bool) : Prop := ∃ x y, x ≠ y ∧ f.finOf x = some 0 ∧ f.Silent input x y ∧ f.Silent input y x

theorem computeData_spec [Add W] {f : Fst W} (hw : f.WF) (tf : f.Truthful) (hs : f.start ≠ none) (h1 : (1 : W) ≠ 0) (input : Bool)
    (hno : ∀ s, ∀ t ∈ f.trsOf s, t.labelOn input < NO_LABEL) :
    (BadZero f input → computeData f input = .error .err) ∧ (¬ BadZero f input → ∃ d, computeData f input = .ok d ∧ DInv f input d) := by
  obtain ⟨i, hi⟩ := Option.ne_none_iff_exists'.1 hs
  obtain ⟨hc, -, htc⟩ := convert_spec f hi
  have hwc : f.convert.WF := ⟨fun j hj => by rw [hc.num]; exact hw.start_lt j (by rw [← hc.start]; exact hj),
    fun s t ht => by rw [hc.num]; exact hw.next_lt s t (by rw [← hc.trs]; exact ht)⟩
  have hT := transformFst_spec f.convert input
  obtain ⟨T, hTe⟩ : ∃ T, T = transformFst f.convert input := ⟨_, rfl⟩
  rw [← hTe] at hT
  obtain ⟨g, p, u1, u2, u3, u4, u5⟩ := computeAndUpdate_acyclic T.1 (hT.wf hwc) (hT.flags (htc tf)) (by rw [hT.start]; simp)
  -- the flags do not matter
  have trs_eq : ∀ s, g.trsOf s = T.1.trsOf s := fun s => by unfold Fst.trsOf; rw [u2]
  have fin_eq : ∀ s, g.finOf s = T.1.finOf s := fun s => by unfold Fst.finOf; rw [u2]
  have num_eq : g.numStates = T.1.numStates := by unfold Fst.numStates; rw [u2]
  have hG : Transformed f.convert input g T.2 := ⟨by rw [num_eq, hT.num], by rw [u3, hT.start], hT.keys, hT.vals,
    fun s h => by rw [trs_eq, hT.trs s h], fun s h => by rw [fin_eq, hT.fin s h],
    fun s h h' => by rw [trs_eq, fin_eq]; exact hT.ends s h h', by rw [trs_eq, fin_eq]; exact hT.first, hT.labels, hT.finals, hT.used,
    fun _ => by
      obtain ⟨g', p', v1, -, v2, v3, v4, -⟩ := C07_update T.1 (hT.wf hwc) (hT.flags (htc tf)) (.inl (by rw [hT.start]; simp)) (Props.of [.acyclic])
        (fun h => absurd h (by decide))
      rw [u1] at v1
      simp only [Except.ok.injEq, Prod.mk.injEq] at v1
      rw [v1.1]; exact v4⟩
  have hwg := hG.wf hwc
  have hsil : f.convert.Silent input = f.Silent input := by
    unfold Fst.Silent Fst.SilentStep
    simp only [hc.trs]
  have hbad : BadZero f input ↔ ∃ x y, x ≠ y ∧ g.IsFinal x ∧ g.Reach x y ∧ g.Reach y x := by
    unfold BadZero
    constructor
    · rintro ⟨x, y, h⟩
      exact ⟨x, y, (hG.cycles hwc).2 (by rw [hsil, hc.fin]; exact h)⟩
    · rintro ⟨x, y, h⟩
      have := (hG.cycles hwc).1 h
      rw [hsil, hc.fin] at this
      exact ⟨x, y, this⟩
  have hed : ∀ {a b}, T.1.Edge a b → g.Edge a b := fun {a b} ⟨t, ht, e⟩ => ⟨t, by rw [trs_eq]; exact ht, e⟩
  have hed' : ∀ {a b}, g.Edge a b → T.1.Edge a b := fun {a b} ⟨t, ht, e⟩ => ⟨t, by rw [← trs_eq]; exact ht, e⟩
  have hac : g.props .acyclic = true → g.Holds .acyclic := by
    intro h
    have := u5.1 h
    simp only [Fst.Holds] at this ⊢
    rintro ⟨q, hq⟩
    exact this ⟨q, Relation.TransGen.mono (fun _ _ => hed') _ _ hq⟩
  have hstep : computeData f input = (match StateReachable.new g with
      | .error e => .error e
      | .ok r =>
        if T.2.any fun p => decide (r.nIndex ≤ p.2) then .error .panic
        else .ok ⟨input, ((T.2.get NO_LABEL).map r.state2index).getD NO_LABEL, T.2.map fun p => (p.1, r.state2index p.2),
          fun s => if s < r.nIsets then r.isets s else .empty, f.convert.numStates⟩) := by
    unfold computeData
    simp only
    rw [← hTe]
    rw [u1]
    rfl
  constructor
  · intro hb
    have hb' := hbad.1 hb
    have : StateReachable.new g = .error .err := by
      unfold StateReachable.new Fst.propertiesCheck
      rw [if_pos u4]
      simp only
      rw [if_neg]
      · exact (newCyclic_spec hwg hG.start).1 hb'
      · intro h
        have := hac h
        simp only [Fst.Holds] at this
        obtain ⟨x, y, h0, -, h2, h3⟩ := hb'
        refine this ⟨x, ?_⟩
        rcases Relation.ReflTransGen.cases_head h2 with e | ⟨b, hb1, hb2⟩
        · exact absurd e h0
        · exact Relation.TransGen.head' hb1 (hb2.trans h3)
    rw [hstep, this]
  · intro hb
    obtain ⟨r, hr1, hr2⟩ := stateNew_spec hwg hG.start u4 hac (fun x y h1 h2 h3 => by
      by_contra h0
      exact hb (hbad.2 ⟨x, y, h0, h1, h2, h3⟩))
    rw [hstep, hr1]
    simp only
    rw [if_neg]
    · refine ⟨_, rfl, ?_⟩
      have hD := hG.data hwc h1 (fun s t ht => hno s t (by rw [← hc.trs]; exact ht)) hr2 rfl
      have hgo : ∀ s l, Goes f.convert input s l ↔ Goes f input s l := by
        intro s l
        unfold Goes Fst.CanEnd Fst.CanRead
        rw [hsil]
        simp only [hc.trs, hc.fin]
      have hce : ∀ s, f.convert.CanEnd input s ↔ f.CanEnd input s := by
        intro s
        unfold Fst.CanEnd
        rw [hsil]; simp only [hc.fin]
      exact ⟨hD.side, hD.nIsets.trans hc.num, hD.keys, hD.noEps, hD.vals, fun s hs' => hD.norm s (by rw [hc.num]; exact hs'),
        fun s hs' v => by rw [hD.mem s (by rw [hc.num]; exact hs')]; simp only [hgo],
        fun s hs' l hl hg => hD.known s (by rw [hc.num]; exact hs') l hl ((hgo s l).2 hg),
        hD.fin.imp_right fun ⟨a, b⟩ => ⟨fun s hs' he => a s (by rw [hc.num]; exact hs') ((hce s).2 he), fun s hs' => b s (by rw [hc.num]; exact hs')⟩⟩
    · rw [List.any_eq_true]
      rintro ⟨⟨l, x⟩, hp, he⟩
      have := hG.val (ReachMap.get_of_mem hG.keys hp)
      rw [hr2.nIndex, hG.num] at he
      simp at he
      omega

end Verif
