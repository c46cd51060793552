import Verif.Lemmas.ReachState
import Verif.Lemmas.Truthful
import Verif.Props.C07
import Verif.Props.C52

/-!
# `LabelReachable`: the transformed FST
-/

namespace Verif
universe u
variable {W : Type u}
open Dfs ReachV RedirSt LabelReachable

/-! ## The map from labels to states -/

theorem ReachMap.get_append {m e : ReachMap} {l : Label} {x : Nat} (h : m.get l = some x) : ReachMap.get (m ++ e) l = some x := by
  unfold ReachMap.get at *
  rw [List.find?_append]
  cases hf : m.find? (fun p => p.1 == l) with
  | none => rw [hf] at h; cases h
  | some p => rw [hf] at h; simpa using h

theorem ReachMap.get_mem {m : ReachMap} {l : Label} {x : Nat} (h : m.get l = some x) : (l, x) ∈ m := by
  unfold ReachMap.get at h
  rw [Option.map_eq_some_iff] at h
  obtain ⟨p, hp, rfl⟩ := h
  have h1 := List.find?_some hp
  have h2 := List.mem_of_find?_eq_some hp
  simp only [beq_iff_eq] at h1
  rw [← h1]; exact h2

theorem ReachMap.get_none {m : ReachMap} {l : Label} : m.get l = none ↔ l ∉ m.map Prod.fst := by
  unfold ReachMap.get
  rw [Option.map_eq_none_iff, List.find?_eq_none]
  simp only [beq_iff_eq, List.mem_map, not_exists, not_and]

theorem ReachMap.get_of_mem {m : ReachMap} (hn : (m.map Prod.fst).Nodup) {l : Label} {x : Nat} (h : (l, x) ∈ m) : m.get l = some x := by
  cases hg : m.get l with
  | none => exact absurd (List.mem_map_of_mem (f := Prod.fst) h) (ReachMap.get_none.1 hg)
  | some y =>
    have := ReachMap.get_mem hg
    have e := List.inj_on_of_nodup_map hn h this rfl
    simp only [Prod.mk.injEq] at e
    rw [e.2]

theorem ReachMap.get_snoc {m : ReachMap} {l : Label} {x : Nat} (h : m.get l = none) : ReachMap.get (m ++ [(l, x)]) l = some x := by
  unfold ReachMap.get at *
  rw [Option.map_eq_none_iff] at h
  rw [List.find?_append, h]
  simp

/-- The states for the labels are `n, n + 1, …`, each label has one. -/
structure LOk (n : Nat) (r : RedirSt) : Prop where
  keys : (r.l2s.map Prod.fst).Nodup
  vals : r.l2s.map Prod.snd = List.range' n r.l2s.length
  ons : r.ons = n + r.l2s.length

theorem LOk.val_range {n : Nat} {r : RedirSt} (h : LOk n r) {l : Label} {x : Nat} (hg : r.l2s.get l = some x) : n ≤ x ∧ x < r.ons := by
  have := List.mem_map_of_mem (f := Prod.snd) (ReachMap.get_mem hg)
  rw [h.vals, List.mem_range'_1] at this
  rw [h.ons]; exact this

theorem LOk.inj {n : Nat} {r : RedirSt} (h : LOk n r) {l k : Label} {x : Nat} (h1 : r.l2s.get l = some x) (h2 : r.l2s.get k = some x) : l = k := by
  have hnd : (r.l2s.map Prod.snd).Nodup := by rw [h.vals]; exact List.nodup_range'
  have := List.inj_on_of_nodup_map hnd (ReachMap.get_mem h1) (ReachMap.get_mem h2) rfl
  exact congrArg Prod.fst this

/-- `q` has all entries of `r` and perhaps more. -/
def RedirSt.Le (r q : RedirSt) : Prop := ∃ e, q.l2s = r.l2s ++ e

theorem RedirSt.Le.refl (r : RedirSt) : r.Le r := ⟨[], by simp⟩
theorem RedirSt.Le.trans {a b c : RedirSt} (h : a.Le b) (k : b.Le c) : a.Le c := by
  obtain ⟨x, hx⟩ := h
  obtain ⟨y, hy⟩ := k
  exact ⟨x ++ y, by rw [hy, hx, List.append_assoc]⟩
theorem RedirSt.Le.get {a b : RedirSt} (h : a.Le b) {l x} (hg : a.l2s.get l = some x) : b.l2s.get l = some x := by
  obtain ⟨e, he⟩ := h
  rw [he]; exact ReachMap.get_append hg

theorem bump_ok {n : Nat} {r : RedirSt} (h : LOk n r) (s : StateId) : LOk n (r.bump s) := ⟨h.keys, h.vals, h.ons⟩

theorem entry_spec {n : Nat} {r : RedirSt} (h : LOk n r) (l : Label) : LOk n (r.entry l).1 ∧ r.Le (r.entry l).1 ∧
    (r.entry l).1.l2s.get l = some (r.entry l).2 ∧ ∀ p ∈ (r.entry l).1.l2s, p ∈ r.l2s ∨ p.1 = l := by
  unfold entry
  cases hg : r.l2s.get l with
  | some x => exact ⟨h, .refl _, hg, fun p hp => .inl hp⟩
  | none =>
    refine ⟨⟨?_, ?_, ?_⟩, ⟨_, rfl⟩, ReachMap.get_snoc hg, ?_⟩
    · simp only [List.map_append, List.map_cons, List.map_nil]
      rw [List.nodup_append]
      refine ⟨h.keys, by simp, fun a ha b hb => ?_⟩
      rw [List.mem_singleton] at hb
      rintro rfl
      exact ReachMap.get_none.1 hg (hb ▸ ha)
    · simp only [List.map_append, List.map_cons, List.map_nil, h.vals, List.length_append, List.length_cons, List.length_nil]
      rw [List.range'_concat, h.ons]
      simp
    · simp only [List.length_append, List.length_cons, List.length_nil]; rw [h.ons]; omega
    · intro p hp
      simp only [List.mem_append, List.mem_singleton] at hp
      exact hp.imp_right fun e => by rw [e]

/-- The transition after the redirection. -/
def redir (input : Bool) (m : ReachMap) (t : Tr W) : Tr W :=
  { t with nextstate := if side input t = EPS then t.nextstate else (m.get (side input t)).getD 0 }

theorem redirectTrs_spec {n : Nat} (input : Bool) (ts : List (Tr W)) : ∀ {r : RedirSt}, LOk n r →
    LOk n (redirectTrs input r ts).1 ∧ r.Le (redirectTrs input r ts).1 ∧
    (∀ t ∈ ts, side input t ≠ EPS → ((redirectTrs input r ts).1.l2s.get (side input t)).isSome = true) ∧
    (∀ q : RedirSt, (redirectTrs input r ts).1.Le q → (redirectTrs input r ts).2 = ts.map (redir input q.l2s)) ∧
    ∀ p ∈ (redirectTrs input r ts).1.l2s, p ∈ r.l2s ∨ ∃ t ∈ ts, side input t = p.1 ∧ p.1 ≠ EPS := by
  induction ts with
  | nil => intro r h; exact ⟨h, .refl _, by simp, fun q _ => rfl, fun p hp => .inl hp⟩
  | cons t ts ih =>
    intro r h
    obtain ⟨a, ha⟩ : ∃ a, a = redirectTr input r t := ⟨_, rfl⟩
    have hstep : LOk n a.1 ∧ r.Le a.1 ∧ (side input t ≠ EPS → (a.1.l2s.get (side input t)).isSome = true) ∧
        (∀ q : RedirSt, a.1.Le q → a.2 = redir input q.l2s t) ∧ ∀ p ∈ a.1.l2s, p ∈ r.l2s ∨ (side input t = p.1 ∧ p.1 ≠ EPS) := by
      rw [ha]
      unfold redirectTr
      simp only
      change _
      have hs : (if input = true then t.ilabel else t.olabel) = side input t := rfl
      rw [hs]
      by_cases hl : side input t = EPS
      · rw [if_neg (by simpa using hl)]
        refine ⟨bump_ok h _, ⟨[], by simp [bump]⟩, fun h' => absurd hl h', fun q _ => ?_, fun p hp => .inl hp⟩
        unfold redir; rw [if_pos hl]
      · rw [if_pos hl]
        obtain ⟨h1, h2, h3, h4⟩ := entry_spec h (side input t)
        refine ⟨bump_ok h1 _, h2, fun _ => by simp only [bump]; rw [h3]; rfl, fun q hq => ?_, fun p hp => (h4 p hp).imp_right fun e => ⟨e.symm, by rw [e]; exact hl⟩⟩
        have := RedirSt.Le.get hq (l := side input t) (x := (r.entry (side input t)).2) h3
        unfold redir; rw [if_neg hl, this]; rfl
    obtain ⟨s1, s2, s3, s4, s5⟩ := hstep
    obtain ⟨i1, i2, i3, i4, i5⟩ := ih s1
    have e : redirectTrs input r (t :: ts) = ((redirectTrs input a.1 ts).1, a.2 :: (redirectTrs input a.1 ts).2) := by
      rw [redirectTrs, ← ha]
    rw [e]
    refine ⟨i1, s2.trans i2, ?_, ?_, ?_⟩
    · intro t' ht' hl
      rw [List.mem_cons] at ht'
      rcases ht' with rfl | ht'
      · obtain ⟨x, hx⟩ := Option.isSome_iff_exists.1 (s3 hl)
        simp only; rw [i2.get hx]; rfl
      · exact i3 t' ht' hl
    · intro q hq
      simp only [List.map_cons]
      rw [s4 q (i2.trans hq), i4 q hq]
    · intro p hp
      rcases i5 p hp with h' | ⟨t', ht', h'⟩
      · rcases s5 p h' with h' | h'
        · exact .inl h'
        · exact .inr ⟨t, by simp, h'⟩
      · exact .inr ⟨t', by simp [ht'], h'⟩

/-! ## The loop over the states -/

section
variable [Zero W] [One W] [DecidableEq W]

/-- The transition added for the final weight. -/
def finTr (f : Fst W) (m : ReachMap) (s : StateId) : List (Tr W) :=
  match f.finOf s with
  | some w => if w = 0 then [] else [⟨NO_LABEL, NO_LABEL, w, (m.get NO_LABEL).getD 0⟩]
  | none => []

theorem finTr_of {f : Fst W} {s : StateId} (h : hasFinal f s = true) : ∃ w, ∀ m, finTr f m s = [⟨NO_LABEL, NO_LABEL, w, (m.get NO_LABEL).getD 0⟩] := by
  obtain ⟨w, h1, h2⟩ := hasFinal_iff.1 h
  exact ⟨w, fun m => by unfold finTr; rw [h1]; simp [h2]⟩

theorem finTr_not {f : Fst W} {s : StateId} (h : hasFinal f s = false) (m : ReachMap) : finTr f m s = [] := by
  unfold finTr
  unfold hasFinal at h
  cases hf : f.finOf s with
  | none => rfl
  | some w => rw [hf] at h; simp at h; simp [h]

/-- After `m` states. -/
structure TInv (f : Fst W) (input : Bool) (m : Nat) (a : RedirSt × Fst W) : Prop where
  ok : LOk f.numStates a.1
  num : a.2.numStates = f.numStates
  start : a.2.start = f.start
  later : ∀ s, m ≤ s → a.2.trsOf s = f.trsOf s ∧ a.2.finOf s = f.finOf s
  fin : ∀ s, s < m → a.2.finOf s = if hasFinal f s = true then none else f.finOf s
  trs : ∀ s, s < m → ∀ q : RedirSt, a.1.Le q → a.2.trsOf s = (f.trsOf s).map (redir input q.l2s) ++ finTr f q.l2s s
  labels : ∀ s, s < m → ∀ t ∈ f.trsOf s, side input t ≠ EPS → (a.1.l2s.get (side input t)).isSome = true
  ends : ∀ s, s < m → hasFinal f s = true → (a.1.l2s.get NO_LABEL).isSome = true
  used : ∀ p ∈ a.1.l2s, (∃ s, ∃ t ∈ f.trsOf s, side input t = p.1 ∧ p.1 ≠ EPS) ∨ (p.1 = NO_LABEL ∧ ∃ s, hasFinal f s = true)
  flags : f.Truthful → a.2.Truthful

omit [DecidableEq W] in
/-- Other targets do not change the flags that are kept. -/
theorem holds_retarget {f g : Fst W} {s : StateId} {ts : List (Tr W)} (hg : ∀ q, g.trsOf q = if q = s then ts else f.trsOf q)
    (hf : ∀ q, g.finOf q = f.finOf q) (h : List.Forall₂ (fun a b : Tr W => a.ilabel = b.ilabel ∧ a.olabel = b.olabel ∧ a.weight = b.weight) ts (f.trsOf s))
    (b : PropBit) (hb : (Props.setArcMask.or (Props.of [.acceptor, .notAcceptor, .epsilons, .noEpsilons, .iEpsilons, .noIEpsilons,
    .oEpsilons, .noOEpsilons, .weighted, .unweighted])) b = true) : f.Holds b → g.Holds b := by
  have h1 : ∀ q, ∀ t ∈ g.trsOf q, ∃ t' ∈ f.trsOf q, t.ilabel = t'.ilabel ∧ t.olabel = t'.olabel ∧ t.weight = t'.weight := by
    intro q t ht
    rw [hg] at ht
    split at ht
    · next e =>
      subst e
      obtain ⟨i, hi, rfl⟩ := List.getElem_of_mem ht
      have hl := h.length_eq
      exact ⟨(f.trsOf q)[i]'(by omega), List.getElem_mem _, (List.forall₂_iff_get.1 h).2 i hi (by omega)⟩
    · exact ⟨t, ht, rfl, rfl, rfl⟩
  have h2 : ∀ q, ∀ t ∈ f.trsOf q, ∃ t' ∈ g.trsOf q, t.ilabel = t'.ilabel ∧ t.olabel = t'.olabel ∧ t.weight = t'.weight := by
    intro q t ht
    by_cases e : q = s
    · subst e
      obtain ⟨i, hi, rfl⟩ := List.getElem_of_mem ht
      have hl := h.length_eq
      have := (List.forall₂_iff_get.1 h).2 i (by omega) hi
      refine ⟨ts[i]'(by omega), ?_, this.1.symm, this.2.1.symm, this.2.2.symm⟩
      rw [hg, if_pos rfl]; exact List.getElem_mem _
    · exact ⟨t, by rw [hg, if_neg e]; exact ht, rfl, rfl, rfl⟩
  have key : ∀ {f g : Fst W}, (∀ q, ∀ t ∈ g.trsOf q, ∃ t' ∈ f.trsOf q, t.ilabel = t'.ilabel ∧ t.olabel = t'.olabel ∧ t.weight = t'.weight) →
      (∀ q, g.finOf q = f.finOf q) → f.Unweighted → g.Unweighted := by
    intro f g h1 hf hu
    refine ⟨fun q t ht => ?_, fun q w hw => hu.2 q w (hf q ▸ hw)⟩
    obtain ⟨t', ht', -, -, e⟩ := h1 q t ht
    rw [e]; exact hu.1 q t' ht'
  cases b <;> simp only [Fst.Holds] <;> try (exact absurd hb (by decide))
  · intro H q t ht
    obtain ⟨t', ht', e1, e2, -⟩ := h1 q t ht
    rw [e1, e2]; exact H q t' ht'
  · intro H H'
    refine H fun q t ht => ?_
    obtain ⟨t', ht', e1, e2, -⟩ := h2 q t ht
    rw [e1, e2]; exact H' q t' ht'
  · rintro ⟨q, t, ht, e⟩
    obtain ⟨t', ht', e1, e2, -⟩ := h2 q t ht
    exact ⟨q, t', ht', e1 ▸ e.1, e2 ▸ e.2⟩
  · rintro H ⟨q, t, ht, e⟩
    obtain ⟨t', ht', e1, e2, -⟩ := h1 q t ht
    exact H ⟨q, t', ht', e1 ▸ e.1, e2 ▸ e.2⟩
  · rintro ⟨q, t, ht, e⟩
    obtain ⟨t', ht', e1, e2, -⟩ := h2 q t ht
    exact ⟨q, t', ht', e1 ▸ e⟩
  · rintro H ⟨q, t, ht, e⟩
    obtain ⟨t', ht', e1, e2, -⟩ := h1 q t ht
    exact H ⟨q, t', ht', e1 ▸ e⟩
  · rintro ⟨q, t, ht, e⟩
    obtain ⟨t', ht', e1, e2, -⟩ := h2 q t ht
    exact ⟨q, t', ht', e2 ▸ e⟩
  · rintro H ⟨q, t, ht, e⟩
    obtain ⟨t', ht', e1, e2, -⟩ := h1 q t ht
    exact H ⟨q, t', ht', e2 ▸ e⟩
  · intro H H'; exact H (key h2 (fun q => (hf q).symm) H')
  · exact key h1 hf

theorem TInv.step {f : Fst W} {input : Bool} {m : Nat} (hm : m < f.numStates) {a : RedirSt × Fst W} (h : TInv f input m a) :
    TInv f input (m + 1) (redirectFin (redirectState input a m) m) := by
  obtain ⟨r, g⟩ := a
  have hg := h.num
  simp only at hg
  obtain ⟨l1, l2, l3, l4, l5⟩ := redirectTrs_spec input (g.trsOf m) h.ok
  have htm : g.trsOf m = f.trsOf m := (h.later m le_rfl).1
  have hfm : g.finOf m = f.finOf m := (h.later m le_rfl).2
  simp only at l1 l2 l3 l4 l5
  obtain ⟨b, hb⟩ : ∃ b, b = redirectTrs input r (g.trsOf m) := ⟨_, rfl⟩
  rw [← hb] at l1 l2 l3 l4 l5
  obtain ⟨g1, hg1⟩ : ∃ g1, g1 = (redirectState input (r, g) m).2 := ⟨_, rfl⟩
  have e1 : redirectState input (r, g) m = (b.1, g1) := by rw [hg1]; unfold redirectState; simp only; rw [← hb]
  have k1 : g1.numStates = f.numStates ∧ g1.start = f.start := by
    rw [hg1]; unfold redirectState; simp only; split
    · exact ⟨by simpa using hg, h.start⟩
    · exact ⟨by unfold Fst.numStates Fst.modifySt at *; simpa using hg, h.start⟩
  have k2 : ∀ q, g1.trsOf q = if q = m then b.2 else g.trsOf q := by
    intro q
    have : g1.trsOf q = (g.modifySt m fun st => { st with trs := b.2 }).trsOf q := by
      rw [hg1]; unfold redirectState; simp only; rw [← hb]; split <;> rfl
    rw [this, Fst.modifySt_trsOf]
    split
    · next e => subst e; rw [List.getElem?_eq_getElem (by unfold Fst.numStates at hg hm; omega)]; rfl
    · rfl
  have k3 : ∀ q, g1.finOf q = g.finOf q := by
    intro q
    have : g1.finOf q = (g.modifySt m fun st => { st with trs := b.2 }).finOf q := by
      rw [hg1]; unfold redirectState; simp only; rw [← hb]; split <;> rfl
    rw [this, Fst.modifySt_finOf]
    split
    · next e => subst e; rw [Fst.finOf_eq]
    · rfl
  have hfa : List.Forall₂ (fun a b : Tr W => a.ilabel = b.ilabel ∧ a.olabel = b.olabel ∧ a.weight = b.weight) b.2 (g.trsOf m) := by
    rw [l4 b.1 (.refl _), List.forall₂_map_left_iff, List.forall₂_same]
    exact fun t _ => ⟨rfl, rfl, rfl⟩
  have k4 : f.Truthful → g1.Truthful := by
    intro tf
    have tg := h.flags tf
    by_cases hnil : g.trsOf m = []
    · have hb2 : b.2 = [] := by rw [l4 b.1 (.refl _), hnil]; rfl
      have : g1 = g := by
        rw [hg1]; unfold redirectState; simp only; rw [← hb, hb2, hnil]
        simp only [List.isEmpty_nil, if_true, Fst.modifySt]
        have : g.states.modify m (fun st => { st with trs := [] }) = g.states := by
          apply List.ext_getElem?
          intro i
          rw [List.getElem?_modify]
          by_cases hi : m = i
          · subst hi
            have hml : m < g.states.length := by unfold Fst.numStates at hg hm; omega
            rw [List.getElem?_eq_getElem hml]
            have : (g.states[m]).trs = [] := by rw [← Fst.trsOf_of_lt (f := g) hml]; exact hnil
            simp only [if_true, Option.map_eq_map, Option.map_some, Option.some.injEq]
            rw [← this]
          · simp [hi]
        rw [this]
      rw [this]; exact tg
    · have hp : g1.props = Props.keepRelevant g.props := by
        rw [hg1]; unfold redirectState; simp only
        rw [if_neg (by simpa using hnil)]; rfl
      intro x hx
      rw [hp] at hx
      simp only [Props.keepRelevant, Props.and_apply, Bool.and_eq_true] at hx
      exact holds_retarget k2 k3 hfa x hx.2 (tg x hx.1)
  have hused : ∀ p ∈ b.1.l2s, (∃ s, ∃ t ∈ f.trsOf s, side input t = p.1 ∧ p.1 ≠ EPS) ∨ (p.1 = NO_LABEL ∧ ∃ s, hasFinal f s = true) := by
    intro p hp
    rcases l5 p hp with h' | ⟨t, ht, h'⟩
    · exact h.used p h'
    · exact .inl ⟨m, t, htm ▸ ht, h'⟩
  have hlab : ∀ s, s < m + 1 → ∀ t ∈ f.trsOf s, side input t ≠ EPS → (b.1.l2s.get (side input t)).isSome = true := by
    intro s hs t ht hl
    by_cases e : s = m
    · subst e; exact l3 t (htm ▸ ht) hl
    · obtain ⟨x, hx⟩ := Option.isSome_iff_exists.1 (h.labels s (by omega) t ht hl)
      rw [l2.get hx]; rfl
  have hends : ∀ s, s < m → hasFinal f s = true → (b.1.l2s.get NO_LABEL).isSome = true := by
    intro s hs hf
    obtain ⟨x, hx⟩ := Option.isSome_iff_exists.1 (h.ends s hs hf)
    rw [l2.get hx]; rfl
  have htrs : ∀ s, s < m → ∀ q : RedirSt, b.1.Le q → g1.trsOf s = (f.trsOf s).map (redir input q.l2s) ++ finTr f q.l2s s := by
    intro s hs q hq
    rw [k2, if_neg (by omega)]
    exact h.trs s hs q (l2.trans hq)
  rw [e1]
  unfold redirectFin
  simp only
  rw [k3 m, hfm]
  by_cases hf : hasFinal f m = true
  · obtain ⟨w, hw, hw0⟩ := hasFinal_iff.1 hf
    rw [hw]
    simp only
    rw [if_neg hw0]
    obtain ⟨n1, n2, n3, n4⟩ := entry_spec l1 NO_LABEL
    have hml : m < g1.numStates := by omega
    have hadd : ∀ q, ((g1.addTr m ⟨NO_LABEL, NO_LABEL, w, (b.1.entry NO_LABEL).2⟩).delFinal m).trsOf q =
        if q = m then b.2 ++ [⟨NO_LABEL, NO_LABEL, w, (b.1.entry NO_LABEL).2⟩] else g1.trsOf q := by
      intro q
      rw [Fst.delFinal_trsOf, Fst.addTr_trsOf]
      by_cases e : q = m
      · subst e; simp [hml, k2]
      · simp [e]
    refine ⟨bump_ok n1 _, ?_, ?_, ?_, ?_, ?_, ?_, ?_, ?_, ?_⟩
    · simpa using k1.1
    · simpa using k1.2
    · intro s hs
      simp only
      rw [hadd, if_neg (by omega), k2, if_neg (by omega), Fst.delFinal_finOf, if_neg (by omega), Fst.addTr_finOf, k3]
      exact h.later s (by omega)
    · intro s hs
      simp only
      rw [Fst.delFinal_finOf, Fst.addTr_finOf, k3]
      by_cases e : s = m
      · subst e; simp [hf]
      · rw [if_neg e]; exact h.fin s (by omega)
    · intro s hs q hq
      have hq' : b.1.Le q := n2.trans hq
      simp only
      rw [hadd]
      by_cases e : s = m
      · subst e
        rw [if_pos rfl, l4 q hq', htm]
        have : q.l2s.get NO_LABEL = some (b.1.entry NO_LABEL).2 := RedirSt.Le.get hq n3
        unfold finTr
        rw [hw]; simp only; rw [if_neg hw0, this]; rfl
      · rw [if_neg e]; exact htrs s (by omega) q hq'
    · intro s hs t ht hl
      obtain ⟨x, hx⟩ := Option.isSome_iff_exists.1 (hlab s hs t ht hl)
      simp only [bump]; rw [n2.get hx]; rfl
    · intro s hs hfs
      simp only [bump]; rw [n3]; rfl
    · intro p hp
      rcases n4 p hp with h' | h'
      · exact hused p h'
      · exact .inr ⟨h', m, hf⟩
    · intro tf
      exact Fst.truthful_delFinal (Fst.truthful_addTr (k4 tf) hml _) (by simpa using hml)
  · have hf' : hasFinal f m = false := by simpa using hf
    have done : TInv f input (m + 1) (b.1, g1) := by
     refine ⟨l1, k1.1, k1.2, ?_, ?_, ?_, hlab, ?_, hused, k4⟩
     · intro s hs
       simp only
       rw [k2, if_neg (by omega), k3]
       exact h.later s (by omega)
     · intro s hs
       simp only
       rw [k3]
       by_cases e : s = m
       · subst e; rw [hfm]; simp [hf']
       · exact h.fin s (by omega)
     · intro s hs q hq
       simp only
       by_cases e : s = m
       · subst e
         rw [k2, if_pos rfl, l4 q hq, htm, finTr_not hf', List.append_nil]
       · exact htrs s (by omega) q hq
     · intro s hs hfs
       by_cases e : s = m
       · subst e; exact absurd hfs hf
       · exact hends s (by omega) hfs
    unfold hasFinal at hf'
    cases hw : f.finOf m with
    | none => exact done
    | some w => rw [hw] at hf'; simp at hf'; simpa [hf'] using done

theorem addFinals_spec (k : Nat) : ∀ (g : Fst W),
    let o := (List.range k).foldl (fun g _ => addFinalState g) g
    o.numStates = g.numStates + k ∧ (∀ s, o.trsOf s = g.trsOf s) ∧
    (∀ s, s < g.numStates → o.finOf s = g.finOf s) ∧ (∀ s, g.numStates ≤ s → s < g.numStates + k → o.finOf s = some 1) ∧
    (g.Truthful → o.Truthful) := by
  induction k with
  | zero => intro g; exact ⟨rfl, fun _ => rfl, fun _ _ => rfl, fun s h1 h2 => absurd h2 (by omega), id⟩
  | succ k ih =>
    intro g
    simp only
    rw [List.range_succ, List.foldl_append]
    obtain ⟨h1, h2, h3, h4, h5⟩ := ih g
    generalize (List.range k).foldl (fun g _ => addFinalState g) g = o at *
    simp only [List.foldl_cons, List.foldl_nil, addFinalState]
    refine ⟨by simp [h1, Nat.add_assoc], fun s => by simp [h2], fun s hs => ?_, fun s hs1 hs2 => ?_, fun tg => ?_⟩
    · rw [Fst.setFinal_finOf]
      rw [if_neg (by omega), Fst.addState_finOf, h3 s hs]
    · rw [Fst.setFinal_finOf]
      by_cases e : s = o.numStates
      · rw [if_pos ⟨e, by simp⟩]
      · rw [if_neg (by tauto), Fst.addState_finOf, h4 s hs1 (by omega)]
    · exact Fst.truthful_setFinal (Fst.truthful_addStates (h5 tg) 1) (by simp) _

theorem addStarts_spec (P : Nat → Prop) [DecidablePred P] (i : StateId) (k : Nat) : ∀ (g : Fst W), i < g.numStates → (g.trsOf i = []) →
    let o := (List.range k).foldl (fun g s => if P s then g.addTr i ⟨EPS, EPS, 1, s⟩ else g) g
    o.numStates = g.numStates ∧ o.start = g.start ∧ (∀ s, o.finOf s = g.finOf s) ∧ (∀ s, s ≠ i → o.trsOf s = g.trsOf s) ∧
    (∀ t ∈ o.trsOf i, t.nextstate < k) ∧ (g.Truthful → o.Truthful) := by
  induction k with
  | zero => intro g _ hi; exact ⟨rfl, rfl, fun _ => rfl, fun _ _ => rfl, (fun t ht => by simp [hi] at ht), id⟩
  | succ k ih =>
    intro g hil hi
    simp only
    rw [List.range_succ, List.foldl_append]
    obtain ⟨h1, h2, h3, h4, h5, h6⟩ := ih g hil hi
    generalize (List.range k).foldl (fun g s => if P s then g.addTr i ⟨EPS, EPS, 1, s⟩ else g) g = o at *
    simp only [List.foldl_cons, List.foldl_nil]
    split
    · refine ⟨by simpa using h1, by simpa using h2, fun s => by simp [h3], fun s hs => ?_, fun t ht => ?_, fun tg => Fst.truthful_addTr (h6 tg) (by omega) _⟩
      · rw [Fst.addTr_trsOf]; simp [hs, h4 s hs]
      · rw [Fst.addTr_trsOf] at ht
        simp only [h1, hil, and_true, if_true] at ht
        rw [List.mem_append, List.mem_singleton] at ht
        rcases ht with ht | rfl
        · have := h5 t ht; omega
        · simp
    · exact ⟨h1, h2, h3, h4, fun t ht => by have := h5 t ht; omega, h6⟩

/-- The transformed FST. -/
structure Transformed (f : Fst W) (input : Bool) (g : Fst W) (m : ReachMap) : Prop where
  num : g.numStates = f.numStates + m.length + 1
  start : g.start = some (f.numStates + m.length)
  keys : (m.map Prod.fst).Nodup
  vals : m.map Prod.snd = List.range' f.numStates m.length
  trs : ∀ s, s < f.numStates → g.trsOf s = (f.trsOf s).map (redir input m) ++ finTr f m s
  fin : ∀ s, s < f.numStates → g.finOf s = if hasFinal f s = true then none else f.finOf s
  ends : ∀ s, f.numStates ≤ s → s < f.numStates + m.length → g.trsOf s = [] ∧ g.finOf s = some 1
  first : g.finOf (f.numStates + m.length) = none ∧ ∀ t ∈ g.trsOf (f.numStates + m.length), t.nextstate < f.numStates + m.length
  labels : ∀ s, ∀ t ∈ f.trsOf s, side input t ≠ EPS → (m.get (side input t)).isSome = true
  finals : ∀ s, hasFinal f s = true → (m.get NO_LABEL).isSome = true
  used : ∀ p ∈ m, (∃ s, ∃ t ∈ f.trsOf s, side input t = p.1 ∧ p.1 ≠ EPS) ∨ (p.1 = NO_LABEL ∧ ∃ s, hasFinal f s = true)
  flags : f.Truthful → g.Truthful

theorem transformFst_spec (f : Fst W) (input : Bool) : Transformed f input (transformFst f input).1 (transformFst f input).2 := by
  obtain ⟨a, ha⟩ : ∃ a, a = (List.range f.numStates).foldl (fun a s => redirectFin (redirectState input a s) s)
    ((⟨[], f.numStates, fun _ => 0⟩ : RedirSt), f) := ⟨_, rfl⟩
  have hT : TInv f input f.numStates a := by
    have : ∀ k, k ≤ f.numStates → TInv f input k ((List.range k).foldl (fun a s => redirectFin (redirectState input a s) s)
        ((⟨[], f.numStates, fun _ => 0⟩ : RedirSt), f)) := by
      intro k
      induction k with
      | zero =>
        intro _
        exact ⟨⟨by simp, by simp, by simp⟩, rfl, rfl, fun s _ => ⟨rfl, rfl⟩, by simp, by simp, by simp, by simp, (fun p hp => by cases hp), id⟩
      | succ k ih =>
        intro hk
        rw [List.range_succ, List.foldl_append]
        exact (ih (by omega)).step (by omega)
    rw [ha]; exact this _ le_rfl
  have hons : a.1.ons - f.numStates = a.1.l2s.length := by rw [hT.ok.ons]; omega
  obtain ⟨a1, a2, a3, a4, a5⟩ := addFinals_spec a.1.l2s.length a.2
  obtain ⟨g, hg⟩ : ∃ g, g = (List.range a.1.l2s.length).foldl (fun g _ => addFinalState g) a.2 := ⟨_, rfl⟩
  rw [← hg] at a1 a2 a3 a4 a5
  have hgn : g.numStates = f.numStates + a.1.l2s.length := by rw [a1, hT.num]
  obtain ⟨b1, b2, b3, b4, b5, b6⟩ := addStarts_spec (fun s => a.1.indeg s = 0) g.numStates g.numStates (g.addState.setStart g.numStates)
    (by simp) (by simp only [Fst.setStart_trsOf, Fst.addState_trsOf]; exact Fst.trsOf_of_ge le_rfl)
  obtain ⟨o, ho⟩ : ∃ o, o = (List.range g.numStates).foldl (fun o s => if a.1.indeg s = 0 then o.addTr g.numStates ⟨EPS, EPS, 1, s⟩ else o)
    (g.addState.setStart g.numStates) := ⟨_, rfl⟩
  rw [← ho] at b1 b2 b3 b4 b5 b6
  have e : transformFst f input = (o, a.1.l2s) := by
    unfold transformFst
    simp only
    rw [← ha, hons, ← hg, ← ho]
  rw [e]
  refine ⟨?_, ?_, hT.ok.keys, hT.ok.vals, ?_, ?_, ?_, ?_, ?_, ?_, hT.used, ?_⟩
  · simp only [b1, Fst.setStart_numStates, Fst.addState_numStates, hgn]
  · simp only [b2, Fst.setStart_start, hgn]
  · intro s hs
    simp only
    rw [b4 s (by omega)]
    simp only [Fst.setStart_trsOf, Fst.addState_trsOf]
    rw [a2]
    exact hT.trs s hs a.1 (.refl _)
  · intro s hs
    simp only
    rw [b3]
    simp only [Fst.setStart_finOf, Fst.addState_finOf]
    rw [a3 s (by rw [hT.num]; exact hs)]
    exact hT.fin s hs
  · intro s h1 h2
    simp only at h2 ⊢
    refine ⟨?_, ?_⟩
    · rw [b4 s (by omega)]
      simp only [Fst.setStart_trsOf, Fst.addState_trsOf]
      rw [a2]; exact Fst.trsOf_of_ge (by rw [hT.num]; exact h1)
    · rw [b3]
      simp only [Fst.setStart_finOf, Fst.addState_finOf]
      exact a4 s (by rw [hT.num]; exact h1) (by rw [hT.num]; exact h2)
  · simp only
    rw [← hgn]
    refine ⟨?_, b5⟩
    rw [b3]
    simp only [Fst.setStart_finOf, Fst.addState_finOf]
    exact Fst.finOf_of_ge le_rfl
  · intro s t ht hl
    exact hT.labels s (Fst.lt_of_mem_trsOf ht) t ht hl
  · intro s hs
    exact hT.ends s (hasFinal_lt hs) hs
  · intro tf
    exact b6 (Fst.truthful_setStart (Fst.truthful_addStates (a5 (hT.flags tf)) 1) _)

end
end Verif
