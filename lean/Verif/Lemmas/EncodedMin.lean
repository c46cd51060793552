import Verif.Props.C57
import Verif.Props.C22
import Verif.Props.C31Push

/-! # Minimizing an encoded FST -/

namespace Verif
set_option linter.unusedSectionVars false
open Fst
universe u
variable {W : Type u}

/-! ## Two deterministic acceptors of the same language -/

theorem Fst.Reads.single {f : Fst W} {s a r} (h : f.Reads s [a] r) : ∃ t ∈ f.trsOf s, t.ilabel = a ∧ t.nextstate = r := by
  generalize hx : [a] = x at h
  cases h with
  | nil => cases hx
  | @cons _ t y q ht hr =>
    injection hx with h1 h2
    subst h2
    generalize hy : ([] : List Label) = z at hr
    cases hr with
    | nil => exact ⟨t, ht, h1.symm, rfl⟩
    | cons => cases hy

/-- A useful state `s` of `m` has a counterpart in `e`, which has at least the transitions of `s`. -/
theorem Fst.counterpart {V : Type*} {m : Fst W} {e : Fst V} (dm : m.Deterministic) (de : e.Deterministic) (hl : m.language = e.language)
    (hu : m.AllUseful) (wm : m.WF) {i i' : StateId} (hi : m.start = some i) (hi' : e.start = some i') {s : StateId} (hs : s < m.numStates) :
    ∃ s', (s = i → s' = i') ∧ (m.IsFinal s ↔ e.IsFinal s') ∧ ∀ t ∈ m.trsOf s, ∃ t' ∈ e.trsOf s', t'.ilabel = t.ilabel ∧
      (m.IsFinal t.nextstate ↔ e.IsFinal t'.nextstate) := by
  have hin : ∀ x, (∃ q, m.Reads i x q ∧ m.IsFinal q) ↔ ∃ q, e.Reads i' x q ∧ e.IsFinal q := by
    intro x
    have h1 : x ∈ m.language ↔ x ∈ e.language := by rw [hl]
    constructor
    · intro h
      obtain ⟨j, hj, h⟩ := h1.1 ⟨i, hi, h⟩
      rw [hi'] at hj; cases hj; exact h
    · intro h
      obtain ⟨j, hj, h⟩ := h1.2 ⟨i', hi', h⟩
      rw [hi] at hj; cases hj; exact h
  -- from here on a state of `e`
  have key : ∀ u q, m.Reads i u q → q < m.numStates → ∃ q', e.Reads i' u q' ∧ (m.IsFinal q ↔ e.IsFinal q') := by
    intro u q hr hq
    obtain ⟨r, hqr, hf⟩ := (hu q hq).2
    obtain ⟨v, hv⟩ := reads_of_reach hqr
    obtain ⟨r', hr', -⟩ := (hin (u ++ v)).1 ⟨r, hr.append hv, hf⟩
    obtain ⟨q', hq', -⟩ := hr'.split
    refine ⟨q', hq', fun h => ?_, fun h => ?_⟩
    · obtain ⟨x, hx, hxf⟩ := (hin u).1 ⟨q, hr, h⟩
      rw [hq'.unique de hx]; exact hxf
    · obtain ⟨x, hx, hxf⟩ := (hin u).2 ⟨q', hq', h⟩
      rw [hr.unique dm hx]; exact hxf
  obtain ⟨j, hj, hreach⟩ := (hu s hs).1
  rw [hi] at hj; cases hj
  obtain ⟨u, hur⟩ : ∃ u, m.Reads i u s ∧ (s = i → u = []) := by
    by_cases h : s = i
    · subst h; exact ⟨[], .nil _, fun _ => rfl⟩
    · obtain ⟨u, hu⟩ := reads_of_reach hreach
      exact ⟨u, hu, fun h' => absurd h' h⟩
  obtain ⟨hr, hnil⟩ := hur
  obtain ⟨s', hs', hf⟩ := key u s hr hs
  refine ⟨s', fun h => ?_, hf, fun t ht => ?_⟩
  · rw [hnil h] at hs'
    cases hs'; rfl
  · have h1 : m.Reads i (u ++ [t.ilabel]) t.nextstate := hr.append (.cons ht (.nil _))
    obtain ⟨q', hq', hqf⟩ := key _ _ h1 (wm.next_lt s t ht)
    obtain ⟨x, hx, hxq⟩ := hq'.split
    rw [← hs'.unique de hx] at hxq
    obtain ⟨t', ht', h1, h2⟩ := hxq.single
    exact ⟨t', ht', h1, by rw [hqf, h2]⟩

/-! ## Removing the superfinal states -/

section rm
variable [AddCommMonoid W] [Monoid W] [DecidableEq W]

/-- `rm_final_epsilon` on an FST whose final states have weight one and no transitions, and are only entered by ε-transitions, at most
one from each state: these transitions become final weights. -/
theorem rmFinalEpsilon_super (hz : ∀ a : W, a * 0 = 0) (k : Fst W) (hw : k.WF) (hfin : ∀ s w, k.finOf s = some w → w = 1 ∧ k.trsOf s = [])
    (heps : ∀ s, ∀ t ∈ k.trsOf s, (k.finOf t.nextstate).isSome = true → t.ilabel = EPS ∧ t.olabel = EPS)
    (hone : ∀ s, ((k.trsOf s).filter fun t => (k.finOf t.nextstate).isSome).length ≤ 1)
    (hst : ∀ i, k.start = some i → k.finOf i = none) :
    ∃ g h : Fst W, k.rmFinalEpsilon = .ok h ∧ h.WF ∧ g.connect = .ok h ∧ g.WF ∧ g.start = k.start ∧ g.numStates = k.numStates ∧
      (∀ s, g.trsOf s = (k.trsOf s).filter fun t => !(k.finOf t.nextstate).isSome) ∧
      (∀ n, live (h.accPaths n) = live (k.accPaths (n + 1))) ∧ (∀ q, q < h.numStates → h.Accessible q ∧ h.Coaccessible q) ∧
      (∀ q v, g.finOf q = some v → k.finOf q = some v ∨ ∃ t ∈ k.trsOf q, (k.finOf t.nextstate).isSome = true ∧ t.weight = v) := by
  obtain ⟨D, hD⟩ : ∃ D : StateId → Bool, D = k.deadEnds (k.sccVisit fun _ => true).coaccess := ⟨_, rfl⟩
  have hDs : ∀ s, D s = (k.finOf s).isSome := by
    intro s
    rw [hD]
    unfold deadEnds
    cases h : k.finOf s with
    | none => rfl
    | some w => rw [(hfin s w h).2]; rfl
  obtain ⟨g, g1, g2, g3, g4, -, g6⟩ := rmFinal_loop k hw (k.deadEnds (k.sccVisit fun _ => true).coaccess)
  rw [← hD] at g1 g4 g6
  have g6 := g6 (by
    intro q t hq ht
    rw [hDs] at hq
    obtain ⟨w, hw⟩ := Option.isSome_iff_exists.1 hq
    rw [(hfin q w hw).2] at ht; cases ht)
  have hto : ∀ s, ∀ t ∈ k.trsOf s, toDeadEnd D t = (k.finOf t.nextstate).isSome := by
    intro s t ht
    unfold toDeadEnd
    rw [hDs]
    cases h : (k.finOf t.nextstate).isSome with
    | false => rfl
    | true =>
      obtain ⟨h1, h2⟩ := heps s t ht h
      rw [h1, h2]; rfl
  have g4' : ∀ s, g.trsOf s = (k.trsOf s).filter fun t => !(k.finOf t.nextstate).isSome := by
    intro s
    rw [g4]
    exact List.filter_congr fun t ht => by rw [hto s t ht]
  have hflt : ∀ s, (k.trsOf s).filter (toDeadEnd D) = (k.trsOf s).filter fun t => (k.finOf t.nextstate).isSome :=
    fun s => List.filter_congr fun t ht => hto s t ht
  have hgw : g.WF := ⟨fun i hi => by rw [g2]; exact hw.start_lt i (g3 ▸ hi), fun s t ht => by
    rw [g2]; rw [g4] at ht; exact hw.next_lt s t (List.mem_filter.1 ht).1⟩
  -- paths
  have hend : ∀ n q, (k.finOf q).isSome = true → k.pathsFrom (n + 1) q = 0 := by
    intro n q hq
    obtain ⟨w, hw⟩ := Option.isSome_iff_exists.1 hq
    rw [pathsFrom_succ, (hfin q w hw).2]; rfl
  have hnot : ∀ q, (k.finOf q).isSome = false → k.pathsFrom 0 q = 0 := by
    intro q hq
    rw [pathsFrom_zero]
    cases h : k.finOf q with
    | none => rfl
    | some w => rw [h] at hq; cases hq
  have hsplit : ∀ n s, k.pathsFrom (n + 1) s =
      (((k.trsOf s).filter fun t => (k.finOf t.nextstate).isSome : List (Tr W)) : Multiset (Tr W)).bind
        (fun t => (k.pathsFrom n t.nextstate).map fun p => t.asPath.cat p) +
      (((k.trsOf s).filter fun t => !(k.finOf t.nextstate).isSome : List (Tr W)) : Multiset (Tr W)).bind
        (fun t => (k.pathsFrom n t.nextstate).map fun p => t.asPath.cat p) := by
    intro n s
    rw [pathsFrom_succ]
    exact bind_filter_split _ _ _
  have hpaths : ∀ n s, k.finOf s = none → live (g.pathsFrom n s) = live (k.pathsFrom (n + 1) s) := by
    intro n
    induction n with
    | zero =>
      intro s hs
      rw [hsplit]
      have h2 : (((k.trsOf s).filter fun t => !(k.finOf t.nextstate).isSome : List (Tr W)) : Multiset (Tr W)).bind
          (fun t => (k.pathsFrom 0 t.nextstate).map fun p => t.asPath.cat p) = 0 := by
        rw [← Multiset.bind_zero (((k.trsOf s).filter fun t => !(k.finOf t.nextstate).isSome : List (Tr W)) : Multiset (Tr W))]
        refine Multiset.bind_congr fun t ht => ?_
        rw [hnot _ (by simpa using (List.mem_filter.1 (Multiset.mem_coe.1 ht)).2)]; rfl
      rw [h2, add_zero, pathsFrom_zero, g6]
      unfold rmFin rmFinalWeight
      rw [hflt, hs]
      have h1 := hone s
      cases hc : (k.trsOf s).filter fun t => (k.finOf t.nextstate).isSome with
      | nil => rfl
      | cons t l =>
        rw [hc] at h1
        obtain rfl : l = [] := by
          cases l with
          | nil => rfl
          | cons a l => simp at h1
        have hm : t ∈ (k.trsOf s).filter fun t => (k.finOf t.nextstate).isSome := by rw [hc]; exact List.mem_cons_self
        obtain ⟨hm1, hm2⟩ := List.mem_filter.1 hm
        obtain ⟨w, hwf⟩ := Option.isSome_iff_exists.1 hm2
        obtain ⟨e1, e2⟩ := heps s t hm1 hm2
        have hw1 := (hfin _ w hwf).1
        subst hw1
        rw [if_neg (by simp)]
        simp only [List.foldl_cons, List.foldl_nil, hwf, Option.getD_none, Option.getD_some, zero_add, one_mul]
        have hp : (([t] : List (Tr W)) : Multiset (Tr W)).bind (fun t => (k.pathsFrom 0 t.nextstate).map fun p => t.asPath.cat p) =
            {([], [], t.weight)} := by
          rw [Multiset.coe_singleton, Multiset.singleton_bind, pathsFrom_zero, hwf]
          simp [Tr.asPath, PathT.cat, e1, e2, strip]
        rw [hp]
        by_cases h0 : t.weight = 0
        · rw [if_pos h0, live_eq_zero (M := {([], [], t.weight)}) (by simp [h0])]; rfl
        · rw [if_neg h0]
    | succ n ih =>
      intro s hs
      rw [hsplit]
      have h1 : (((k.trsOf s).filter fun t => (k.finOf t.nextstate).isSome : List (Tr W)) : Multiset (Tr W)).bind
          (fun t => (k.pathsFrom (n + 1) t.nextstate).map fun p => t.asPath.cat p) = 0 := by
        rw [← Multiset.bind_zero (((k.trsOf s).filter fun t => (k.finOf t.nextstate).isSome : List (Tr W)) : Multiset (Tr W))]
        refine Multiset.bind_congr fun t ht => ?_
        rw [hend _ _ (List.mem_filter.1 (Multiset.mem_coe.1 ht)).2]; rfl
      rw [h1, zero_add, pathsFrom_succ, g4', live_bind, live_bind]
      refine Multiset.bind_congr fun t ht => ?_
      refine live_map_congr _ (fun p hp => ?_) (ih _ ?_)
      · show _ * _ = _
        rw [hp, hz]
      · have := (List.mem_filter.1 (Multiset.mem_coe.1 ht)).2
        cases h : k.finOf t.nextstate with
        | none => rfl
        | some w => rw [h] at this; simp at this
  obtain ⟨h, ds, hh, -⟩ := C18_connect g hgw
  refine ⟨g, h, ?_, (C18_wf g h hh).1, hh, hgw, g3, g2, g4', fun n => ?_, C18_trim g h hgw hh, fun q v hv => ?_⟩
  · unfold rmFinalEpsilon
    rw [if_neg (by rw [targetsOk_of_wf hw]; simp)]
    simp only
    rw [← hD, g1]
    exact hh
  · rw [C18_paths g h hgw hh]
    cases hi : k.start with
    | none => rw [accPaths_none (g3.trans hi), accPaths_none hi]
    | some i => rw [accPaths_some (g3.trans hi), accPaths_some hi]; exact hpaths n i (hst i hi)
  · rw [g6] at hv
    unfold rmFin at hv
    split at hv
    · exact .inl hv
    · rename_i hne
      split at hv
      · exact .inl hv
      · right
        unfold rmFinalWeight at hv
        rw [hflt] at hv hne
        have hnone : k.finOf q = none := by
          cases hf : k.finOf q with
          | none => rfl
          | some w => rw [(hfin q w hf).2] at hne; exact absurd rfl hne
        rw [hnone] at hv
        obtain ⟨t, ht⟩ : ∃ t, (k.trsOf q).filter (fun t => (k.finOf t.nextstate).isSome) = [t] := by
          have h1 := hone q
          rcases hL : (k.trsOf q).filter (fun t => (k.finOf t.nextstate).isSome) with _ | ⟨t, _ | ⟨t', l⟩⟩
          · exact absurd hL hne
          · exact ⟨t, hL⟩
          · rw [hL] at h1; simp at h1
        have htm : t ∈ (k.trsOf q).filter (fun t => (k.finOf t.nextstate).isSome) := by rw [ht]; simp
        obtain ⟨h1, h2⟩ := List.mem_filter.1 htm
        obtain ⟨w, hw1⟩ := Option.isSome_iff_exists.1 h2
        rw [ht] at hv
        simp only [List.foldl_cons, List.foldl_nil, Option.getD_none, hw1, Option.getD_some, (hfin _ w hw1).1, one_mul, zero_add, Option.some.injEq] at hv
        exact ⟨t, h1, h2, hv⟩

/-- An FST whose final weights have become ε-transitions to a superfinal state. -/
theorem superfinal_paths {f k : Fst W} (hw : f.WF) (ht : ∀ s, s < f.numStates → k.trsOf s = f.trsOf s ++ finTrs f.numStates (f.finOf s))
    (ht0 : k.trsOf f.numStates = []) (hf : ∀ s, k.finOf s = if s = f.numStates then some 1 else none) :
    ∀ n s, s < f.numStates → k.pathsFrom (n + 1) s = f.pathsFrom n s := by
  have hend : ∀ m, k.pathsFrom m f.numStates = if m = 0 then {([], [], 1)} else 0 := by
    intro m
    cases m with
    | zero => rw [pathsFrom_zero, hf]; simp
    | succ m => rw [pathsFrom_succ, ht0]; simp
  intro n
  induction n with
  | zero =>
    intro s hs
    have h0 : ∀ q, q < f.numStates → k.pathsFrom 0 q = 0 := by
      intro q hq
      have : q ≠ f.numStates := by omega
      rw [pathsFrom_zero, hf]; simp [this]
    rw [pathsFrom_succ, ht s hs, pathsFrom_zero, ← Multiset.coe_add, Multiset.add_bind]
    have : (f.trsOf s : Multiset (Tr W)).bind (fun t => (k.pathsFrom 0 t.nextstate).map fun p => t.asPath.cat p) = 0 := by
      rw [← Multiset.bind_zero (f.trsOf s : Multiset (Tr W))]
      refine Multiset.bind_congr fun t ht => ?_
      rw [h0 _ (hw.next_lt s t (by simpa using ht))]; rfl
    rw [this, zero_add]
    cases hfs : f.finOf s with
    | none => simp [finTrs]
    | some w => simp [finTrs, hend, Tr.asPath, PathT.cat, strip]
  | succ n ih =>
    intro s hs
    rw [pathsFrom_succ, ht s hs, pathsFrom_succ, ← Multiset.coe_add, Multiset.add_bind]
    have : (f.trsOf s : Multiset (Tr W)).bind (fun t => (k.pathsFrom (n + 1) t.nextstate).map fun p => t.asPath.cat p) =
        (f.trsOf s : Multiset (Tr W)).bind (fun t => (f.pathsFrom n t.nextstate).map fun p => t.asPath.cat p) := by
      refine Multiset.bind_congr fun t ht => ?_
      rw [ih _ (hw.next_lt s t (by simpa using ht))]
    rw [this]
    cases hfs : f.finOf s with
    | none => simp [finTrs]
    | some w => simp [finTrs, hend]

end rm

/-! ## Decoding -/

section dec
variable [Zero W] [One W] [DecidableEq W]

/-- What a label stands for. -/
def EncTable.get (T : EncTable W) (l : Label) : EncodeTuple W := (T.idToTuple[l - 1]?).getD ⟨0, 0, 1⟩

/-- The decoded transition. -/
def EncTable.dec (T : EncTable W) (t : Tr W) : Tr W :=
  ⟨(T.get t.ilabel).ilabel, (T.get t.ilabel).olabel, (T.get t.ilabel).weight, t.nextstate⟩

theorem EncTable.Code.get {T : EncTable W} {l x} (h : T.Code l x) : T.get l = x := by
  unfold EncTable.get; rw [h.2]; rfl

/-- Every label stands for something. -/
def Fst.Coded (T : EncTable W) (m : Fst W) : Prop := ∀ s, ∀ t ∈ m.trsOf s, ∃ x, T.Code t.ilabel x

theorem decodeTr_coded {T : EncTable W} {t : Tr W} {x} (h : T.Code t.ilabel x) : decodeTr .encodeWeightsAndLabels T t = .ok (T.dec t) := by
  unfold decodeTr EncTable.dec
  rw [decode_code h, h.get]; rfl

theorem EncTr.dec {T : EncTable W} {t t' : Tr W} (h : EncTr .encodeWeightsAndLabels T t t') : T.dec t' = t := by
  have h1 := decodeTr_enc h
  rw [decodeTr_coded h.1] at h1
  exact Except.ok.inj h1

/-- `tr_map` with the `DecodeMapper`. -/
theorem decode_coded {T : EncTable W} {m : Fst W} (hc : m.Coded T) (hs : m.start ≠ none ∨ m.numStates = 0) :
    ∃ k, m.trMap (decodeMapper .encodeWeightsAndLabels T) () = .ok ((), k) ∧ k.start = m.start ∧ k.numStates = m.numStates ∧
      (∀ s, k.finOf s = m.finOf s) ∧ ∀ s, k.trsOf s = (m.trsOf s).map T.dec := by
  by_cases h : m.start = none
  · have hn : m.numStates = 0 := by rcases hs with hs | hs; exact absurd h hs; exact hs
    refine ⟨m, simple_no_start m h _ _, rfl, rfl, fun _ => rfl, fun s => ?_⟩
    rw [trsOf_of_ge (by omega)]; rfl
  · obtain ⟨h1, h2⟩ := C50_simple (tr := decodeTr .encodeWeightsAndLabels T) (fin := fun w => .ok w)
      (p := (decodeMapper .encodeWeightsAndLabels T).props) m h
    obtain ⟨k, hk⟩ := h1.2 ⟨fun s t ht => by
      obtain ⟨x, hx⟩ := hc s t ht
      exact ⟨_, decodeTr_coded hx⟩, fun s w _ => ⟨w, rfl⟩⟩
    obtain ⟨hm, -⟩ := h2 k hk
    refine ⟨k, hk, hm.start, hm.num, fun s => ?_, fun s => ?_⟩
    · simpa using rel_ok (k := id) (hm.fin s)
    · refine forall₂_fun (r := decodeTr .encodeWeightsAndLabels T) (hm.trs s) ?_
      rw [List.forall₂_map_right_iff, List.forall₂_same]
      intro t ht
      obtain ⟨x, hx⟩ := hc s t ht
      exact decodeTr_coded hx

end dec

section decp
variable [Zero W] [Monoid W] [DecidableEq W]

/-- The path that a string of labels stands for. -/
def EncTable.path (T : EncTable W) (p : PathT W) : PathT W :=
  p.1.foldr (fun l q => (T.dec ⟨l, l, 1, 0⟩).asPath.cat q) ([], [], 1)

theorem decoded_paths {T : EncTable W} {m k : Fst W} (hc : m.Coded T) (hp : ∀ s w, m.finOf s = some w → w = 1)
    (hf : ∀ s, k.finOf s = m.finOf s) (ht : ∀ s, k.trsOf s = (m.trsOf s).map T.dec) :
    ∀ n s, k.pathsFrom n s = (m.pathsFrom n s).map T.path := by
  intro n
  induction n with
  | zero =>
    intro s
    rw [pathsFrom_zero, pathsFrom_zero, hf]
    cases h : m.finOf s with
    | none => rfl
    | some w => rw [hp s w h]; rfl
  | succ n ih =>
    intro s
    rw [pathsFrom_succ, pathsFrom_succ, ht, ← Multiset.map_coe, Multiset.bind_map, Multiset.map_bind]
    refine Multiset.bind_congr fun t htm => ?_
    rw [Multiset.map_map]
    show (k.pathsFrom n t.nextstate).map _ = _
    rw [ih, Multiset.map_map]
    refine Multiset.map_congr rfl fun p _ => ?_
    obtain ⟨x, hx⟩ := hc s t (by simpa using htm)
    have h0 : t.ilabel ≠ 0 := by have := hx.1; omega
    simp only [Function.comp, EncTable.path, PathT.cat, Tr.asPath, strip, if_neg h0, List.singleton_append, List.foldr_cons]
    rfl

end decp
end Verif
