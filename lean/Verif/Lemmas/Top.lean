import Verif.Lemmas.Dfs
import Verif.Lemmas.SccVisit
import Mathlib.Data.List.Nodup

/-!
# The topological order visit
-/

namespace Verif
universe u
variable {W : Type u}
namespace Top
open Dfs

variable {f : Fst W} {keep : Tr W → Bool} {c : Nat → Color} {k : List (StateId × List (Tr W))}

/-- Invariant while no cycle has been met. -/
structure Good (f : Fst W) (keep : Tr W → Bool) (c : Nat → Color) (k : List (StateId × List (Tr W))) (fin : List StateId) : Prop where
  col : CInv f keep c k
  mem : ∀ q, q ∈ fin ↔ c q = .black
  nodup : fin.Nodup
  passed : ∀ a b, Ex f keep c k a b → c b = .black
  order : fin.Pairwise fun a b => ¬ KEdge f keep a b
  noLoop : ∀ a ∈ fin, ¬ KEdge f keep a a

/-- Each state on the stack reaches the states above it. -/
theorem stack_reach {e : StateId × List (Tr W)} (h : CInv f keep c (e :: k)) : ∀ q ∈ (e :: k).map Prod.fst,
    Relation.ReflTransGen (KEdge f keep) q e.1 := by
  have hpre : ∀ x ∈ e :: k, ∃ pre, f.trsOf x.1 = pre ++ x.2 := fun x hx => by
    obtain ⟨pre, h1, -⟩ := h.pre x hx; exact ⟨pre, h1⟩
  have hch := h.chain
  clear h
  induction k generalizing e with
  | nil => intro q hq; simp only [List.map_cons, List.map_nil, List.mem_singleton] at hq; rw [hq]
  | cons e' k ih =>
    rw [List.isChain_cons] at hch
    obtain ⟨t, rest, h1, h2, h3⟩ := hch.1 e' (by simp)
    obtain ⟨pre, hp⟩ := hpre e' (by simp)
    have he : KEdge f keep e'.1 e.1 := ⟨t, by rw [hp, h1]; simp, h2, h3⟩
    intro q hq
    rw [List.map_cons, List.mem_cons] at hq
    rcases hq with rfl | hq
    · exact .refl
    · exact (ih (fun x hx => hpre x (List.mem_cons_of_mem _ hx)) hch.2 q hq).tail he

/-- Invariant of the visit. -/
def VInv (f : Fst W) (keep : Tr W → Bool) (c0 : Nat → Color) (st : DfsSt W TopV) : Prop :=
  (st.dfs = true ∧ st.vis.acyclic = true ∧ st.vis.order = [] ∧ Good f keep st.color st.stack st.vis.finish ∧
    ∀ q, c0 q ≠ .white → st.color q ≠ .white) ∨
  (st.dfs = false ∧ st.vis.acyclic = false ∧ ∃ q, Relation.TransGen (KEdge f keep) q q)

theorem Good.push {fin : List StateId} (h : Good f keep c k fin) {s : StateId} (hs : c s = .white) (hn : s < f.numStates)
    (hc : ∀ e ∈ k.head?, ∃ t rest, e.2 = t :: rest ∧ keep t = true ∧ t.nextstate = s) :
    Good f keep (upd c s .grey) ((s, f.trsOf s) :: k) fin where
  col := h.col.push hs hn hc
  mem := by
    intro q; rw [h.mem]
    simp only [upd]; split
    · next e => subst e; simp [hs]
    · rfl
  nodup := h.nodup
  passed := by
    intro a b hab
    rw [Ex.push h.col hs] at hab
    have := h.passed a b hab
    simp only [upd]; split
    · next e => rw [e, hs] at this; cases this
    · exact this
  order := h.order
  noLoop := h.noLoop

theorem Good.advance {fin : List StateId} {s : StateId} {t : Tr W} {rest : List (Tr W)} (h : Good f keep c ((s, t :: rest) :: k) fin)
    (hc : keep t = true → c t.nextstate = .black) : Good f keep c ((s, rest) :: k) fin where
  col := h.col.advance (fun hk => by rw [hc hk]; simp)
  mem := h.mem
  nodup := h.nodup
  passed := by
    intro a b hab
    rw [Ex.advance h.col] at hab
    rcases hab with hab | ⟨-, hk, rfl⟩
    · exact h.passed a b hab
    · exact hc hk
  order := h.order
  noLoop := h.noLoop

theorem Good.finish {fin : List StateId} {s : StateId} (h : Good f keep c ((s, []) :: k) fin) :
    Good f keep (upd c s .black) (popStack k) (fin ++ [s]) := by
  have hcs : c s = .grey := by rw [h.col.grey]; simp
  have hall : ∀ w, KEdge f keep s w → c w = .black := by
    rintro w ⟨t, ht, hk, rfl⟩
    obtain ⟨pre, e, -⟩ := h.col.pre (s, []) (by simp)
    simp only [List.append_nil] at e
    exact h.passed s _ ⟨t, ⟨ht, .inr ⟨pre, [], by simp, by simpa using e, by rw [← e]; exact ht⟩⟩, hk, rfl⟩
  have hblack : ∀ a ∈ fin, ∀ b, KEdge f keep a b → c b = .black := by
    rintro a ha b ⟨t, ht, hk, rfl⟩
    exact h.passed a _ ⟨t, ⟨ht, .inl ((h.mem a).1 ha)⟩, hk, rfl⟩
  have hsf : s ∉ fin := by rw [h.mem, hcs]; simp
  exact {
    col := h.col.finish
    mem := by
      intro q
      rw [List.mem_append, List.mem_singleton, h.mem]
      simp only [upd]; split
      · next e => simp [e]
      · next e => simp [e]
    nodup := by
      rw [List.nodup_append]
      refine ⟨h.nodup, by simp, ?_⟩
      intro a ha b hb
      rw [List.mem_singleton] at hb
      rintro rfl; exact hsf (hb ▸ ha)
    passed := by
      intro a b hab
      rw [Ex.finish h.col] at hab
      simp only [upd]; split
      · rfl
      · next e =>
        rcases hab with hab | ⟨-, hb⟩
        · exact h.passed a b hab
        · exact absurd hb e
    order := by
      rw [List.pairwise_append]
      refine ⟨h.order, by simp, ?_⟩
      intro a ha b hb he
      rw [List.mem_singleton] at hb
      subst hb
      have := hblack a ha b he
      rw [hcs] at this; cases this
    noLoop := by
      intro a ha he
      rw [List.mem_append, List.mem_singleton] at ha
      rcases ha with ha | rfl
      · exact h.noLoop a ha he
      · have := hall a he
        rw [hcs] at this; cases this }

theorem VInv.step (hw : ∀ s, ∀ t ∈ f.trsOf s, t.nextstate < f.numStates) {root : Nat} {c0 : Nat → Color}
    (st : DfsSt W TopV) (h : VInv f keep c0 st) (hne : st.stack ≠ []) :
    VInv f keep c0 (Dfs.step f TopV.visitor keep root st) := by
  obtain ⟨c, k, v, d⟩ := st
  rcases h with ⟨h1, h2, h2', h3, h4⟩ | ⟨h1, h2, h3⟩
  · simp only at h1 h2 h2' h3 h4 hne
    subst h1
    cases k with
    | nil => exact absurd rfl hne
    | cons e k =>
      obtain ⟨s, ts⟩ := e
      cases ts with
      | nil =>
        have := h3.finish
        have hc : ∀ q, c0 q ≠ .white → upd c s .black q ≠ .white := by
          intro q hq; simp only [upd]; split
          · simp
          · exact h4 q hq
        cases k with
        | nil => exact .inl ⟨rfl, h2, h2', this, hc⟩
        | cons e k => exact .inl ⟨rfl, h2, h2', this, hc⟩
      | cons t rest =>
        have he : t ∈ f.trsOf s := by
          obtain ⟨pre, h1, -⟩ := h3.col.pre (s, t :: rest) (by simp)
          simp only at h1; rw [h1]; simp
        simp only [Dfs.step, followTr, if_true]
        by_cases hk : keep t = true
        · rw [if_pos hk]
          cases hc : c t.nextstate with
          | white =>
            refine .inl ⟨rfl, h2, h2', h3.push hc (hw s t he) (by simp [hk]), ?_⟩
            intro q hq
            simp only [TopV.visitor, if_true, upd]; split
            · simp
            · exact h4 q hq
          | grey =>
            refine .inr ⟨rfl, rfl, s, ?_⟩
            have hg := (h3.col.grey _).1 hc
            exact Relation.TransGen.head' ⟨t, he, hk, rfl⟩ (stack_reach h3.col _ hg)
          | black => exact .inl ⟨rfl, h2, h2', h3.advance (fun _ => hc), h4⟩
        · rw [if_neg hk]
          exact .inl ⟨rfl, h2, h2', h3.advance (fun h' => absurd h' hk), h4⟩
  · simp only at h1 h2 h3 hne
    subst h1
    cases k with
    | nil => exact absurd rfl hne
    | cons e k =>
      obtain ⟨s, ts⟩ := e
      cases k with
      | nil => exact .inr ⟨rfl, h2, h3⟩
      | cons e k => exact .inr ⟨rfl, h2, h3⟩

/-- One complete tree. -/
theorem visitRoot_top (hw : ∀ s, ∀ t ∈ f.trsOf s, t.nextstate < f.numStates) {r : Nat} (hr : r < f.numStates) {v : TopV}
    {c : Nat → Color} (hv : v.acyclic = true) (ho : v.order = []) (hT : Good f keep c [] v.finish) (hc : c r = .white) :
    (∃ c' v', visitRoot f TopV.visitor keep r ⟨c, [], v, true⟩ = ⟨c', [], v', true⟩ ∧ v'.acyclic = true ∧ v'.order = [] ∧
      Good f keep c' [] v'.finish ∧ (∀ q, c q ≠ .white → c' q ≠ .white) ∧ c' r ≠ .white) ∨
    (∃ st, visitRoot f TopV.visitor keep r ⟨c, [], v, true⟩ = st ∧ st.dfs = false ∧ st.vis.acyclic = false ∧
      ∃ q, Relation.TransGen (KEdge f keep) q q) := by
  have key := visitRoot_induct (P := VInv f keep (upd c r .grey)) (vt := TopV.visitor) (keep := keep) (root := r) hw hr
    ⟨c, [], v, true⟩ hc (.inl ⟨rfl, hv, ho, hT.push hc hr (by simp), fun q hq => hq⟩)
    (fun st h hne => h.step hw st hne)
  obtain ⟨h | h, h4⟩ := key
  · obtain ⟨h1, h2, h2', h3, h5⟩ := h
    left
    generalize visitRoot f TopV.visitor keep r ⟨c, [], v, true⟩ = st at *
    obtain ⟨c', k', v', d'⟩ := st
    simp only at h1 h2 h2' h3 h4 h5
    subst h1 h4
    refine ⟨c', v', rfl, h2, h2', h3, fun q hq => h5 q ?_, h5 r (by simp [upd])⟩
    simp only [upd]; split
    · simp
    · exact hq
  · exact .inr ⟨_, rfl, h⟩

/-- The whole visit: a finishing order of all states without edges from earlier to later states, or a cycle. -/
theorem topVisit_inv {i : StateId} (hw : f.WF) (hi : f.start = some i) (keep : Tr W → Bool) :
    ((f.topVisit keep).acyclic = true ∧ (f.topVisit keep).order = TopV.number (f.topVisit keep).finish ∧
      (∀ q, q ∈ (f.topVisit keep).finish ↔ q < f.numStates) ∧ (f.topVisit keep).finish.Nodup ∧
      (f.topVisit keep).finish.Pairwise (fun a b => ¬ KEdge f keep a b) ∧
      ∀ a ∈ (f.topVisit keep).finish, ¬ KEdge f keep a a) ∨
    ((f.topVisit keep).acyclic = false ∧ ∃ q, Relation.TransGen (KEdge f keep) q q) := by
  have hin := hw.start_lt i hi
  have g0 : Good f keep (fun _ => .white) [] [] := ⟨.start, by simp, by simp, fun a b h => absurd h (Ex.start a b), by simp, by simp⟩
  have loop : ∀ m, m ≤ f.numStates → ∀ st0 : DfsSt W TopV, st0 = visitRoot f TopV.visitor keep i ⟨fun _ => .white, [], TopV.new, true⟩ →
      (∃ c v, (List.range m).foldl (nextRoot f TopV.visitor keep) st0 = ⟨c, [], v, true⟩ ∧ v.acyclic = true ∧ v.order = [] ∧
        Good f keep c [] v.finish ∧ ∀ q, q < m → c q ≠ .white) ∨
      (∃ st, (List.range m).foldl (nextRoot f TopV.visitor keep) st0 = st ∧ st.dfs = false ∧ st.vis.acyclic = false ∧
        ∃ q, Relation.TransGen (KEdge f keep) q q) := by
    intro m
    induction m with
    | zero =>
      intro _ st0 e0
      rcases visitRoot_top (keep := keep) (v := TopV.new) hw.next_lt hin rfl rfl g0 rfl with ⟨c', v', e, h1, h2, h3, -⟩ | ⟨st, e, h⟩
      · exact .inl ⟨c', v', e0.trans e, h1, h2, h3, by simp⟩
      · exact .inr ⟨st, e0.trans e, h⟩
    | succ m ih =>
      intro hm st0 e0
      rw [List.range_succ, List.foldl_append]
      simp only [List.foldl_cons, List.foldl_nil]
      rcases ih (by omega) st0 e0 with ⟨c, v, e, h1, h2, h3, h4⟩ | ⟨st, e, h1, h2, h3⟩
      · rw [e]
        simp only [nextRoot, Bool.true_and, decide_eq_true_eq]
        by_cases hcm : c m = .white
        · rw [if_pos hcm]
          rcases visitRoot_top (keep := keep) hw.next_lt (show m < f.numStates by omega) h1 h2 h3 hcm with
            ⟨c', v', e', h1', h2', h3', h4', h5'⟩ | ⟨st, e', h⟩
          · refine .inl ⟨c', v', e', h1', h2', h3', fun q hq => ?_⟩
            by_cases hqm : q = m
            · rw [hqm]; exact h5'
            · exact h4' q (h4 q (by omega))
          · exact .inr ⟨st, e', h⟩
        · rw [if_neg hcm]
          refine .inl ⟨c, v, rfl, h1, h2, h3, fun q hq => ?_⟩
          by_cases hqm : q = m
          · rw [hqm]; exact hcm
          · exact h4 q (by omega)
      · rw [e]
        refine .inr ⟨st, ?_, h1, h2, h3⟩
        simp [nextRoot, h1]
  unfold Fst.topVisit visit
  rw [hi]
  simp only [if_pos hin]
  rcases loop f.numStates (le_refl _) _ rfl with ⟨c, v, e, h1, h2, h3, h4⟩ | ⟨st, e, h1, h2, h3⟩
  · left
    rw [e]
    simp only [TopV.visitor, h1, if_true]
    refine ⟨trivial, trivial, fun q => ?_, h3.nodup, h3.order, h3.noLoop⟩
    rw [h3.mem]
    constructor
    · intro h; exact h3.col.lt q (by rw [h]; simp)
    · intro h
      have hw' := h4 q h
      have hg : c q ≠ .grey := by rw [Ne, h3.col.grey]; simp
      cases hcq : c q <;> simp_all
  · right
    rw [e]
    simp only [TopV.visitor, h2, Bool.false_eq_true, if_false]
    exact ⟨trivial, h3⟩

/-! ## Numbering -/

theorem foldl_set (l : List (Nat × Nat)) (o : List Nat) (hn : (l.map Prod.fst).Nodup) (hl : ∀ p ∈ l, p.1 < o.length) :
    (l.foldl (fun o p => o.set p.1 p.2) o).length = o.length ∧
    (∀ p ∈ l, (l.foldl (fun o p => o.set p.1 p.2) o)[p.1]? = some p.2) ∧
    ∀ q, q ∉ l.map Prod.fst → (l.foldl (fun o p => o.set p.1 p.2) o)[q]? = o[q]? := by
  induction l generalizing o with
  | nil => simp
  | cons p l ih =>
    simp only [List.map_cons, List.nodup_cons] at hn
    obtain ⟨h1, h2, h3⟩ := ih (o.set p.1 p.2) hn.2 (fun p' hp' => by rw [List.length_set]; exact hl p' (by simp [hp']))
    simp only [List.foldl_cons]
    refine ⟨by rw [h1, List.length_set], ?_, ?_⟩
    · intro p' hp'
      rw [List.mem_cons] at hp'
      rcases hp' with rfl | hp'
      · rw [h3 _ hn.1, List.getElem?_set_self (hl _ (by simp))]
      · exact h2 p' hp'
    · intro q hq
      simp only [List.map_cons, List.mem_cons, not_or] at hq
      rw [h3 q hq.2, List.getElem?_set_ne (Ne.symm hq.1)]

theorem number_length (fin : List StateId) (hn : fin.Nodup) (hm : ∀ q ∈ fin, q < fin.length) :
    (TopV.number fin).length = fin.length ∧ ∀ j, j < fin.length →
      ∀ s, fin.reverse[j]? = some s → (TopV.number fin)[s]? = some j := by
  unfold TopV.number
  have hmap : (fin.reverse.zipIdx).map Prod.fst = fin.reverse := by simp
  obtain ⟨h1, h2, -⟩ := foldl_set fin.reverse.zipIdx (List.replicate fin.length 0) (by rw [hmap]; exact List.nodup_reverse.2 hn)
    (by
      intro p hp
      have := List.mem_map_of_mem (f := Prod.fst) hp
      rw [hmap, List.mem_reverse] at this
      simpa using hm _ this)
  refine ⟨by rw [h1]; simp, ?_⟩
  intro j hj s hs
  have := h2 (s, j) (by rw [List.mem_zipIdx_iff_getElem?]; exact hs)
  exact this

/-- The numbering is a permutation and respects the edges. -/
theorem number_spec {E : Nat → Nat → Prop} {n : Nat} (fin : List StateId) (hn : fin.Nodup) (hm : ∀ q, q ∈ fin ↔ q < n)
    (ho : fin.Pairwise fun a b => ¬ E a b) (hl : ∀ a ∈ fin, ¬ E a a) :
    (TopV.number fin).Perm (List.range n) ∧
    ∀ a b, a < n → b < n → E a b → (TopV.number fin)[a]?.getD 0 < (TopV.number fin)[b]?.getD 0 := by
  have hperm : fin.Perm (List.range n) := by
    rw [List.perm_ext_iff_of_nodup hn List.nodup_range]; simpa using hm
  have hlen : fin.length = n := by simpa using hperm.length_eq
  obtain ⟨h1, h2⟩ := number_length fin hn (fun q hq => by rw [hlen]; exact (hm q).1 hq)
  have hpos : ∀ s, s < n → ∃ j, j < n ∧ fin.reverse[j]? = some s ∧ (TopV.number fin)[s]? = some j := by
    intro s hs
    have : s ∈ fin.reverse := by rw [List.mem_reverse, hm]; exact hs
    obtain ⟨j, hj, e⟩ := List.getElem_of_mem this
    have hj' : j < fin.length := by simpa using hj
    have e' : fin.reverse[j]? = some s := by rw [List.getElem?_eq_getElem hj, e]
    exact ⟨j, by omega, e', h2 j hj' s e'⟩
  constructor
  · have hnd : (TopV.number fin).Nodup := by
      show List.Pairwise (· ≠ ·) _
      rw [List.pairwise_iff_getElem]
      intro a b ha hb hab heq
      obtain ⟨j, -, e1, e2⟩ := hpos a (by omega)
      obtain ⟨j', -, e1', e2'⟩ := hpos b (by omega)
      rw [List.getElem?_eq_getElem ha, heq] at e2
      rw [List.getElem?_eq_getElem hb, e2] at e2'
      cases e2'
      rw [e1] at e1'
      have := Option.some.inj e1'
      omega
    rw [List.perm_ext_iff_of_nodup hnd List.nodup_range]
    have hsub : ∀ x ∈ TopV.number fin, x < n := by
      intro x hx
      obtain ⟨s, hs, e⟩ := List.getElem_of_mem hx
      obtain ⟨j, hj, -, e2⟩ := hpos s (by omega)
      rw [List.getElem?_eq_getElem hs, e] at e2
      cases e2; exact hj
    intro x
    rw [List.mem_range]
    refine ⟨hsub x, fun hx => ?_⟩
    have hx' : x < fin.reverse.length := by simpa [hlen] using hx
    have e : fin.reverse[x]? = some fin.reverse[x] := List.getElem?_eq_getElem hx'
    exact List.mem_of_getElem? (h2 x (by omega) _ e)
  · intro a b ha hb he
    obtain ⟨j, hj, e1, e2⟩ := hpos a ha
    obtain ⟨j', hj', e1', e2'⟩ := hpos b hb
    rw [e2, e2']
    show j < j'
    have hr : fin.reverse.Pairwise fun a b => ¬ E b a := List.pairwise_reverse.2 ho
    rcases lt_trichotomy j j' with h | h | h
    · exact h
    · subst h
      rw [e1] at e1'
      cases e1'
      exact absurd he (hl a ((hm a).2 ha))
    · exfalso
      rw [List.pairwise_iff_getElem] at hr
      have hl1 : j < fin.reverse.length := by simpa [hlen] using hj
      have hl2 : j' < fin.reverse.length := by simpa [hlen] using hj'
      have := hr j' j hl2 hl1 h
      rw [List.getElem?_eq_getElem hl1] at e1
      rw [List.getElem?_eq_getElem hl2] at e1'
      cases e1; cases e1'
      exact this he

/-- The complete specification of the visit. -/
theorem topVisit_spec {i : StateId} (hw : f.WF) (hi : f.start = some i) (keep : Tr W → Bool) :
    ((f.topVisit keep).acyclic = true ∧ (¬ ∃ q, Relation.TransGen (KEdge f keep) q q) ∧
      (f.topVisit keep).order.Perm (List.range f.numStates) ∧
      ∀ a b, KEdge f keep a b → (f.topVisit keep).order[a]?.getD 0 < (f.topVisit keep).order[b]?.getD 0) ∨
    ((f.topVisit keep).acyclic = false ∧ ∃ q, Relation.TransGen (KEdge f keep) q q) := by
  rcases topVisit_inv hw hi keep with ⟨h1, h2, h3, h4, h5, h6⟩ | h
  · left
    obtain ⟨p1, p2⟩ := number_spec (E := KEdge f keep) _ h4 h3 h5 h6
    rw [h2]
    have hE : ∀ a b, KEdge f keep a b → (TopV.number (f.topVisit keep).finish)[a]?.getD 0 <
        (TopV.number (f.topVisit keep).finish)[b]?.getD 0 := by
      intro a b he
      obtain ⟨t, ht, -, rfl⟩ := id he
      exact p2 a _ (Scc.trsOf_lt ht) (hw.next_lt a t ht) he
    refine ⟨h1, ?_, p1, hE⟩
    rintro ⟨q, hq⟩
    have key : ∀ a b, Relation.TransGen (KEdge f keep) a b → (TopV.number (f.topVisit keep).finish)[a]?.getD 0 <
        (TopV.number (f.topVisit keep).finish)[b]?.getD 0 := by
      intro a b hab
      induction hab with
      | single e => exact hE _ _ e
      | tail _ e ih => exact lt_trans ih (hE _ _ e)
    exact lt_irrefl _ (key q q hq)
  · exact .inr h

end Top
end Verif
