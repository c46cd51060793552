import Verif.Lemmas.SccQueue
import Verif.Lemmas.Top
import Verif.Lemmas.SccVisit
import Verif.Lemmas.Trim

/-! # The queue chosen by `AutoQueue::new` keeps its law -/

namespace Verif
universe u v
set_option linter.unusedSectionVars false
variable {W : Type u}

/-- Forget part of what is promised. -/
def QueueLaw.weaken {Q : Type v} {o : QueueOps Q} {ok after} (L : QueueLaw o ok after) (after' : StateId → StateId → Prop)
    (h : ∀ s x, after s x → after' s x) : QueueLaw o ok after' where
  Rep := L.Rep
  size := L.size
  enqueue := L.enqueue
  update := L.update
  clear := L.clear
  isEmpty := L.isEmpty
  head := L.head
  dequeue hr := by
    rcases L.dequeue hr with ⟨s, q', S', a, b, c, d, e, g, i⟩ | h'
    · exact .inl ⟨s, q', S', a, b, c, d, e, fun x hx => h _ _ (g x hx), i⟩
    · exact .inr h'

/-- The queue inside an `AutoQueue`. -/
def QueueLaw.wrap {Q : Type} {o : QueueOps Q} {ok after} (L : QueueLaw o ok after) (mk : Q → AutoQ) (size : AutoQ → Nat)
    (hsize : ∀ q, size (mk q) = L.size q)
    (henq : ∀ q s, AutoQ.ops.enqueue (mk q) s = mapR mk (o.enqueue q s))
    (hupd : ∀ q s, AutoQ.ops.update (mk q) s = mapR mk (o.update q s))
    (hdeq : ∀ q, AutoQ.ops.dequeue (mk q) = mapR (fun p => (p.1, mk p.2)) (o.dequeue q))
    (hemp : ∀ q, AutoQ.ops.isEmpty (mk q) = o.isEmpty q)
    (hhead : ∀ q, AutoQ.ops.head (mk q) = o.head q)
    (hclr : ∀ q, AutoQ.ops.clear (mk q) = mapR mk (o.clear q)) : QueueLaw AutoQ.ops ok after where
  Rep c q S := ∃ p, q = mk p ∧ L.Rep c p S
  size := size
  enqueue {c q S s} h hs := by
    obtain ⟨p, rfl, hp⟩ := h
    obtain ⟨p', e, hr, hl⟩ := L.enqueue hp hs
    exact ⟨mk p', by rw [henq, e]; rfl, ⟨p', rfl, hr⟩, by simpa only [hsize] using hl⟩
  update {c q S s} h hs := by
    obtain ⟨p, rfl, hp⟩ := h
    obtain ⟨p', e, hr, hl⟩ := L.update hp hs
    exact ⟨mk p', by rw [hupd, e]; rfl, ⟨p', rfl, hr⟩, by simpa only [hsize] using hl⟩
  dequeue {c q S} h := by
    obtain ⟨p, rfl, hp⟩ := h
    rcases L.dequeue hp with ⟨s, q', S', a, b, c, d, e, g, i⟩ | ⟨q', a, b, c⟩
    · exact .inl ⟨s, mk q', S', by rw [hdeq, a]; rfl, b, ⟨q', rfl, c⟩, d, e, g, by simpa only [hsize] using i⟩
    · exact .inr ⟨mk q', by rw [hdeq, a]; rfl, b, ⟨q', rfl, c⟩⟩
  isEmpty {c q S} h := by
    obtain ⟨p, rfl, hp⟩ := h
    rw [hemp]
    exact L.isEmpty hp
  head {c q S} h hne := by
    obtain ⟨p, rfl, hp⟩ := h
    obtain ⟨s, q', h1, h2⟩ := L.head hp hne
    exact ⟨s, mk q', by rw [hhead, h1], by rw [hdeq, h2]; rfl⟩
  clear {c q S} h := by
    obtain ⟨p, rfl, hp⟩ := h
    obtain ⟨p', e, hr, hl⟩ := L.clear hp
    exact ⟨mk p', by rw [hclr, e]; rfl, ⟨p', rfl, hr⟩, by simpa only [hsize] using hl⟩

variable {ok : Option StateId → StateId → Prop} {after : StateId → StateId → Prop}

def QueueLaw.stateOrder (L : QueueLaw StateOrderQ.ops ok after) : QueueLaw AutoQ.ops ok after :=
  L.wrap AutoQ.stateOrder (fun | .stateOrder q => L.size q | _ => 0) (fun _ => rfl) (fun _ _ => rfl) (fun _ _ => rfl)
    (fun _ => rfl) (fun _ => rfl) (fun _ => rfl) (fun _ => rfl)

def QueueLaw.topOrder (L : QueueLaw TopOrderQ.ops ok after) : QueueLaw AutoQ.ops ok after :=
  L.wrap AutoQ.topOrder (fun | .topOrder q => L.size q | _ => 0) (fun _ => rfl) (fun _ _ => rfl) (fun _ _ => rfl)
    (fun _ => rfl) (fun _ => rfl) (fun _ => rfl) (fun _ => rfl)

def QueueLaw.lifo (L : QueueLaw lifoOps ok after) : QueueLaw AutoQ.ops ok after :=
  L.wrap AutoQ.lifo (fun | .lifo q => L.size q | _ => 0) (fun _ => rfl) (fun _ _ => rfl) (fun _ _ => rfl)
    (fun _ => rfl) (fun _ => rfl) (fun _ => rfl) (fun _ => rfl)

def QueueLaw.scc (L : QueueLaw (SccQ.ops InnerQ.ops) ok after) : QueueLaw AutoQ.ops ok after :=
  L.wrap AutoQ.scc (fun | .scc q => L.size q | _ => 0) (fun _ => rfl) (fun _ _ => rfl) (fun _ _ => rfl)
    (fun _ => rfl) (fun _ => rfl) (fun _ => rfl) (fun _ => rfl)

/-- `q` is a queue without states, and it is lawful. -/
def Lawful0 {Q : Type v} (o : QueueOps Q) (q : Q) (ok : Option StateId → StateId → Prop) (after : StateId → StateId → Prop) : Prop :=
  ∃ L : QueueLaw o ok after, L.Rep none q ∅

theorem Lawful0.weaken {Q : Type v} {o : QueueOps Q} {q : Q} {after' : StateId → StateId → Prop} (h : Lawful0 o q ok after)
    (h' : ∀ s x, after s x → after' s x) : Lawful0 o q ok after' := by
  obtain ⟨L, hL⟩ := h
  exact ⟨L.weaken after' h', hL⟩

theorem lawful_stateOrder (ok) : Lawful0 AutoQ.ops (.stateOrder StateOrderQ.new) ok (fun s x => s < x) := by
  refine ⟨(stateOrderLaw ok).stateOrder, StateOrderQ.new, rfl, ?_, ?_, ?_⟩
  · exact fun x => ⟨fun h => absurd h (Set.notMem_empty x), fun h => by cases h⟩
  · intro i hi; exact absurd hi (Set.notMem_empty i)
  · intro b hb; cases hb

theorem lawful_lifo (ok) : Lawful0 AutoQ.ops (.lifo []) ok (fun _ _ => True) :=
  ⟨(lifoLaw ok).lifo, [], rfl, fun x => ⟨fun h => absurd h (Set.notMem_empty x), fun h => by cases h⟩⟩

theorem lawful_topOrder {order : List Nat} {n : Nat} (ho : OrderOk order n) (hok : ∀ c s, ok c s → s < n) :
    Lawful0 AutoQ.ops (.topOrder (TopOrderQ.ofOrder order)) ok (fun s x => order[s]?.getD 0 < order[x]?.getD 0) := by
  refine ⟨(topOrderLaw order n ho ok hok).topOrder, _, rfl, ?_, ?_, ?_, ?_, ?_, ?_⟩
  · rfl
  · simp [TopOrderQ.ofOrder, ho.length]
  · intro x
    simp [TopOrderQ.ofOrder, List.getElem?_replicate]
  · intro i x hx
    simp [TopOrderQ.ofOrder, List.getElem?_replicate] at hx
  · rintro i ⟨x, hx⟩
    simp [TopOrderQ.ofOrder, List.getElem?_replicate] at hx
  · intro b hb; cases hb

variable [Zero W] [One W] [DecidableEq W]

/-- What the algorithms put into a queue: existing states, which after a `dequeue` are successors of the dequeued state. -/
def EdgeOk (f : Fst W) (keep : Tr W → Bool) (c : Option StateId) (s : StateId) : Prop :=
  s < f.numStates ∧ ∀ v, c = some v → Dfs.KEdge f keep v s

namespace AutoQ
open Fst Dfs
variable {f : Fst W} {keep : Tr W → Bool} {i : StateId}

theorem kedge_lt (hw : f.WF) {a b : StateId} (h : KEdge f keep a b) : a < f.numStates ∧ b < f.numStates := by
  obtain ⟨t, ht, -, rfl⟩ := h
  exact ⟨Scc.trsOf_lt ht, hw.next_lt a t ht⟩

theorem kedge_edge {a b : StateId} (h : KEdge f keep a b) : f.Edge a b := by
  obtain ⟨t, ht, -, rfl⟩ := h
  exact ⟨t, ht, rfl⟩

/-- The component numbers as a list. -/
def sccList (f : Fst W) (keep : Tr W → Bool) : List Nat := (List.range f.numStates).map fun s => ((f.sccVisit keep).scc s).toNat

theorem sccList_get {s : Nat} (hs : s < f.numStates) : (sccList f keep)[s]? = some ((f.sccVisit keep).scc s).toNat := by
  simp [sccList, hs]

theorem allTrivial_iff (hw : f.WF) (hi : f.start = some i) :
    allTrivial f keep (f.sccVisit keep).scc = true ↔ ¬ ∃ q, Relation.TransGen (KEdge f keep) q q := by
  have hr := Scc.sccVisit_spec hw hi keep
  have hiff : allTrivial f keep (f.sccVisit keep).scc = true ↔ ∀ a b, KEdge f keep a b → (f.sccVisit keep).scc a ≠ (f.sccVisit keep).scc b := by
    simp only [allTrivial, List.all_eq_true, List.mem_range, Bool.not_eq_true', Bool.and_eq_false_imp]
    constructor
    · rintro h a b ⟨t, ht, hk, rfl⟩ he
      have := h a (Scc.trsOf_lt ht) t ht hk
      simp [he] at this
    · intro h a ha t ht hk
      simpa using h a t.nextstate ⟨t, ht, hk, rfl⟩
  rw [hiff]
  constructor
  · rintro h ⟨q, hq⟩
    obtain ⟨b, h1, h2⟩ := Relation.TransGen.head'_iff.1 hq
    have hlt := kedge_lt hw h1
    exact h q b h1 ((hr.same q b hlt.1 hlt.2).2 ⟨Relation.ReflTransGen.single h1, h2⟩)
  · intro h a b hab he
    have hlt := kedge_lt hw hab
    obtain ⟨-, h2⟩ := (hr.same a b hlt.1 hlt.2).1 he
    exact h ⟨a, Relation.TransGen.head' hab h2⟩

theorem nscc_le (hw : f.WF) (hi : f.start = some i) : (f.sccVisit keep).nscc.toNat ≤ f.numStates := by
  have hr := Scc.sccVisit_spec hw hi keep
  have := Finset.card_le_card_of_surjOn (s := Finset.range f.numStates) (t := Finset.range (f.sccVisit keep).nscc.toNat)
    (fun s => ((f.sccVisit keep).scc s).toNat) (by
      intro k hk
      simp only [Finset.coe_range, Set.mem_Iio] at hk
      obtain ⟨q, hq, e⟩ := hr.surj (k : Int) (by omega) (by omega)
      exact ⟨q, by simpa using hq, by simp [e]⟩)
  simpa using this

theorem orderOk_scc (hw : f.WF) (hi : f.start = some i) (hac : ¬ ∃ q, Relation.TransGen (KEdge f keep) q q) :
    OrderOk (sccList f keep) f.numStates ∧
    ∀ a b, KEdge f keep a b → (sccList f keep)[a]?.getD 0 < (sccList f keep)[b]?.getD 0 := by
  have hr := Scc.sccVisit_spec hw hi keep
  refine ⟨⟨by simp [sccList], ?_, ?_⟩, ?_⟩
  · intro o ho
    obtain ⟨s, hs, rfl⟩ := List.mem_map.1 ho
    have h1 := hr.range s (by simpa using hs)
    have h2 := nscc_le (keep := keep) hw hi
    omega
  · unfold sccList
    refine (List.nodup_range).map_on ?_
    intro a ha b hb he
    simp only [List.mem_range] at ha hb
    have h1 := hr.range a ha
    have h2 := hr.range b hb
    obtain ⟨h3, h4⟩ := (hr.same a b ha hb).1 (by omega)
    by_contra hne
    refine hac ⟨a, ?_⟩
    rcases Relation.ReflTransGen.cases_head h3 with h5 | ⟨c, h5, h6⟩
    · exact absurd h5 hne
    · exact Relation.TransGen.head' h5 (h6.trans h4)
  · intro a b hab
    obtain ⟨ha, hb⟩ := kedge_lt hw hab
    rw [sccList_get ha, sccList_get hb]
    have h1 := hr.range a ha
    have h2 := hr.range b hb
    have h3 := hr.order a b ha hab
    have h4 : (f.sccVisit keep).scc a ≠ (f.sccVisit keep).scc b := by
      intro he
      exact hac ⟨a, Relation.TransGen.head' hab ((hr.same a b ha hb).1 he).2⟩
    simp only [Option.getD_some]
    omega

theorem perm_orderOk {l : List Nat} {n : Nat} (h : l.Perm (List.range n)) : OrderOk l n where
  length := by simpa using h.length_eq
  lt o ho := by simpa using h.mem_iff.1 ho
  nodup := h.nodup_iff.2 List.nodup_range

theorem edgeOk_lt : ∀ c s, EdgeOk f keep c s → s < f.numStates := fun _ _ h => h.1

theorem lawful_scc (hw : f.WF) (hi : f.start = some i) :
    Lawful0 AutoQ.ops (.scc (SccQ.new ((List.range (f.sccVisit keep).nscc.toNat).map (innerFor f keep (f.sccVisit keep).scc)) (sccList f keep)))
      (EdgeOk f keep) (fun _ _ => True) := by
  have hr := Scc.sccVisit_spec hw hi keep
  have hinv := SccQ.Inv.new (sccs := sccList f keep)
    (qs := (List.range (f.sccVisit keep).nscc.toNat).map (innerFor f keep (f.sccVisit keep).scc))
    (by
      intro Q hQ
      obtain ⟨k, -, rfl⟩ := List.mem_map.1 hQ
      unfold innerFor
      split <;> rfl)
    (by
      intro k Q hk hQ x y hx hy
      have hk' : k < (f.sccVisit keep).nscc.toNat ∧ innerFor f keep (f.sccVisit keep).scc k = Q := by
        rw [List.getElem?_map] at hk
        cases hkk : (List.range (f.sccVisit keep).nscc.toNat)[k]? with
        | none => rw [hkk] at hk; cases hk
        | some k' =>
          rw [hkk] at hk
          obtain ⟨h1, h2⟩ := List.getElem?_eq_some_iff.1 hkk
          simp only [List.getElem_range] at h2
          subst h2
          simp only [List.length_range] at h1
          exact ⟨h1, by simpa using hk⟩
      obtain ⟨hkn, rfl⟩ := hk'
      have hlen : (sccList f keep).length = f.numStates := by simp [sccList]
      have hxn : x < f.numStates := by rw [← hlen]; exact (List.getElem?_eq_some_iff.1 hx).1
      have hyn : y < f.numStates := by rw [← hlen]; exact (List.getElem?_eq_some_iff.1 hy).1
      rw [sccList_get hxn] at hx
      rw [sccList_get hyn] at hy
      injection hx with hx
      injection hy with hy
      have h1 := hr.range x hxn
      have h2 := hr.range y hyn
      obtain ⟨h3, h4⟩ := (hr.same x y hxn hyn).1 (by omega)
      by_contra hne
      rcases Relation.ReflTransGen.cases_head h3 with h5 | ⟨c, h5, h6⟩
      · exact hne h5
      · have hlt := kedge_lt hw h5
        have hcx := (hr.same x c hlt.1 hlt.2).2 ⟨Relation.ReflTransGen.single h5, h6.trans h4⟩
        obtain ⟨t, ht, hkt, rfl⟩ := h5
        unfold innerFor at hQ
        rw [if_pos] at hQ
        · cases hQ
        · rw [List.any_eq_true]
          refine ⟨x, by simpa using hxn, ?_⟩
          rw [List.any_eq_true]
          refine ⟨t, ht, ?_⟩
          simp only [hkt, Bool.true_and, Bool.and_eq_true, beq_iff_eq]
          exact ⟨hcx, by omega⟩)
  have hok : ∀ c s, EdgeOk f keep c s → ∃ k, (sccList f keep)[s]? = some k ∧
      k < ((List.range (f.sccVisit keep).nscc.toNat).map (innerFor f keep (f.sccVisit keep).scc)).length ∧
      ∀ v, c = some v → ∃ j, (sccList f keep)[v]? = some j ∧ j ≤ k := by
    rintro c s ⟨hs, hc⟩
    have h1 := hr.range s hs
    refine ⟨_, sccList_get hs, by simp; omega, ?_⟩
    intro v hv
    have hvs := hc v hv
    have hlt := kedge_lt hw hvs
    have h2 := hr.range v hlt.1
    have h3 := hr.order v s hlt.1 hvs
    exact ⟨_, sccList_get hlt.1, by omega⟩
  refine ⟨(sccLaw _ _ (EdgeOk f keep) hok).scc.weaken _ (fun _ _ _ => trivial), _, rfl, hinv⟩

variable {sf : SemiringFlags}

/-- The queue chosen by `AutoQueue::new` is lawful. -/
theorem new_lawful (hw : f.WF) (ht : f.Truthful) (sf : SemiringFlags) (keep : Tr W → Bool) :
    ∃ q, AutoQ.new sf f keep = .ok q ∧ Lawful0 AutoQ.ops q (EdgeOk f keep) (fun _ _ => True) := by
  unfold AutoQ.new
  by_cases h1 : f.props .topSorted = true ∨ f.start = none
  · rw [if_pos h1]
    exact ⟨_, rfl, (lawful_stateOrder _).weaken (fun _ _ _ => trivial)⟩
  rw [if_neg h1]
  simp only [targetsOk_of_wf hw]
  obtain ⟨i, hi⟩ : ∃ i, f.start = some i := by
    cases hs : f.start with
    | none => exact absurd (.inr hs) h1
    | some i => exact ⟨i, rfl⟩
  by_cases h2 : f.props .acyclic = true
  · rw [if_pos h2]
    simp only [Bool.true_eq_false, if_false]
    rcases Top.topVisit_spec hw hi keep with ⟨a, -, b, c⟩ | ⟨a, q, hq⟩
    · rw [a]
      exact ⟨_, rfl, (lawful_topOrder (perm_orderOk b) edgeOk_lt).weaken (fun _ _ _ => trivial)⟩
    · exact absurd ⟨q, Relation.TransGen.mono (fun a b (h : KEdge f keep a b) => kedge_edge h) q q hq⟩ (ht .acyclic h2)
  rw [if_neg h2]
  split
  · exact ⟨_, rfl, lawful_lifo _⟩
  · simp only [Bool.true_eq_false, if_false]
    split
    · exact ⟨_, rfl, lawful_lifo _⟩
    · split
      · next h5 =>
        exact ⟨_, rfl, (lawful_topOrder (orderOk_scc hw hi ((allTrivial_iff hw hi).1 h5)).1 edgeOk_lt).weaken (fun _ _ _ => trivial)⟩
      · exact ⟨_, rfl, lawful_scc hw hi⟩

/-- Without cycles, and unless the semiring is idempotent, the chosen queue delivers the states in topological order. -/
theorem new_topological (hw : f.WF) (ht : f.Truthful) (hi : f.start = some i) (sf : SemiringFlags) (hsf : sf.idempotent = false)
    (keep : Tr W → Bool) (hac : ¬ ∃ q, Relation.TransGen (KEdge f keep) q q) :
    ∃ q, AutoQ.new sf f keep = .ok q ∧
      ((∃ ord : StateId → Nat, (∀ a b, KEdge f keep a b → ord a < ord b) ∧
        Lawful0 AutoQ.ops q (EdgeOk f keep) (fun s x => ord s < ord x)) ∨
      ((∀ a b, ¬ KEdge f keep a b) ∧ Lawful0 AutoQ.ops q (EdgeOk f keep) (fun _ _ => True))) := by
  unfold AutoQ.new
  by_cases h1 : f.props .topSorted = true ∨ f.start = none
  · rw [if_pos h1]
    rcases h1 with h1 | h1
    · refine ⟨_, rfl, .inl ⟨id, ?_, lawful_stateOrder _⟩⟩
      rintro a b ⟨t, htt, -, rfl⟩
      exact ht .topSorted h1 a t htt
    · rw [hi] at h1; cases h1
  rw [if_neg h1]
  simp only [targetsOk_of_wf hw]
  by_cases h2 : f.props .acyclic = true
  · rw [if_pos h2]
    simp only [Bool.true_eq_false, if_false]
    rcases Top.topVisit_spec hw hi keep with ⟨a, -, b, c⟩ | ⟨a, q, hq⟩
    · rw [a]
      exact ⟨_, rfl, .inl ⟨_, c, lawful_topOrder (perm_orderOk b) edgeOk_lt⟩⟩
    · exact absurd ⟨q, hq⟩ hac
  rw [if_neg h2]
  obtain ⟨ho, hord⟩ := orderOk_scc hw hi hac
  have hall := (allTrivial_iff hw hi).2 hac
  simp only [hsf, Bool.and_false, Bool.false_eq_true, Bool.true_eq_false, if_false, hall, if_true]
  split
  · next h4 =>
    refine ⟨_, rfl, .inr ⟨?_, lawful_lifo _⟩⟩
    rintro a b ⟨t, htt, hk, -⟩
    simp only [allUnweighted, List.all_eq_true, List.mem_range, hsf] at h4
    have := h4 a (Scc.trsOf_lt htt) t htt
    simp [hk] at this
  · exact ⟨_, rfl, .inl ⟨_, hord, lawful_topOrder ho edgeOk_lt⟩⟩

end AutoQ
end Verif
