import Verif.Lemmas.EpsSums
import Verif.Spec.Epsilon
import Verif.Lemmas.SdIdem
import Verif.Lemmas.SdAcyclic

/-! # `expand`: what one state does after ε-paths -/

namespace Verif
universe u v
set_option linter.unusedSectionVars false

/-- A lawful queue stays so when less is put into it. -/
def QueueLaw.restrict {Q : Type v} {o : QueueOps Q} {ok ok' : Option StateId → StateId → Prop} {after} (L : QueueLaw o ok after)
    (h : ∀ c s, ok' c s → ok c s) : QueueLaw o ok' after where
  Rep := L.Rep
  size := L.size
  enqueue hr hk := L.enqueue hr (h _ _ hk)
  update hr hk := L.update hr (h _ _ hk)
  dequeue := L.dequeue
  isEmpty := L.isEmpty
  head := L.head
  clear := L.clear

namespace RmEps
open Fst Dfs
variable {W : Type u} {Q : Type v} [Semiring W] {f : Fst W}

/-- The linear function of a list of transitions. -/
def lin (h : Label → Label → StateId → W) (l : List (Tr W)) : W := (l.map fun t => t.weight * h t.ilabel t.olabel t.nextstate).sum

/-- The map of this call tells where a transition is. -/
def Mapped (r : RmEps W Q) (l : List (Tr W)) : Prop :=
  ∀ x id i, r.elements x = some (id, i) → id < r.expandId ∨ (id = r.expandId ∧ ∃ u, l[i]? = some u ∧ u.elem = x)

/-- What the loop over the transitions leaves alone. -/
structure Same (r r' : RmEps W Q) : Prop where
  visited : r'.visited = r.visited
  visitedStates : r'.visitedStates = r.visitedStates
  expandId : r'.expandId = r.expandId
  sd : r'.sd = r.sd

theorem Same.rfl' (r : RmEps W Q) : Same r r := ⟨rfl, rfl, rfl, rfl⟩
theorem Same.trans {a b c : RmEps W Q} (h : Same a b) (h' : Same b c) : Same a c :=
  ⟨h'.visited.trans h.visited, h'.visitedStates.trans h.visitedStates, h'.expandId.trans h.expandId, h'.sd.trans h.sd⟩

theorem lin_append (h : Label → Label → StateId → W) (l m : List (Tr W)) : lin h (l ++ m) = lin h l + lin h m := by
  simp [lin]

theorem lin_modify (h : Label → Label → StateId → W) (w : W) : ∀ (l : List (Tr W)) (i : Nat) (u : Tr W), l[i]? = some u →
    lin h (l.modify i fun u => { u with weight := u.weight + w }) = lin h l + w * h u.ilabel u.olabel u.nextstate
  | [], i, u, hi => by simp at hi
  | a :: l, 0, u, hi => by
    obtain rfl : a = u := by simpa using hi
    simp only [List.modify_zero_cons, lin, List.map_cons, List.sum_cons, add_mul]
    abel
  | a :: l, i + 1, u, hi => by
    have := lin_modify h w l i u (by simpa using hi)
    simp only [List.modify_succ_cons, lin, List.map_cons, List.sum_cons] at this ⊢
    rw [this, add_assoc]

theorem addElem_spec {r : RmEps W Q} {e : EpsRun W} (hm : Mapped r e.trs) (t : Tr W) :
    Same r (r.addElem e t).1 ∧ Mapped (r.addElem e t).1 (r.addElem e t).2.trs ∧ (r.addElem e t).2.stack = e.stack ∧
    (r.addElem e t).2.fin = e.fin ∧ (∀ h, lin h (r.addElem e t).2.trs = lin h e.trs + t.weight * h t.ilabel t.olabel t.nextstate) ∧
    (∀ u ∈ (r.addElem e t).2.trs, u.elem = t.elem ∨ ∃ v ∈ e.trs, u.elem = v.elem) ∧
    ∀ v, v = t ∨ v ∈ e.trs → ∃ u ∈ (r.addElem e t).2.trs, u.elem = v.elem := by
  have hnew : ∀ r' : RmEps W Q, r' = { r with elements := fun x => if x = t.elem then some (r.expandId, e.trs.length) else r.elements x } →
      Mapped r' (e.trs ++ [t]) := by
    rintro r' rfl x id i hx
    simp only at hx
    split at hx
    · next hxt =>
      injection hx with hx; injection hx with h1 h2
      subst h1 h2
      exact .inr ⟨rfl, t, by simp, hxt.symm⟩
    · rcases hm x id i hx with h | ⟨h, u, hu, hux⟩
      · exact .inl h
      · refine .inr ⟨h, u, ?_, hux⟩
        rw [List.getElem?_append_left (List.getElem?_eq_some_iff.1 hu).1]
        exact hu
  unfold addElem
  cases hr : r.elements t.elem with
  | none =>
    refine ⟨⟨rfl, rfl, rfl, rfl⟩, hnew _ rfl, rfl, rfl, fun h => ?_, fun u hu => ?_, fun v hv => ⟨v, by rcases hv with rfl | hv <;> simp [*], rfl⟩⟩
    · rw [lin_append]; simp [lin]
    · rcases List.mem_append.1 hu with hu | hu
      · exact .inr ⟨u, hu, rfl⟩
      · obtain rfl : u = t := by simpa using hu
        exact .inl rfl
  | some p =>
    obtain ⟨id, i⟩ := p
    simp only
    split
    · next hid =>
      subst hid
      rcases hm _ _ _ hr with h | ⟨-, u, hu, hux⟩
      · exact absurd h (lt_irrefl _)
      · refine ⟨Same.rfl' r, ?_, rfl, rfl, fun h => ?_, fun v hv => ?_, fun v hv => ?_⟩
        · intro x id j hx
          rcases hm x id j hx with h | ⟨h, v, hv, hvx⟩
          · exact .inl h
          · refine .inr ⟨h, ?_⟩
            simp only [List.getElem?_modify, hv, Option.map_eq_map, Option.map_some]
            exact ⟨_, rfl, by split <;> exact hvx⟩
        · rw [lin_modify h t.weight _ i u hu]
          have h1 := congrArg Prod.fst hux
          have h2 := congrArg (fun x => x.2.1) hux
          have h3 := congrArg (fun x => x.2.2) hux
          simp only [Tr.elem] at h1 h2 h3
          rw [h1, h2, h3]
        · obtain ⟨j, hj⟩ := List.mem_iff_getElem?.1 hv
          simp only [List.getElem?_modify] at hj
          cases hje : e.trs[j]? with
          | none => rw [hje] at hj; cases hj
          | some v' =>
            rw [hje] at hj
            simp only [Option.map_eq_map, Option.map_some, Option.some.injEq] at hj
            refine .inr ⟨v', List.mem_iff_getElem?.2 ⟨j, hje⟩, ?_⟩
            rw [← hj]
            split <;> rfl
        · rcases hv with rfl | hv
          · exact ⟨{ u with weight := u.weight + v.weight }, List.mem_iff_getElem?.2 ⟨i, by simp [List.getElem?_modify, hu]⟩, hux⟩
          · obtain ⟨j, hj⟩ := List.mem_iff_getElem?.1 hv
            refine ⟨if i = j then { v with weight := v.weight + t.weight } else v,
              List.mem_iff_getElem?.2 ⟨j, by simp only [List.getElem?_modify, hj, Option.map_eq_map, Option.map_some]⟩, ?_⟩
            split <;> rfl
    · refine ⟨⟨rfl, rfl, rfl, rfl⟩, hnew _ rfl, rfl, rfl, fun h => ?_, fun u hu => ?_, fun v hv => ⟨v, by rcases hv with rfl | hv <;> simp [*], rfl⟩⟩
      · rw [lin_append]; simp [lin]
      · rcases List.mem_append.1 hu with hu | hu
        · exact .inr ⟨u, hu, rfl⟩
        · obtain rfl : u = t := by simpa using hu
          exact .inl rfl

theorem isEps_elem {t u : Tr W} (h : t.elem = u.elem) : isEps t = isEps u := by
  have h1 := congrArg Prod.fst h
  have h2 := congrArg (fun x => x.2.1) h
  simp only [Tr.elem] at h1 h2
  unfold isEps
  rw [h1, h2]

/-- The loop over the transitions. -/
theorem fold_spec (d : W) : ∀ (l : List (Tr W)) (r : RmEps W Q) (e : EpsRun W), Mapped r e.trs →
    ∃ r' e', l.foldl (stepTr d) (r, e) = (r', e') ∧ Same r r' ∧ Mapped r' e'.trs ∧ e'.fin = e.fin ∧
      (∀ h, lin h e'.trs = lin h e.trs + d * lin h (l.filter fun t => !isEps t)) ∧
      (∀ u ∈ e'.trs, (∃ t ∈ l, isEps t = false ∧ u.elem = t.elem) ∨ ∃ v ∈ e.trs, u.elem = v.elem) ∧
      (∀ v, (v ∈ l ∧ isEps v = false) ∨ v ∈ e.trs → ∃ u ∈ e'.trs, u.elem = v.elem) ∧
      ∃ pre, e'.stack = pre ++ e.stack ∧ (∀ q ∈ pre, ∃ t ∈ l, isEps t = true ∧ t.nextstate = q) ∧
        ∀ t ∈ l, isEps t = true → r.visited t.nextstate = true ∨ t.nextstate ∈ pre
  | [], r, e, hm => ⟨r, e, rfl, Same.rfl' r, hm, rfl, fun h => by simp [lin], fun u hu => .inr ⟨u, hu, rfl⟩, fun v hv => ⟨v, by simpa using hv, rfl⟩,
    [], by simp, by simp, by simp⟩
  | t :: l, r, e, hm => by
    rw [List.foldl_cons]
    by_cases he : isEps t = true
    · by_cases hv : r.visited t.nextstate = true
      · obtain ⟨r', e', h1, h2, h3, h4, h5, h6, h6', pre, h7, h8, h9⟩ := fold_spec d l r e hm
        refine ⟨r', e', ?_, h2, h3, h4, fun h => ?_, fun u hu => ?_, fun v hv => h6' v (hv.imp (fun h => ⟨(List.mem_cons.1 h.1).resolve_left (by rintro rfl; rw [he] at h; cases h.2), h.2⟩) id), pre, h7, fun q hq => ?_, fun u hu hue => ?_⟩
        · rw [← h1]; simp only [stepTr, he, if_true, hv]
        · rw [h5]; simp [he]
        · rcases h6 u hu with ⟨v, hv, h⟩ | h
          · exact .inl ⟨v, by simp [hv], h⟩
          · exact .inr h
        · obtain ⟨u, hu, h⟩ := h8 q hq
          exact ⟨u, by simp [hu], h⟩
        · rcases List.mem_cons.1 hu with rfl | hu
          · exact .inl hv
          · exact h9 u hu hue
      · obtain ⟨r', e', h1, h2, h3, h4, h5, h6, h6', pre, h7, h8, h9⟩ := fold_spec d l r { e with stack := t.nextstate :: e.stack } hm
        refine ⟨r', e', ?_, h2, h3, h4, fun h => ?_, fun u hu => ?_, fun v hv => h6' v (hv.imp (fun h => ⟨(List.mem_cons.1 h.1).resolve_left (by rintro rfl; rw [he] at h; cases h.2), h.2⟩) id),
          pre ++ [t.nextstate], by simp [h7], fun q hq => ?_, fun u hu hue => ?_⟩
        · rw [← h1]; simp only [stepTr, he, if_true, hv, Bool.false_eq_true, if_false]
        · rw [h5]; simp [he]
        · rcases h6 u hu with ⟨v, hv, h⟩ | h
          · exact .inl ⟨v, by simp [hv], h⟩
          · exact .inr h
        · rcases List.mem_append.1 hq with hq | hq
          · obtain ⟨u, hu, h⟩ := h8 q hq
            exact ⟨u, by simp [hu], h⟩
          · exact ⟨t, by simp, he, by simpa [eq_comm] using hq⟩
        · rcases List.mem_cons.1 hu with rfl | hu
          · exact .inr (by simp)
          · exact (h9 u hu hue).imp id fun h => by simp [h]
    · have he : isEps t = false := by simpa using he
      obtain ⟨a1, a2, a3, a4, a5, a6, a7⟩ := addElem_spec hm { t with weight := d * t.weight }
      obtain ⟨r', e', h1, h2, h3, h4, h5, h6, h6', pre, h7, h8, h9⟩ := fold_spec d l (r.addElem e { t with weight := d * t.weight }).1
        (r.addElem e { t with weight := d * t.weight }).2 a2
      refine ⟨r', e', ?_, a1.trans h2, h3, h4.trans a4, fun h => ?_, fun u hu => ?_, fun v hv => ?_, pre, by rw [h7, a3], fun q hq => ?_, fun u hu hue => ?_⟩
      · rw [← h1]; simp only [stepTr, he, Bool.false_eq_true, if_false]
      · rw [h5, a5]
        simp only [List.filter_cons, he, Bool.not_false, if_true, lin, List.map_cons, List.sum_cons, mul_add, mul_assoc]
        abel
      · rcases h6 u hu with ⟨v, hv, h⟩ | ⟨v, hv, h⟩
        · exact .inl ⟨v, by simp [hv], h⟩
        · rcases a6 v hv with h' | ⟨v', hv', h'⟩
          · exact .inl ⟨t, by simp, he, h.trans h'⟩
          · exact .inr ⟨v', hv', h.trans h'⟩
      · rcases hv with ⟨hv, hve⟩ | hv
        · rcases List.mem_cons.1 hv with rfl | hv
          · obtain ⟨u, hu, e1⟩ := a7 _ (.inl rfl)
            obtain ⟨u', hu', e2⟩ := h6' u (.inr hu)
            exact ⟨u', hu', e2.trans e1⟩
          · exact h6' v (.inl ⟨hv, hve⟩)
        · obtain ⟨u, hu, e1⟩ := a7 v (.inr hv)
          obtain ⟨u', hu', e2⟩ := h6' u (.inr hu)
          exact ⟨u', hu', e2.trans e1⟩
      · obtain ⟨u, hu, h⟩ := h8 q hq
        exact ⟨u, by simp [hu], h⟩
      · rcases List.mem_cons.1 hu with rfl | hu
        · rw [he] at hue; cases hue
        · have := h9 u hu hue
          rwa [a1.visited] at this

/-- The invariant of the loop over the stack; `d` are the distances from `src`. -/
structure LoopInv (f : Fst W) (so : StateId) (d : StateId → W) (r : RmEps W Q) (e : EpsRun W) : Prop where
  vis : ∀ q, r.visited q = true ↔ q ∈ r.visitedStates
  nodup : r.visitedStates.Nodup
  reach : ∀ q, q ∈ r.visitedStates ∨ q ∈ e.stack → Relation.ReflTransGen (KEdge f isEps) so q
  succ : ∀ q ∈ r.visitedStates, ∀ t ∈ f.trsOf q, isEps t = true → t.nextstate ∈ r.visitedStates ∨ t.nextstate ∈ e.stack
  src : so ∈ r.visitedStates ∨ so ∈ e.stack
  map : Mapped r e.trs
  trs : ∀ h, lin h e.trs = (r.visitedStates.map fun q => d q * f.nonOp h q).sum
  fin : e.fin = (r.visitedStates.map fun q => d q * (f.finOf q).getD 0).sum
  orig : ∀ u ∈ e.trs, ∃ q, Relation.ReflTransGen (KEdge f isEps) so q ∧ ∃ t ∈ f.trsOf q, isEps t = false ∧ u.elem = t.elem
  all : ∀ q ∈ r.visitedStates, ∀ t ∈ f.trsOf q, isEps t = false → ∃ u ∈ e.trs, u.elem = t.elem

theorem loop_spec (hw : f.WF) {src : StateId} (hsrc : src < f.numStates) {d : StateId → W} {dist : List W}
    (hd : ∀ q, Relation.ReflTransGen (KEdge f isEps) src q → dist[q]? = some (d q)) :
    ∀ (m k : Nat) (r : RmEps W Q) (e : EpsRun W), f.numStates - r.visitedStates.length ≤ m → e.stack.length ≤ k → LoopInv f src d r e →
      ∃ N r' e', (∀ n, N ≤ n → loop f dist n r e = some (.ok (r', e'))) ∧ LoopInv f src d r' e' ∧ e'.stack = [] ∧
        r'.expandId = r.expandId ∧ r'.sd = r.sd := by
  have hlt : ∀ q, Relation.ReflTransGen (KEdge f isEps) src q → q < f.numStates := by
    intro q hq
    induction hq with
    | refl => exact hsrc
    | tail _ h _ => obtain ⟨t, ht, -, rfl⟩ := h; exact hw.next_lt _ t ht
  have hcard : ∀ r : RmEps W Q, ∀ e, LoopInv f src d r e → r.visitedStates.length ≤ f.numStates := by
    intro r e h
    have := (List.subperm_of_subset h.nodup (l₂ := List.range f.numStates) fun q hq => List.mem_range.2 (hlt q (h.reach q (.inl hq)))).length_le
    simpa using this
  intro m
  induction m with
  | zero =>
    intro k
    induction k with
    | zero =>
      intro r e _ hk h
      have hs : e.stack = [] := List.length_eq_zero_iff.1 (by omega)
      refine ⟨1, r, e, fun n hn => ?_, h, hs, rfl, rfl⟩
      obtain ⟨n, rfl⟩ : ∃ j, n = j + 1 := ⟨n - 1, by omega⟩
      simp only [loop, hs]
    | succ k ih =>
      intro r e hm hk h
      cases hs : e.stack with
      | nil =>
        refine ⟨1, r, e, fun n hn => ?_, h, hs, rfl, rfl⟩
        obtain ⟨n, rfl⟩ : ∃ j, n = j + 1 := ⟨n - 1, by omega⟩
        simp only [loop, hs]
      | cons s rest =>
        have hvs : r.visited s = true := by
          rw [h.vis]
          by_contra hns
          have h1 := hlt s (h.reach s (.inr (by rw [hs]; simp)))
          have : (s :: r.visitedStates).Nodup := by simp [hns, h.nodup]
          have := (List.subperm_of_subset this (l₂ := List.range f.numStates) fun q hq => by
            rcases List.mem_cons.1 hq with rfl | hq
            · exact List.mem_range.2 h1
            · exact List.mem_range.2 (hlt q (h.reach q (.inl hq)))).length_le
          simp at this
          omega
        have h' : LoopInv f src d r { e with stack := rest } := by
          refine ⟨h.vis, h.nodup, fun q hq => h.reach q (hq.imp id fun hq => by rw [hs]; exact List.mem_cons_of_mem _ hq), fun q hq t ht he => ?_,
            ?_, h.map, h.trs, h.fin, h.orig, h.all⟩
          · rcases h.succ q hq t ht he with hx | hx
            · exact .inl hx
            · rw [hs] at hx
              rcases List.mem_cons.1 hx with hx | hx
              · exact .inl (hx ▸ (h.vis s).1 hvs)
              · exact .inr hx
          · rcases h.src with hx | hx
            · exact .inl hx
            · rw [hs] at hx
              rcases List.mem_cons.1 hx with hx | hx
              · exact .inl (hx ▸ (h.vis s).1 hvs)
              · exact .inr hx
        obtain ⟨N, r', e', h1, h2⟩ := ih r { e with stack := rest } hm (by rw [hs] at hk; simpa using hk) h'
        refine ⟨N + 1, r', e', fun n hn => ?_, h2⟩
        obtain ⟨n, rfl⟩ : ∃ j, n = j + 1 := ⟨n - 1, by omega⟩
        simp only [loop, hs, hvs, if_true]
        exact h1 n (by omega)
  | succ m ihm =>
    intro k
    induction k with
    | zero =>
      intro r e _ hk h
      have hs : e.stack = [] := List.length_eq_zero_iff.1 (by omega)
      refine ⟨1, r, e, fun n hn => ?_, h, hs, rfl, rfl⟩
      obtain ⟨n, rfl⟩ : ∃ j, n = j + 1 := ⟨n - 1, by omega⟩
      simp only [loop, hs]
    | succ k ih =>
      intro r e hm hk h
      cases hs : e.stack with
      | nil =>
        refine ⟨1, r, e, fun n hn => ?_, h, hs, rfl, rfl⟩
        obtain ⟨n, rfl⟩ : ∃ j, n = j + 1 := ⟨n - 1, by omega⟩
        simp only [loop, hs]
      | cons s rest =>
        by_cases hvs : r.visited s = true
        · have h' : LoopInv f src d r { e with stack := rest } := by
            refine ⟨h.vis, h.nodup, fun q hq => h.reach q (hq.imp id fun hq => by rw [hs]; exact List.mem_cons_of_mem _ hq), fun q hq t ht he => ?_,
              ?_, h.map, h.trs, h.fin, h.orig, h.all⟩
            · rcases h.succ q hq t ht he with hx | hx
              · exact .inl hx
              · rw [hs] at hx
                rcases List.mem_cons.1 hx with hx | hx
                · exact .inl (hx ▸ (h.vis s).1 hvs)
                · exact .inr hx
            · rcases h.src with hx | hx
              · exact .inl hx
              · rw [hs] at hx
                rcases List.mem_cons.1 hx with hx | hx
                · exact .inl (hx ▸ (h.vis s).1 hvs)
                · exact .inr hx
          obtain ⟨N, r', e', h1, h2⟩ := ih r { e with stack := rest } hm (by rw [hs] at hk; simpa using hk) h'
          refine ⟨N + 1, r', e', fun n hn => ?_, h2⟩
          obtain ⟨n, rfl⟩ : ∃ j, n = j + 1 := ⟨n - 1, by omega⟩
          simp only [loop, hs, hvs, if_true]
          exact h1 n (by omega)
        · have hre := h.reach s (.inr (by rw [hs]; simp))
          have hsl := hlt s hre
          have hns : s ∉ r.visitedStates := fun hx => hvs ((h.vis s).2 hx)
          have htrs : f.getTrsR s = .ok (f.trsOf s) := by
            unfold Fst.getTrsR
            rw [Fst.trsOf_eq]
            cases hg : f.states[s]? with
            | none =>
              rw [List.getElem?_eq_none_iff] at hg
              exact absurd hsl (by unfold Fst.numStates; omega)
            | some st => rfl
          obtain ⟨r1, e1, a1, a2, a3, a4, a5, a6, a6', pre, a7, a8, a9⟩ := fold_spec (d s) (f.trsOf s)
            { r with visited := upd r.visited s true, visitedStates := s :: r.visitedStates } { e with stack := rest } h.map
          have hvisit : visit f dist r { e with stack := rest } s = .ok (r1, { e1 with fin := e1.fin + d s * (f.finOf s).getD 0 }) := by
            unfold visit
            simp only [htrs, hd s hre, a1]
          have hvs1 : r1.visitedStates = s :: r.visitedStates := a2.visitedStates
          have h' : LoopInv f src d r1 { e1 with fin := e1.fin + d s * (f.finOf s).getD 0 } := by
            refine ⟨fun q => ?_, ?_, fun q hq => ?_, fun q hq t ht he => ?_, ?_, a3, fun g => ?_, ?_, fun u hu => ?_, fun q hq t ht he => ?_⟩
            · rw [hvs1, a2.visited]
              simp only [upd, List.mem_cons]
              by_cases hqs : q = s
              · simp [hqs]
              · simp [hqs, h.vis]
            · rw [hvs1]; simp [hns, h.nodup]
            · rw [hvs1] at hq
              rcases hq with hq | hq
              · rcases List.mem_cons.1 hq with rfl | hq
                · exact hre
                · exact h.reach q (.inl hq)
              · simp only [a7] at hq
                rcases List.mem_append.1 hq with hq | hq
                · obtain ⟨t, ht, he, rfl⟩ := a8 q hq
                  exact hre.tail ⟨t, ht, he, rfl⟩
                · exact h.reach q (.inr (by rw [hs]; exact List.mem_cons_of_mem _ hq))
            · rw [hvs1] at hq ⊢
              simp only [a7]
              rcases List.mem_cons.1 hq with rfl | hq
              · rcases a9 t ht he with hx | hx
                · left
                  simp only [upd] at hx
                  by_cases htq : t.nextstate = q
                  · simp [htq]
                  · rw [if_neg htq] at hx
                    exact List.mem_cons_of_mem _ ((h.vis _).1 hx)
                · exact .inr (by simp [hx])
              · rcases h.succ q hq t ht he with hx | hx
                · exact .inl (List.mem_cons_of_mem _ hx)
                · rw [hs] at hx
                  rcases List.mem_cons.1 hx with hx | hx
                  · exact .inl (by simp [hx])
                  · exact .inr (by simp [hx])
            · rw [hvs1]
              simp only [a7]
              rcases h.src with hx | hx
              · exact .inl (List.mem_cons_of_mem _ hx)
              · rw [hs] at hx
                rcases List.mem_cons.1 hx with hx | hx
                · exact .inl (by simp [hx])
                · exact .inr (by simp [hx])
            · rw [hvs1]
              simp only [a5, List.map_cons, List.sum_cons]
              rw [h.trs, add_comm]
              rfl
            · rw [hvs1]
              simp only [a4, List.map_cons, List.sum_cons]
              rw [h.fin, add_comm]
            · rcases a6 u hu with ⟨t, ht, he, hut⟩ | ⟨v, hv, huv⟩
              · exact ⟨s, hre, t, ht, he, hut⟩
              · obtain ⟨q, hq, t, ht, he, hvt⟩ := h.orig v hv
                exact ⟨q, hq, t, ht, he, huv.trans hvt⟩
            · rw [hvs1] at hq
              rcases List.mem_cons.1 hq with rfl | hq
              · exact a6' t (.inl ⟨ht, he⟩)
              · obtain ⟨u, hu, e1⟩ := h.all q hq t ht he
                obtain ⟨u', hu', e2⟩ := a6' u (.inr hu)
                exact ⟨u', hu', e2.trans e1⟩
          have hc := hcard _ _ h'
          rw [hvs1] at hc
          simp only [List.length_cons] at hc
          obtain ⟨N, r', e', h1, h2, h3, h4, h5⟩ := ihm _ r1 _ (by rw [hvs1]; simp only [List.length_cons]; omega) le_rfl h'
          refine ⟨N + 1, r', e', fun n hn => ?_, h2, h3, h4.trans a2.expandId, h5.trans a2.sd⟩
          obtain ⟨n, rfl⟩ : ∃ j, n = j + 1 := ⟨n - 1, by omega⟩
          simp only [loop, hs, hvs, Bool.false_eq_true, if_false, hvisit]
          exact h1 n (by omega)

/-! ## The weights -/

section weights
variable {P : W → Prop} (hcl : ∀ a b, P a → P b → P (a + b) ∧ P (a * b))
include hcl

theorem addElem_weights {r : RmEps W Q} {e : EpsRun W} (h : ∀ u ∈ e.trs, P u.weight) {t : Tr W} (ht : P t.weight) :
    (∀ u ∈ (r.addElem e t).2.trs, P u.weight) ∧ (r.addElem e t).2.stack = e.stack := by
  have happ : ∀ u ∈ e.trs ++ [t], P u.weight := by
    intro u hu
    rcases List.mem_append.1 hu with hu | hu
    · exact h u hu
    · rw [List.mem_singleton] at hu; subst hu; exact ht
  unfold addElem
  split
  · exact ⟨happ, rfl⟩
  · split
    · refine ⟨fun u hu => ?_, rfl⟩
      obtain ⟨j, hj⟩ := List.mem_iff_getElem?.1 hu
      rw [List.getElem?_modify] at hj
      cases hv : e.trs[j]? with
      | none => rw [hv] at hj; simp at hj
      | some v =>
        rw [hv] at hj
        have hpv := h v (List.mem_iff_getElem?.2 ⟨j, hv⟩)
        simp only [Option.map_some, Option.some.injEq, Option.map_eq_map] at hj
        subst hj
        split
        · exact (hcl _ _ hpv ht).1
        · exact hpv
    · exact ⟨happ, rfl⟩

theorem fold_weights {d : W} (hd : P d) : ∀ (l : List (Tr W)) (r : RmEps W Q) (e : EpsRun W), (∀ t ∈ l, P t.weight) → (∀ u ∈ e.trs, P u.weight) →
    (∀ u ∈ (l.foldl (stepTr d) (r, e)).2.trs, P u.weight) ∧
      ∀ q ∈ (l.foldl (stepTr d) (r, e)).2.stack, q ∈ e.stack ∨ ∃ t ∈ l, isEps t = true ∧ t.nextstate = q
  | [], r, e, _, h => ⟨h, fun q hq => .inl hq⟩
  | t :: l, r, e, hl, h => by
    have hstep : (∀ u ∈ (stepTr d (r, e) t).2.trs, P u.weight) ∧
        ∀ q ∈ (stepTr d (r, e) t).2.stack, q ∈ e.stack ∨ (isEps t = true ∧ t.nextstate = q) := by
      unfold stepTr
      split
      · next he =>
        split
        · exact ⟨h, fun q hq => .inl hq⟩
        · refine ⟨h, fun q hq => ?_⟩
          rcases List.mem_cons.1 hq with rfl | hq
          · exact .inr ⟨he, rfl⟩
          · exact .inl hq
      · have := addElem_weights hcl (r := r) h (t := { t with weight := d * t.weight }) ((hcl _ _ hd (hl t (by simp))).2)
        exact ⟨this.1, fun q hq => .inl (by rw [this.2] at hq; exact hq)⟩
    rw [List.foldl_cons]
    obtain ⟨a, b⟩ := fold_weights hd l (stepTr d (r, e) t).1 (stepTr d (r, e) t).2 (fun u hu => hl u (by simp [hu])) hstep.1
    refine ⟨a, fun q hq => ?_⟩
    rcases b q hq with hq | ⟨u, hu, h1, h2⟩
    · rcases hstep.2 q hq with hq | ⟨h1, h2⟩
      · exact .inl hq
      · exact .inr ⟨t, by simp, h1, h2⟩
    · exact .inr ⟨u, by simp [hu], h1, h2⟩

theorem loop_weights {src : StateId} {dist : List W} (hP : ∀ s, ∀ t ∈ f.trsOf s, P t.weight)
    (hd : ∀ q, Relation.ReflTransGen (KEdge f isEps) src q → ∀ x, dist[q]? = some x → P x) :
    ∀ (n : Nat) (r : RmEps W Q) (e : EpsRun W) r' e', (∀ q ∈ e.stack, Relation.ReflTransGen (KEdge f isEps) src q) → (∀ u ∈ e.trs, P u.weight) →
      loop f dist n r e = some (.ok (r', e')) → ∀ u ∈ e'.trs, P u.weight
  | 0, r, e, r', e', _, _, h => by simp [loop] at h
  | n + 1, r, e, r', e', hst, he, h => by
    unfold loop at h
    split at h
    · simp only [Option.some.injEq, Except.ok.injEq, Prod.mk.injEq] at h
      obtain ⟨rfl, rfl⟩ := h
      exact he
    · next s rest hs =>
      split at h
      · exact loop_weights hP hd n r { e with stack := rest } r' e' (fun q hq => hst q (by rw [hs]; exact List.mem_cons_of_mem _ hq)) he h
      · split at h
        · simp at h
        · next r1 e1 hv =>
          have hre := hst s (by rw [hs]; simp)
          unfold visit at hv
          split at hv
          · cases hv
          · next trs htrs =>
            split at hv
            · cases hv
            · next x hx =>
              have htr : trs = f.trsOf s := by
                unfold Fst.getTrsR at htrs
                rw [Fst.trsOf_eq]
                cases hg : f.states[s]? with
                | none => rw [hg] at htrs; cases htrs
                | some st => rw [hg] at htrs; cases htrs; rfl
              subst htr
              simp only [Except.ok.injEq, Prod.mk.injEq] at hv
              obtain ⟨rfl, rfl⟩ := hv
              obtain ⟨a, b⟩ := fold_weights hcl (hd s hre x hx) (f.trsOf s)
                { r with visited := upd r.visited s true, visitedStates := s :: r.visitedStates } { e with stack := rest } (hP s) he
              refine loop_weights hP hd n _ _ r' e' ?_ ?_ h
              · intro q hq
                rcases b q hq with hq | ⟨t, ht, h1, rfl⟩
                · exact hst q (by rw [hs]; exact List.mem_cons_of_mem _ hq)
                · exact hre.tail ⟨t, ht, h1, rfl⟩
              · exact a

end weights

/-! ## The distances -/

theorem distance_in {P : W → Prop} (h1 : P 1) (hcl : ∀ a b, P a → P b → P (a + b) ∧ P (a * b))
    (hP : ∀ s, ∀ t ∈ f.trsOf s, isEps t = true → P t.weight) {p q : StateId} (hr : Relation.ReflTransGen (KEdge f isEps) p q) {v : W}
    (hd : f.IsDistance isEps p q v) : P v := by
  have hwalk : ∀ k p q w, (q, w) ∈ f.walks isEps k p → P w := by
    intro k
    induction k with
    | zero =>
      intro p q w h
      obtain ⟨-, rfl⟩ := (f.mem_walks_zero isEps).1 h
      exact h1
    | succ k ih =>
      intro p q w h
      obtain ⟨t, ht, hk, v, hv, rfl⟩ := (f.mem_walks_succ isEps).1 h
      exact (hcl _ _ (hP p t ht hk) (ih _ _ _ hv)).2
  have hPZ : ∀ a b, (a = 0 ∨ P a) → P b → P (a + b) := by
    rintro a b (rfl | ha) hb
    · rwa [zero_add]
    · exact (hcl _ _ ha hb).1
  have hmsum : ∀ M : Multiset W, (∀ x ∈ M, P x) → (M.sum = 0 ∨ P M.sum) ∧ (M ≠ 0 → P M.sum) := by
    intro M
    induction M using Multiset.induction_on with
    | empty => exact fun _ => ⟨.inl rfl, fun h => absurd rfl h⟩
    | cons a M ih =>
      intro h
      have := hPZ M.sum a (ih fun x hx => h x (Multiset.mem_cons_of_mem hx)).1 (h a (Multiset.mem_cons_self a M))
      rw [Multiset.sum_cons, add_comm]
      exact ⟨.inr this, fun _ => this⟩
  have hsumk : ∀ k, (f.walkSum isEps k p q = 0 ∨ P (f.walkSum isEps k p q)) ∧ ((∃ w, (q, w) ∈ f.walks isEps k p) → P (f.walkSum isEps k p q)) := by
    intro k
    have := hmsum (((f.walks isEps k p).filter (fun e => e.1 = q)).map (fun e => e.2)) (by
      intro x hx
      obtain ⟨e, he, rfl⟩ := Multiset.mem_map.1 hx
      exact hwalk k p e.1 e.2 (Multiset.mem_of_mem_filter he))
    refine ⟨this.1, fun ⟨w, hw⟩ => this.2 fun h => ?_⟩
    have : w ∈ ((f.walks isEps k p).filter (fun e => e.1 = q)).map (fun e => e.2) :=
      Multiset.mem_map.2 ⟨(q, w), Multiset.mem_filter.2 ⟨hw, rfl⟩, rfl⟩
    rw [h] at this
    exact absurd this (Multiset.notMem_zero w)
  obtain ⟨k, w, hkw⟩ : ∃ k w, (q, w) ∈ f.walks isEps k p := by
    clear hd hsumk
    induction hr with
    | refl => exact ⟨0, 1, (f.mem_walks_zero isEps).2 ⟨rfl, rfl⟩⟩
    | tail _ h ih =>
      obtain ⟨k, w, hw⟩ := ih
      obtain ⟨t, ht, hk, rfl⟩ := h
      exact ⟨k + 1, _, walks_snoc hw ht hk⟩
  obtain ⟨N, hN⟩ := hd
  rw [← hN (max N (k + 1)) (by omega), ← Finset.sum_erase_add _ _ (Finset.mem_range.2 (show k < max N (k + 1) by omega))]
  refine hPZ _ _ ?_ ((hsumk k).2 ⟨w, hkw⟩)
  refine Finset.sum_induction _ (fun a => a = 0 ∨ P a) ?_ (.inl rfl) fun j _ => (hsumk j).1
  rintro a b ha (rfl | hb)
  · rwa [add_zero]
  · exact .inr (hPZ a b ha hb)

theorem positive_distance (hp : EpsPositive f) {p q : StateId} (hr : Relation.ReflTransGen (KEdge f isEps) p q) {v : W}
    (hd : f.IsDistance isEps p q v) : v ≠ 0 := by
  obtain ⟨P, h1, h0, hcl, hP⟩ := hp
  rintro rfl
  exact h0 (distance_in h1 hcl hP hr hd)

theorem distance_unreached {p q : StateId} (hr : ¬ Relation.ReflTransGen (KEdge f isEps) p q) {v : W}
    (hd : f.IsDistance isEps p q v) : v = 0 := by
  have hno : ∀ k w, (q, w) ∉ f.walks isEps k p := by
    intro k w h
    apply hr
    clear hd hr
    induction k generalizing q w with
    | zero =>
      obtain ⟨rfl, -⟩ := (f.mem_walks_zero isEps).1 h
      exact .refl
    | succ k ih =>
      obtain ⟨s, a, hs, t, ht, hk, rfl, rfl⟩ := (f.mem_walks_succ' isEps).1 h
      exact (ih _ hs).tail ⟨t, ht, hk, rfl⟩
  obtain ⟨N, hN⟩ := hd
  rw [← hN N le_rfl]
  refine Finset.sum_eq_zero fun k _ => ?_
  unfold walkSum
  rw [Multiset.filter_eq_nil.2]
  · rfl
  · rintro ⟨x, w⟩ he rfl
    exact hno k w he

/-- `g` came from `f` by removing ε-transitions (among other changes). -/
structure Below (f g : Fst W) : Prop where
  wf : g.WF
  num : g.numStates = f.numStates
  start : g.start = f.start
  eps : ∀ s, ∀ t ∈ g.trsOf s, isEps t = true → t ∈ f.trsOf s

/-- A queue, and for every FST below `f` a proof that the shortest-distance algorithm with that queue computes the ε-distances. -/
structure Solver (f : Fst W) (ops : QueueOps Q) where
  after : StateId → StateId → Prop
  L : QueueLaw ops (EdgeOk f isEps) after
  alg : ∀ g : Fst W, Below f g → ∀ s, s < g.numStates → ∃ A : Sd.Alg g isEps after, A.I none {s} (Sd.init s) (Sd.init s) ∧
    ∀ c d r, A.I c ∅ d r → ∀ q, g.IsDistance isEps s q (d q)

variable {g : Fst W} {ops : QueueOps Q}

theorem Below.edge (hb : Below f g) {a b : StateId} (h : KEdge g isEps a b) : KEdge f isEps a b := by
  obtain ⟨t, ht, hk, rfl⟩ := h
  exact ⟨t, hb.eps a t ht hk, hk, rfl⟩

theorem Below.edgeOk (hb : Below f g) (c : Option StateId) (s : StateId) (h : EdgeOk g isEps c s) : EdgeOk f isEps c s :=
  ⟨hb.num ▸ h.1, fun v hv => hb.edge (h.2 v hv)⟩

theorem Below.positive (hb : Below f g) (hp : EpsPositive f) : EpsPositive g := by
  obtain ⟨P, h1, h0, hcl, hP⟩ := hp
  exact ⟨P, h1, h0, hcl, fun s t ht hk => hP s t (hb.eps s t ht hk) hk⟩

theorem Below.walks (hb : Below f g) : ∀ k p q w, (q, w) ∈ g.walks isEps k p → (q, w) ∈ f.walks isEps k p := by
  intro k
  induction k with
  | zero => exact fun p q w h => h
  | succ k ih =>
    intro p q w h
    obtain ⟨t, ht, hk, v, hv, rfl⟩ := (g.mem_walks_succ isEps).1 h
    exact (f.mem_walks_succ isEps).2 ⟨t, hb.eps p t ht hk, hk, v, ih _ _ _ hv, rfl⟩

theorem Below.refl (hw : f.WF) : Below f f := ⟨hw, rfl, rfl, fun _ _ h _ => h⟩

/-- Four ways to have a solver. -/
theorem solver_idem (hid : ∀ a : W, a + a = a) (hcyc : f.CyclesAbsorbed isEps) (L : QueueLaw ops (EdgeOk f isEps) (fun _ _ => True)) :
    ∃ S : Solver f ops, ∀ c q T, L.Rep c q T → S.L.Rep c q T :=
  ⟨⟨_, L, fun g hb s hs => ⟨Sd.idAlg g hb.wf (fun a => zero_mul a) hid isEps (fun n p c hc a => hcyc n p c (hb.walks _ _ _ _ hc) a) s hs,
    Sd.idI_init (fun a => zero_mul a) hid, fun _ _ _ h q => Sd.idI_distance hid h q⟩⟩, fun _ _ _ h => h⟩

theorem solver_top {ord : StateId → Nat} (hord : ∀ a b, KEdge f isEps a b → ord a < ord b)
    (L : QueueLaw ops (EdgeOk f isEps) (fun s x => ord s < ord x)) :
    ∃ S : Solver f ops, ∀ c q T, L.Rep c q T → S.L.Rep c q T :=
  ⟨⟨_, L, fun g hb s hs => ⟨Sd.topAlg g hb.wf (fun a => zero_mul a) isEps ord (fun a b h => hord a b (hb.edge h)) s,
    Sd.topI_init (fun a => zero_mul a) hs, fun _ _ _ h q => Sd.topI_distance hb.wf (fun a => zero_mul a) (fun a b h => hord a b (hb.edge h)) hs h q⟩⟩,
    fun _ _ _ h => h⟩

theorem solver_no (hno : ∀ a b, ¬ KEdge f isEps a b) (L : QueueLaw ops (EdgeOk f isEps) (fun _ _ => True)) :
    ∃ S : Solver f ops, ∀ c q T, L.Rep c q T → S.L.Rep c q T :=
  ⟨⟨_, L, fun g hb s hs => ⟨Sd.noAlg g isEps (fun a b h => hno a b (hb.edge h)) s, rfl, fun _ _ _ h q => by
    rw [show _ = Sd.init s from h]
    exact Sd.no_distance hb.wf (fun a => zero_mul a) (fun a b h => hno a b (hb.edge h)) hs q⟩⟩, fun _ _ _ h => h⟩

theorem solver_any (hw : f.WF) {ord : StateId → Nat} (hord : ∀ a b, KEdge f isEps a b → ord a < ord b) (L : QueueLaw ops (EdgeOk f isEps) (fun _ _ => True)) :
    ∃ S : Solver f ops, ∀ c q T, L.Rep c q T → S.L.Rep c q T :=
  ⟨⟨_, L, fun g hb s hs =>
    have hord' : ∀ a b, KEdge g isEps a b → ord a < ord b := fun a b h => hord a b (hb.edge h)
    ⟨Sd.anyAlg g hb.wf (fun a => zero_mul a) isEps (fun a h => lt_irrefl _ (hord' a a h)) _ (Sd.exists_pot g hb.wf isEps hord').choose_spec s,
    Sd.anyI_init (fun a => zero_mul a) hs, fun _ _ _ h q => Sd.anyI_distance hb.wf (fun a => zero_mul a) hord' hs h q⟩⟩, fun _ _ _ h => h⟩

/-- What is kept between two calls. -/
structure Rest (S : Solver f ops) (e : SdEnv W Q) (r : RmEps W Q) : Prop where
  visited : ∀ s, r.visited s = false
  states : r.visitedStates = []
  elements : ∀ x id i, r.elements x = some (id, i) → id < r.expandId
  queue : ∃ c T, S.L.Rep c r.sd.queue T
  fresh : Sd.Fresh e r.sd

theorem Rest.new {S : Solver f ops} {e : SdEnv W Q} {q : Q} (h : S.L.Rep none q ∅) : Rest S e (RmEps.new q) :=
  ⟨fun _ => rfl, rfl, fun _ _ _ h => (nomatch h), ⟨_, _, h⟩, fun _ _ _ h => (nomatch h)⟩

/-- What the transitions and the final weight that `expand` returns stand for. -/
structure Expansion (g : Fst W) (s : StateId) (ts : List (Tr W)) (w : W) (d : StateId → W) : Prop where
  dist : ∀ q, g.IsDistance isEps s q (d q)
  orig : ∀ u ∈ ts, ∃ q, Relation.ReflTransGen (KEdge g isEps) s q ∧ ∃ t ∈ g.trsOf q, isEps t = false ∧ u.elem = t.elem
  all : ∀ q, Relation.ReflTransGen (KEdge g isEps) s q → ∀ t ∈ g.trsOf q, isEps t = false → ∃ u ∈ ts, u.elem = t.elem
  trs : ∀ h, lin h ts = ∑ q ∈ Finset.range g.numStates, d q * g.nonOp h q
  fin : w = ∑ q ∈ Finset.range g.numStates, d q * (g.finOf q).getD 0
  weights : ∀ P : W → Prop, P 1 → (∀ a b, P a → P b → P (a + b) ∧ P (a * b)) → g.WeightsIn P → (∀ u ∈ ts, P u.weight) ∧ (w = 0 ∨ P w)

theorem expand_spec (S : Solver f ops) {eqv : W → W → Bool} (hex : ∀ a b, eqv a b = true ↔ b = a) {sf : SemiringFlags} (hsf : sf.right = true)
    (hp : EpsPositive f) {i : StateId} (hi : f.start = some i) (hb : Below f g) {s : StateId} (hs : s < g.numStates) {r : RmEps W Q}
    (hr : Rest S ⟨ops, eqv, isEps, true⟩ r) :
    ∃ N trs w r' d, (∀ n, N ≤ n → r.expand ⟨ops, eqv, isEps, true⟩ sf g s n = some (.ok (trs, w, r'))) ∧
      Rest S ⟨ops, eqv, isEps, true⟩ r' ∧ Expansion g s trs w d := by
  obtain ⟨A, hA, hAd⟩ := S.alg g hb s hs
  obtain ⟨c, T, hrep⟩ := hr.queue
  obtain ⟨fuel, st', st'', c', d, rr, h1, h2, h3, h4, h5, h6⟩ := Sd.run_spec (e := ⟨ops, eqv, isEps, true⟩) (st := r.sd)
    (L := S.L.restrict hb.edgeOk) hb.wf hex A hrep (hb.start.trans hi) (some s) hs hr.fresh hsf hA
  have hd := hAd _ _ _ h3
  have hseen : ∀ q, Relation.ReflTransGen (KEdge g isEps) s q → Sd.Seen ⟨ops, eqv, isEps, true⟩ st' q ∧ q < st'.len := by
    intro q hq
    induction hq with
    | refl =>
      have hne := positive_distance (hb.positive hp) .refl (hd s)
      constructor
      · by_contra hns
        exact hne (h2.view.unseen s hns).1
      · by_contra hns
        exact hne (h2.view.beyond s (by omega))
    | tail hq hqr _ =>
      have hne := positive_distance (hb.positive hp) hq (hd _)
      obtain ⟨t, ht, hk, rfl⟩ := hqr
      exact h4 _ hne t ht hk
  have hget : ∀ q, Relation.ReflTransGen (KEdge g isEps) s q → st'.distances[q]? = some (d q) := by
    intro q hq
    obtain ⟨h1, h2'⟩ := hseen q hq
    unfold SdState.distances
    rw [List.getElem?_map, List.getElem?_range h2']
    exact congrArg some (h2.view.dist q h1)
  have hstart : LoopInv g s d { r with sd := st'' } ⟨[s], [], 0⟩ := by
    refine ⟨fun q => ?_, by simp [hr.states], fun q hq => ?_, fun q hq => ?_, .inr (by simp), ?_, ?_, ?_, ?_, by simp [hr.states]⟩
    · simp [hr.visited, hr.states]
    · simp only [hr.states, List.not_mem_nil, false_or, List.mem_singleton] at hq
      subst hq; exact .refl
    · simp [hr.states] at hq
    · exact fun x id i hx => .inl (hr.elements x id i hx)
    · intro h; simp [lin, hr.states]
    · simp [hr.states]
    · intro u hu; cases hu
  obtain ⟨N, r1, e1, g1, g2, g3, g4, g5⟩ := loop_spec hb.wf hs hget _ _ { r with sd := st'' } ⟨[s], [], 0⟩ le_rfl le_rfl hstart
  have hmem : ∀ q, q ∈ r1.visitedStates ↔ Relation.ReflTransGen (KEdge g isEps) s q := by
    intro q
    refine ⟨fun h => g2.reach q (.inl h), fun h => ?_⟩
    induction h with
    | refl => exact g2.src.resolve_right (by simp [g3])
    | tail _ h ih =>
      obtain ⟨t, ht, hk, rfl⟩ := h
      exact (g2.succ _ ih t ht hk).resolve_right (by simp [g3])
  have hlt : ∀ q ∈ r1.visitedStates, q < g.numStates := by
    intro q hq
    have := (hmem q).1 hq
    clear hq
    induction this with
    | refl => exact hs
    | tail _ h _ => obtain ⟨t, ht, -, rfl⟩ := h; exact hb.wf.next_lt _ t ht
  have hsum : ∀ u : StateId → W, (r1.visitedStates.map fun q => d q * u q).sum = ∑ q ∈ Finset.range g.numStates, d q * u q := by
    intro u
    rw [← List.sum_toFinset _ g2.nodup]
    refine Finset.sum_subset (fun q hq => Finset.mem_range.2 (hlt q (List.mem_toFinset.1 hq))) fun q _ hq => ?_
    rw [distance_unreached (fun h => hq (List.mem_toFinset.2 ((hmem q).2 h))) (hd q), zero_mul]
  refine ⟨max fuel N, e1.trs, e1.fin, r1.close, d, fun n hn => ?_, ⟨fun q => ?_, rfl, fun x id j hx => ?_, ?_, ?_⟩,
    ⟨hd, g2.orig, fun q hq => g2.all q ((hmem q).2 hq), fun h => (g2.trs h).trans (hsum _), g2.fin.trans (hsum _), fun P hP1 hcl hP => ⟨?_, ?_⟩⟩⟩
  · unfold expand
    rw [Sd.run_mono _ _ h1 (show fuel ≤ n by omega)]
    simp only [g1 n (by omega)]
  · simp only [close]
    split
    · rfl
    · next hq =>
      cases hv : r1.visited q with
      | false => rfl
      | true => exact absurd ((g2.vis q).1 hv) hq
  · simp only [close] at hx ⊢
    rcases g2.map x id j hx with h | ⟨h, -⟩ <;> omega
  · refine ⟨c', ∅, ?_⟩
    have : r1.close.sd = st'' := g5
    rw [this, h5]
    exact h2.rep
  · have : r1.close.sd = st'' := g5
    rw [this]
    exact h6
  · refine loop_weights (src := s) hcl hP.1 (fun q hq x hx => ?_) N _ _ _ _ (fun q hq => ?_) (fun u hu => by cases hu) (g1 N le_rfl)
    · rw [hget q hq, Option.some.injEq] at hx
      rw [← hx]
      exact distance_in hP1 hcl (fun s t ht _ => hP.1 s t ht) hq (hd q)
    · rw [List.mem_singleton] at hq; subst hq; exact .refl
  · rw [g2.fin.trans (hsum _)]
    refine Finset.sum_induction _ (fun a => a = 0 ∨ P a) ?_ (.inl rfl) fun q _ => ?_
    · rintro a b (rfl | ha) (rfl | hb)
      · exact .inl (zero_add 0)
      · exact .inr (by rwa [zero_add])
      · exact .inr (by rwa [add_zero])
      · exact .inr (hcl a b ha hb).1
    · by_cases hq : Relation.ReflTransGen (KEdge g isEps) s q
      · cases hfq : g.finOf q with
        | none => exact .inl (by simp)
        | some v => exact .inr (hcl _ _ (distance_in hP1 hcl (fun s t ht _ => hP.1 s t ht) hq (hd q)) (hP.2 q v hfq)).2
      · exact .inl (by rw [distance_unreached hq (hd q), zero_mul])

end RmEps
end Verif
