import Verif.Lemmas.Arcs

/-!
# Every call of a program on shared transitions is the call on values
-/

namespace Verif.Arcs
universe u
variable {W : Type u}
open Mem

/-! ## Mutators of a `VectorFst` -/

section
variable [Zero W] [One W] [Add W] [DecidableEq W]

/-- A result of `AFst.call` is what `Verif.step` gives on values, the counts are right and nobody else sees a change. -/
def CallOk (m : Mem W) (R : List Nat) (x : Option (Fst W × Bool)) : Option (Mem W × AFst W × Bool) → Prop
  | none => x = none
  | some (m', f', b) => x = some (f'.view m', b) ∧ Inv m' (arcsOf f'.states ++ R) ∧ Same m m' R

theorem checked_spec {m : Mem W} {f : AFst W} {s : StateId} {x : Mem W × AFst W} {R : List Nat} {g : Fst W}
    (h : Inv m (arcsOf f.states ++ R))
    (hx : Inv x.1 (arcsOf x.2.states ++ R) ∧ Same m x.1 R ∧ x.2.view x.1 = g) :
    CallOk m R (some (if s < (f.view m).states.length then (g, true) else (f.view m, false))) (f.checked s x m) := by
  unfold AFst.checked
  rw [view_states_length]
  split
  · exact ⟨by rw [hx.2.2], hx.1, hx.2.1⟩
  · exact ⟨rfl, h, Same.refl _ _⟩

theorem onSt_fields (m : Mem W) (f : AFst W) (s : StateId) (g : State W → State W) :
    (f.onSt m s g).2.start = f.start ∧ (f.onSt m s g).2.props = f.props := by
  unfold AFst.onSt
  cases f.states[s]? <;> exact ⟨rfl, rfl⟩

theorem onSt_props {m : Mem W} {f : AFst W} {s : StateId} {g : State W → State W} {R : List Nat} (p : Props)
    (h : Inv m (arcsOf f.states ++ R)) :
    Inv (f.onSt m s g).1 (arcsOf ({ (f.onSt m s g).2 with props := p } : AFst W).states ++ R) ∧
      Same m (f.onSt m s g).1 R ∧
      ({ (f.onSt m s g).2 with props := p } : AFst W).view (f.onSt m s g).1 =
        { (f.view m).modifySt s g with props := p } := by
  obtain ⟨i, sm, v⟩ := onSt_spec (s := s) g h
  refine ⟨i, sm, ?_⟩
  rw [← v]
  rfl

theorem isOk_ite {α : Type*} {c : Prop} [Decidable c] {x y : α} :
    (let r := (if c then (x, (.ok () : R Unit)) else (y, (.error .err : R Unit))); (r.1, r.2.isOk)) =
      if c then (x, true) else (y, false) := by
  by_cases h : c <;> simp [h, Except.isOk, Except.toBool]

omit [Zero W] [One W] [Add W] [DecidableEq W] in
theorem view_numStates (m : Mem W) (f : AFst W) : (f.view m).numStates = f.states.length := view_states_length m f

theorem call_spec {m : Mem W} {f : AFst W} {R : List Nat} (h : Inv m (arcsOf f.states ++ R)) (op : Op W) :
    CallOk m R (Verif.step (f.view m) op) (f.call m op) := by
  cases op with
  | setStart s =>
    simp only [Verif.step, AFst.call, Fst.setStartR, isOk_ite]
    exact checked_spec h ⟨h, Same.refl _ _, rfl⟩
  | setFinal s w =>
    simp only [Verif.step, AFst.call, Fst.setFinalR, isOk_ite]
    refine checked_spec h ⟨?_, Same.refl _ _, ?_⟩
    · simpa only [onFin_arcs] using h
    · simp only [Fst.setFinal, ← onFin_view, view_finOf]
      rfl
  | delFinal s =>
    simp only [Verif.step, AFst.call, Fst.delFinalR, isOk_ite]
    refine checked_spec h ⟨?_, Same.refl _ _, ?_⟩
    · simpa only [onFin_arcs] using h
    · simp only [Fst.delFinal, ← onFin_view, view_finOf]
      rfl
  | takeFinal s =>
    have e : (let r := (f.view m).takeFinalR s; (r.1, r.2.isOk)) =
        if s < (f.view m).states.length then ((f.view m).delFinal s, true) else (f.view m, false) := by
      unfold Fst.takeFinalR
      by_cases hs : s < (f.view m).states.length <;> simp [hs, Except.isOk, Except.toBool]
    simp only [Verif.step, AFst.call]
    rw [e]
    refine checked_spec h ⟨?_, Same.refl _ _, ?_⟩
    · simpa only [onFin_arcs] using h
    · simp only [Fst.delFinal, ← onFin_view, view_finOf]
      rfl
  | addState =>
    obtain ⟨i, v, s⟩ := newStates_spec 1 h
    refine ⟨?_, ?_, s.sub fun a ha => List.mem_append_right _ ha⟩
    · simp only [Verif.step, Fst.addState, AFst.view, List.map_append]
      rw [v, views_same (s.sub fun a ha => List.mem_append_left _ ha)]
      rfl
    · refine i.perm ?_
      simp only [arcsOf, List.map_append, ← List.append_assoc]
      exact List.Perm.append_right _ List.perm_append_comm
  | addStates n =>
    obtain ⟨i, v, s⟩ := newStates_spec n h
    refine ⟨?_, ?_, s.sub fun a ha => List.mem_append_right _ ha⟩
    · simp only [Verif.step, Fst.addStates, AFst.view, List.map_append]
      rw [v, views_same (s.sub fun a ha => List.mem_append_left _ ha)]
    · refine i.perm ?_
      simp only [arcsOf, List.map_append, ← List.append_assoc]
      exact List.Perm.append_right _ List.perm_append_comm
  | addTr s t =>
    simp only [Verif.step, AFst.call, Fst.addTrR, isOk_ite]
    exact checked_spec h (onSt_props _ h)
  | delTrs s =>
    simp only [Verif.step, AFst.call, Fst.delTrsR, isOk_ite]
    exact checked_spec h (onSt_props _ h)
  | popTrs s =>
    have e : (let r := (f.view m).popTrsR s; (r.1, r.2.isOk)) =
        if s < (f.view m).states.length then ((f.view m).delTrs s, true) else (f.view m, false) := by
      unfold Fst.popTrsR
      by_cases hs : s < (f.view m).states.length <;> simp [hs, Except.isOk, Except.toBool]
    simp only [Verif.step, AFst.call]
    rw [e]
    exact checked_spec h (onSt_props _ h)
  | delState s =>
    simp only [Verif.step, AFst.call, Fst.delState]
    rw [view_states_length]
    by_cases hs : s < f.states.length
    · simp only [hs, if_true]
      have hd := delStates_spec (f := { f with props := Props.deleteStates f.props }) [s] h
      have e : ({ f with props := Props.deleteStates f.props } : AFst W).view m =
        { f.view m with props := Props.deleteStates (f.view m).props } := rfl
      rw [e] at hd
      cases hq : ({ f with props := Props.deleteStates f.props } : AFst W).delStates m [s] with
      | error e =>
        rw [hq] at hd
        simp only at hd
        rw [hd]
        cases e with
        | err => exact ⟨rfl, h, Same.refl _ _⟩
        | panic => rfl
      | ok y =>
        obtain ⟨m', g⟩ := y
        rw [hq] at hd
        simp only at hd
        rw [hd.1]
        exact ⟨rfl, hd.2.1, hd.2.2⟩
    · simp only [hs, if_false]
      exact ⟨rfl, h, Same.refl _ _⟩
  | delStates ds =>
    simp only [Verif.step, AFst.call]
    have hd := delStates_spec ds h
    cases hq : f.delStates m ds with
    | error e =>
      rw [hq] at hd
      simp only at hd
      rw [hd]
      cases e with
      | err => exact ⟨rfl, h, Same.refl _ _⟩
      | panic => rfl
    | ok y =>
      obtain ⟨m', g⟩ := y
      rw [hq] at hd
      simp only at hd
      rw [hd.1]
      exact ⟨rfl, hd.2.1, hd.2.2⟩
  | delAllStates =>
    obtain ⟨i, s⟩ := dropStates_spec _ h
    exact ⟨rfl, i, s⟩
  | delTrsIdSorted s is =>
    simp only [Verif.step, AFst.call, Fst.delTrsIdSorted, view_numStates]
    rw [view_getElem?]
    cases hs : f.states[s]? with
    | none =>
      have : f.states.length ≤ s := by simpa using hs
      rw [if_neg (by omega)]
      rfl
    | some st =>
      have hlt : s < f.states.length := (List.getElem?_eq_some_iff.1 hs).1
      rw [if_pos hlt]
      obtain ⟨pre, post, he, hl⟩ := split_at hs
      have hp : Inv m (st.arc :: (arcsOf (pre ++ post) ++ R)) := (he ▸ h).perm (by
          simp only [arcsOf, List.map_append, List.map_cons, List.append_assoc, List.cons_append]
          exact List.perm_middle)
      have hd := delTrIdx_spec hp is
      simp only [Option.map_some]
      cases hq : AFst.delTrIdx m st is with
      | error e =>
        rw [hq] at hd
        simp only at hd
        rw [hd]
        rfl
      | ok y =>
        obtain ⟨m', st'⟩ := y
        rw [hq] at hd
        simp only at hd
        rw [hd.1]
        simp only
        obtain ⟨i, sm, v⟩ := set_spec (m := m) (m' := m') (R := R) (pre := pre) (post := post) (st := st) (st' := st')
          (he ▸ h) (fun _ => hd.2)
        have hset : f.states.set s st' = pre ++ st' :: post := by rw [he, ← hl, set_mid]
        refine ⟨?_, by rw [hset]; exact i, sm⟩
        simp only [AFst.view]
        rw [hset, v, he, List.map_append, List.map_cons]
        have hlen : s = (pre.map (·.view m)).length := by simp [hl]
        rw [hlen, set_mid]
        rfl
  | setTrs s ts =>
    simp only [Verif.step, AFst.call, view_numStates]
    by_cases hs : s < f.states.length
    · simp only [hs, if_true]
      obtain ⟨i, sm, v⟩ := onSt_props (s := s) (g := fun st => { st with
        trs := ts
        niepsilons := Fst.countEps (ts.map (·.ilabel))
        noepsilons := Fst.countEps (ts.map (·.olabel)) }) (Fst.foldAddTrProps f.props s none ts) h
      exact ⟨by rw [v]; rfl, i, sm⟩
    · simp only [hs, if_false]
      rfl
  | setIlabel s i l =>
    obtain ⟨i1, s1, v1⟩ := editTr_spec s i f.props (fun t =>
      ({ t with ilabel := l }, Fst.updEps t.ilabel l, id, Props.newLabels f.props t.ilabel t.olabel l t.olabel)) h
    refine ⟨Eq.trans ?_ (congrArg some v1.symm), i1, s1⟩
    simp only [Verif.step, Fst.setIlabelR]
    by_cases hs : s < (f.view m).states.length
    · simp only [hs, if_true]
      cases ((f.view m).trsOf s)[i]? <;> rfl
    · simp only [hs, if_false]; rfl
  | setOlabel s i l =>
    obtain ⟨i1, s1, v1⟩ := editTr_spec s i f.props (fun t =>
      ({ t with olabel := l }, id, Fst.updEps t.olabel l, Props.newLabels f.props t.ilabel t.olabel t.ilabel l)) h
    refine ⟨Eq.trans ?_ (congrArg some v1.symm), i1, s1⟩
    simp only [Verif.step, Fst.setOlabelR]
    by_cases hs : s < (f.view m).states.length
    · simp only [hs, if_true]
      cases ((f.view m).trsOf s)[i]? <;> rfl
    · simp only [hs, if_false]; rfl
  | setWeight s i w =>
    obtain ⟨i1, s1, v1⟩ := editTr_spec s i f.props (fun t =>
      ({ t with weight := w }, id, id, Props.newWeights f.props t.weight w)) h
    refine ⟨Eq.trans ?_ (congrArg some v1.symm), i1, s1⟩
    simp only [Verif.step, Fst.setWeightR]
    by_cases hs : s < (f.view m).states.length
    · simp only [hs, if_true]
      cases ((f.view m).trsOf s)[i]? <;> rfl
    · simp only [hs, if_false]; rfl
  | setNextstate s i q =>
    obtain ⟨i1, s1, v1⟩ := editTr_spec s i (Props.keepRelevant f.props) (fun t =>
      ({ t with nextstate := q }, id, id, Props.keepRelevant f.props)) h
    refine ⟨Eq.trans ?_ (congrArg some v1.symm), i1, s1⟩
    simp only [Verif.step, Fst.setNextstateR]
    by_cases hs : s < (f.view m).states.length
    · simp only [hs, if_true]
      cases ((f.view m).trsOf s)[i]? <;> rfl
    · simp only [hs, if_false]; rfl
  | setTr s i t' =>
    obtain ⟨i1, s1, v1⟩ := editTr_spec s i f.props (fun t =>
      (t', Fst.updEps t.ilabel t'.ilabel, Fst.updEps t.olabel t'.olabel, Props.newAll f.props t t')) h
    refine ⟨Eq.trans ?_ (congrArg some v1.symm), i1, s1⟩
    simp only [Verif.step, Fst.setTrR]
    by_cases hs : s < (f.view m).states.length
    · simp only [hs, if_true]
      cases ((f.view m).trsOf s)[i]? <;> rfl
    · simp only [hs, if_false]; rfl
  | sortTrs s le =>
    simp only [Verif.step, AFst.call, view_numStates]
    by_cases hs : s < f.states.length
    · simp only [hs, if_true]
      obtain ⟨i, sm, v⟩ := onSt_spec (s := s) (fun st : State W => { st with trs := sortTrsBy le st.trs }) h
      exact ⟨by rw [v]; rfl, i, sm⟩
    · simp only [hs, if_false]
      rfl
  | uniqueTrs s =>
    simp only [Verif.step, AFst.call, view_numStates]
    by_cases hs : s < f.states.length
    · simp only [hs, if_true]
      obtain ⟨i, sm, v⟩ := onSt_spec (s := s) (Fst.uniqueSt (W := W)) h
      exact ⟨by rw [v]; rfl, i, sm⟩
    · simp only [hs, if_false]
      rfl
  | sumTrs s =>
    simp only [Verif.step, AFst.call, view_numStates]
    by_cases hs : s < f.states.length
    · simp only [hs, if_true]
      obtain ⟨i, sm, v⟩ := onSt_spec (s := s) (Fst.sumSt (W := W)) h
      exact ⟨by rw [v]; rfl, i, sm⟩
    · simp only [hs, if_false]
      rfl

end

/-! ## The world -/

/-- All pointers held by the objects. -/
def World.arcs (w : World W) : List Nat := w.objs.flatMap (·.arcs)

/-- The counts are the numbers of holders, and unheld cells are freed. -/
def World.Owned (w : World W) : Prop := Inv w.mem w.arcs

theorem view_same {m m' : Mem W} {o : Obj W} (h : Same m m' o.arcs) : o.view m' = o.view m := by
  cases o with
  | fst f =>
    simp only [Obj.view, AFst.view]
    rw [views_same h]
  | trs a => simp only [Obj.view]; rw [h a (by simp [Obj.arcs])]
  | cfst c => simp only [Obj.view]; rw [h c.arc (by simp [Obj.arcs])]
  | ctrs a pos n => simp only [Obj.view]; rw [h a (by simp [Obj.arcs])]
  | gone => rfl

theorem objs_same {m m' : Mem W} {l : List (Obj W)} (h : Same m m' (l.flatMap (·.arcs))) :
    l.map (·.view m') = l.map (·.view m) :=
  List.map_congr_left fun o ho => view_same (h.sub fun a ha => List.mem_flatMap.2 ⟨o, ho, ha⟩)

theorem put_spec {w : World W} (hw : w.Owned) {i : Nat} {o o' : Obj W} {m' : Mem W} (hi : w.objs[i]? = some o)
    (h : ∀ R, Inv w.mem (o.arcs ++ R) → Inv m' (o'.arcs ++ R) ∧ Same w.mem m' R) :
    (w.put m' i o').Owned ∧ (w.put m' i o').view = w.view.set i (o'.view m') := by
  obtain ⟨pre, post, he, hl⟩ := split_at hi
  have p : ∀ x : Obj W, ((pre ++ x :: post).flatMap (·.arcs)).Perm
      (x.arcs ++ (pre.flatMap (·.arcs) ++ post.flatMap (·.arcs))) := by
    intro x
    simp only [List.flatMap_append, List.flatMap_cons, ← List.append_assoc]
    exact List.Perm.append_right _ List.perm_append_comm
  have hw' : Inv w.mem ((pre ++ o :: post).flatMap (·.arcs)) := by
    unfold World.Owned World.arcs at hw
    rwa [he] at hw
  obtain ⟨i1, s1⟩ := h _ (hw'.perm (p o))
  unfold World.put World.Owned World.view World.arcs
  simp only
  rw [he, ← hl, set_mid]
  refine ⟨i1.perm (p o').symm, ?_⟩
  rw [List.map_append, List.map_cons, List.map_append, List.map_cons]
  have hlen : pre.length = (pre.map (·.view w.mem)).length := by simp
  rw [hlen, set_mid, objs_same (s1.sub fun a ha => List.mem_append_left _ ha),
    objs_same (s1.sub fun a ha => List.mem_append_right _ ha)]

theorem add_spec {w : World W} {o : Obj W} {m' : Mem W}
    (h : Inv m' (o.arcs ++ w.arcs) ∧ Same w.mem m' w.arcs) :
    (w.add m' o).Owned ∧ (w.add m' o).view = w.view ++ [o.view m'] := by
  unfold World.add World.Owned World.view World.arcs
  refine ⟨h.1.perm ?_, ?_⟩
  · simp only [List.flatMap_append, List.flatMap_cons, List.flatMap_nil, List.append_nil]
    exact List.perm_append_comm
  · simp only [List.map_append, List.map_cons, List.map_nil]
    rw [objs_same h.2]

theorem frame {w : World W} (hw : w.Owned) {i : Nat} {o : Obj W} (hi : w.objs[i]? = some o) :
    ∃ R, Inv w.mem (o.arcs ++ R) := by
  obtain ⟨pre, post, he, _⟩ := split_at hi
  refine ⟨pre.flatMap (·.arcs) ++ post.flatMap (·.arcs), ?_⟩
  unfold World.Owned World.arcs at hw
  rw [he] at hw
  refine hw.perm ?_
  simp only [List.flatMap_append, List.flatMap_cons, ← List.append_assoc]
  exact List.Perm.append_right _ List.perm_append_comm

theorem mem_arcs {w : World W} {i : Nat} {o : Obj W} (hi : w.objs[i]? = some o) {a : Nat} (ha : a ∈ o.arcs) :
    a ∈ w.arcs :=
  List.mem_flatMap.2 ⟨o, List.mem_of_getElem? hi, ha⟩

theorem view_get (w : World W) (i : Nat) : w.view[i]? = (w.objs[i]?).map (·.view w.mem) := by
  simp [World.view]

theorem set_self {α : Type*} {l : List α} {i : Nat} {x : α} (h : l[i]? = some x) : l.set i x = l := by
  obtain ⟨hl, e⟩ := List.getElem?_eq_some_iff.1 h
  rw [← e]
  exact List.set_getElem_self hl

theorem modifySt_id (f : Fst W) (s : StateId) : f.modifySt s id = f := by
  unfold Fst.modifySt
  congr 1
  exact List.modify_id s f.states

section
variable [Zero W] [One W] [Add W] [DecidableEq W]

/-- The result of a step is what the step on values gives, and the counts are right. -/
def StepOk (x : Option (List (Val W) × Out W)) : Option (World W × Out W) → Prop
  | none => x = none
  | some (w', o) => x = some (w'.view, o) ∧ w'.Owned

omit [Add W] in
theorem toConst_value (f : Fst W) : toConst ⟨f, none, none⟩ =
    match constProps f with
    | .error e => .error e
    | .ok p => .ok ⟨(toConstLoop 0 f.states).1, (toConstLoop 0 f.states).2, f.start, none, none, p⟩ := by
  unfold toConst constProps
  simp only
  cases hc : f.computeAndUpdate Props.allMask with
  | error e => rfl
  | ok x =>
    obtain ⟨g, p⟩ := x
    have : g.states = f.states ∧ g.start = f.start := by
      unfold Fst.computeAndUpdate at hc
      split at hc
      · cases hc
      · cases hc
        exact ⟨rfl, rfl⟩
    simp only [this.1, this.2]

theorem step_spec {w : World W} (hw : w.Owned) (a : Act W) : StepOk (vStep w.view a) (w.step a) := by
  have stay : ∀ b : Bool, StepOk (some (w.view, Out.done b)) (some (w, Out.done b)) := fun b => ⟨rfl, hw⟩
  have shareOk : ∀ {i : Nat} {o : Obj W}, w.objs[i]? = some o → ∀ {a : Nat}, a ∈ o.arcs → ∀ o' : Obj W, o'.arcs = [a] →
      (w.add (w.mem.share a) o').Owned ∧ (w.add (w.mem.share a) o').view = w.view ++ [o'.view w.mem] := by
    intro i o hi a ha o' ho'
    obtain ⟨i1, r1⟩ := share_spec hw (mem_arcs hi ha)
    have := add_spec (w := w) (o := o') (m' := w.mem.share a) ⟨by rw [ho']; exact i1, fun b _ => r1 b⟩
    rw [view_same (m := w.mem) (m' := w.mem.share a) (o := o') (fun b _ => r1 b)] at this
    exact this
  have updateOk : ∀ {i a : Nat}, w.objs[i]? = some (.trs a) → ∀ g : List (Tr W) → List (Tr W),
      (w.put (w.mem.update a g).1 i (.trs (w.mem.update a g).2)).Owned ∧
      (w.put (w.mem.update a g).1 i (.trs (w.mem.update a g).2)).view = w.view.set i (.trs (g (w.mem.read a))) := by
    intro i a hi g
    have hp := put_spec hw (o' := .trs (w.mem.update a g).2) (m' := (w.mem.update a g).1) hi
      (fun R h => let u := update_spec (R := R) h g; ⟨u.1, u.2.2⟩)
    obtain ⟨R0, h0⟩ := frame hw hi
    refine ⟨hp.1, ?_⟩
    rw [hp.2]
    simp only [Obj.view]
    rw [(update_spec (R := R0) h0 g).2.1]
  cases a with
  | new =>
    have := add_spec (w := w) (o := .fst ⟨[], none, Props.nullMask⟩) (m' := w.mem) ⟨hw, Same.refl _ _⟩
    exact ⟨by rw [this.2]; rfl, this.1⟩
  | call i op =>
    simp only [vStep, World.step, view_get]
    cases hi : w.objs[i]? with
    | none => exact stay false
    | some o =>
      cases o with
      | fst f =>
        simp only [Option.map_some, Obj.view]
        have hc := fun R (h : Inv w.mem (arcsOf f.states ++ R)) => call_spec h op
        obtain ⟨R0, h0⟩ := frame hw hi
        cases hq : f.call w.mem op with
        | none =>
          have := hc R0 h0
          rw [hq] at this
          rw [show Verif.step (f.view w.mem) op = none from this]
          rfl
        | some y =>
          obtain ⟨m', f', b⟩ := y
          have h1 := hc R0 h0
          rw [hq] at h1
          rw [h1.1]
          have hp := put_spec hw (o' := .fst f') (m' := m') hi (fun R h => by
            have := hc R h
            rw [hq] at this
            exact this.2)
          exact ⟨by rw [hp.2]; rfl, hp.1⟩
      | trs a => exact stay false
      | cfst c => exact stay false
      | ctrs a pos n => exact stay false
      | gone => exact stay false
  | clone i =>
    simp only [vStep, World.step, view_get]
    cases hi : w.objs[i]? with
    | none => exact stay false
    | some o =>
      cases o with
      | fst f =>
        obtain ⟨i1, v1, s1⟩ := cloneStates_spec f.states hw (fun a ha => mem_arcs hi ha)
        have := add_spec (w := w) (o := .fst { f with states := (cloneStates w.mem f.states).2 })
          (m' := (cloneStates w.mem f.states).1) ⟨i1, s1⟩
        refine ⟨?_, this.1⟩
        rw [this.2]
        simp only [Option.map_some, Obj.view, AFst.view]
        rw [v1]
      | trs a =>
        obtain ⟨i1, v1, s1⟩ := alloc_spec hw (w.mem.read a)
        have := add_spec (w := w) (o := .trs (w.mem.alloc (w.mem.read a)).2) (m' := (w.mem.alloc (w.mem.read a)).1) ⟨i1, s1⟩
        refine ⟨?_, this.1⟩
        rw [this.2]
        simp only [Option.map_some, Obj.view]
        rw [v1]
      | cfst c =>
        have := shareOk hi (a := c.arc) (by simp [Obj.arcs]) (.cfst c) rfl
        exact ⟨by rw [this.2]; rfl, this.1⟩
      | ctrs a pos n =>
        obtain ⟨i1, v1, s1⟩ := alloc_spec hw (w.mem.read a)
        have := add_spec (w := w) (o := .ctrs (w.mem.alloc (w.mem.read a)).2 pos n)
          (m' := (w.mem.alloc (w.mem.read a)).1) ⟨i1, s1⟩
        refine ⟨?_, this.1⟩
        rw [this.2]
        simp only [Option.map_some, Obj.view]
        rw [v1]
      | gone => exact stay false
  | getTrs i s =>
    simp only [vStep, World.step, view_get]
    cases hi : w.objs[i]? with
    | none => exact stay false
    | some o =>
      cases o with
      | fst f =>
        simp only [Option.map_some, Obj.view, Fst.getTrsR, view_getElem?]
        cases hs : f.states[s]? with
        | none => exact stay false
        | some st =>
          have := shareOk hi (a := st.arc) (List.mem_map.2 ⟨st, List.mem_of_getElem? hs, rfl⟩) (.trs st.arc) rfl
          exact ⟨by rw [this.2]; rfl, this.1⟩
      | trs a => exact stay false
      | cfst c =>
        simp only [Option.map_some, Obj.view]
        cases hs : c.states[s]? with
        | none => exact stay false
        | some st =>
          have := shareOk hi (a := c.arc) (by simp [Obj.arcs]) (.ctrs c.arc st.pos st.ntrs) rfl
          exact ⟨by rw [this.2]; rfl, this.1⟩
      | ctrs a pos n => exact stay false
      | gone => exact stay false
  | shallow i =>
    simp only [vStep, World.step, view_get]
    cases hi : w.objs[i]? with
    | none => exact stay false
    | some o =>
      cases o with
      | trs a =>
        have := shareOk hi (a := a) (by simp [Obj.arcs]) (.trs a) rfl
        exact ⟨by rw [this.2]; rfl, this.1⟩
      | ctrs a pos n =>
        have := shareOk hi (a := a) (by simp [Obj.arcs]) (.ctrs a pos n) rfl
        exact ⟨by rw [this.2]; rfl, this.1⟩
      | fst f => exact stay false
      | cfst c => exact stay false
      | gone => exact stay false
  | toVec i =>
    simp only [vStep, World.step, view_get]
    cases hi : w.objs[i]? with
    | none => exact stay false
    | some o =>
      cases o with
      | trs a =>
        have := shareOk hi (a := a) (by simp [Obj.arcs]) (.trs a) rfl
        exact ⟨by rw [this.2]; rfl, this.1⟩
      | ctrs a pos n =>
        have := shareOk hi (a := a) (by simp [Obj.arcs]) (.trs a) rfl
        exact ⟨by rw [this.2]; rfl, this.1⟩
      | fst f => exact stay false
      | cfst c => exact stay false
      | gone => exact stay false
  | push i t =>
    simp only [vStep, World.step, view_get]
    cases hi : w.objs[i]? with
    | none => exact stay false
    | some o =>
      cases o with
      | trs a =>
        have := updateOk hi fun v => v ++ [t]
        exact ⟨by rw [this.2]; rfl, this.1⟩
      | fst f => exact stay false
      | cfst c => exact stay false
      | ctrs a pos n => exact stay false
      | gone => exact stay false
  | remove i k =>
    simp only [vStep, World.step, view_get]
    cases hi : w.objs[i]? with
    | none => exact stay false
    | some o =>
      cases o with
      | trs a =>
        simp only [Option.map_some, Obj.view]
        by_cases hk : k < (w.mem.read a).length
        · simp only [hk, if_true]
          have := updateOk hi fun v => v.eraseIdx k
          exact ⟨by rw [this.2], this.1⟩
        · simp only [hk, if_false]
          rfl
      | fst f => exact stay false
      | cfst c => exact stay false
      | ctrs a pos n => exact stay false
      | gone => exact stay false
  | clear i =>
    simp only [vStep, World.step, view_get]
    cases hi : w.objs[i]? with
    | none => exact stay false
    | some o =>
      cases o with
      | trs a =>
        have := updateOk hi fun _ => []
        exact ⟨by rw [this.2]; rfl, this.1⟩
      | fst f => exact stay false
      | cfst c => exact stay false
      | ctrs a pos n => exact stay false
      | gone => exact stay false
  | reserve i s =>
    simp only [vStep, World.step, view_get]
    cases hi : w.objs[i]? with
    | none => exact stay false
    | some o =>
      cases o with
      | fst f =>
        simp only [Option.map_some, Obj.view, view_numStates]
        by_cases hs : s < f.states.length
        · simp only [hs, if_true, decide_true]
          have hp := put_spec hw (o' := .fst (f.onSt w.mem s id).2) (m' := (f.onSt w.mem s id).1) hi (fun R h =>
            let u := onSt_spec (s := s) id h; ⟨u.1, u.2.1⟩)
          obtain ⟨R0, h0⟩ := frame hw hi
          have hv := (onSt_spec (s := s) id h0).2.2
          refine ⟨?_, hp.1⟩
          rw [hp.2]
          simp only [Obj.view]
          rw [hv, modifySt_id, set_self]
          rw [view_get, hi]
          rfl
        · simp only [hs, if_false, decide_false]
          exact stay false
      | trs a => exact stay false
      | cfst c => exact stay false
      | ctrs a pos n => exact stay false
      | gone => exact stay false
  | toConst i =>
    simp only [vStep, World.step, view_get]
    cases hi : w.objs[i]? with
    | none => exact stay false
    | some o =>
      cases o with
      | fst f =>
        simp only [Option.map_some, Obj.view, toConst_value]
        cases hc : constProps (f.view w.mem) with
        | error e => rfl
        | ok p =>
          simp only
          obtain ⟨R0, h0⟩ := frame hw hi
          have hv := (drainStates_spec f.states h0).2.1
          have hp := put_spec hw (o' := .cfst ⟨(toConstLoop 0 (drainStates w.mem f.states).2).1,
              ((drainStates w.mem f.states).1.alloc (toConstLoop 0 (drainStates w.mem f.states).2).2).2, f.start, p⟩)
            (m' := ((drainStates w.mem f.states).1.alloc (toConstLoop 0 (drainStates w.mem f.states).2).2).1) hi
            (fun R h => by
              obtain ⟨i1, _, s1⟩ := drainStates_spec f.states h
              obtain ⟨i2, _, s2⟩ := alloc_spec i1 (toConstLoop 0 (drainStates w.mem f.states).2).2
              exact ⟨i2, s1.trans s2⟩)
          refine ⟨?_, hp.1⟩
          rw [hp.2]
          simp only [Obj.view]
          rw [(alloc_spec (drainStates_spec f.states h0).1 _).2.1, hv]
          rfl
      | trs a => exact stay false
      | cfst c => exact stay false
      | ctrs a pos n => exact stay false
      | gone => exact stay false
  | intoIter i =>
    simp only [vStep, World.step, view_get]
    cases hi : w.objs[i]? with
    | none => exact stay false
    | some o =>
      cases o with
      | fst f =>
        obtain ⟨R0, h0⟩ := frame hw hi
        have hv := (drainStates_spec f.states h0).2.1
        have hp := put_spec hw (o' := .gone) (m' := (drainStates w.mem f.states).1) hi
          (fun R h => let u := drainStates_spec f.states h; ⟨u.1, u.2.2⟩)
        refine ⟨?_, hp.1⟩
        rw [hp.2, hv]
        rfl
      | cfst c =>
        simp only [Option.map_some, Obj.view]
        cases hd : drainConst c.states (w.mem.read c.arc) with
        | error e => rfl
        | ok l =>
          simp only
          have hp := put_spec hw (o' := .gone) (m' := ((w.mem.update c.arc fun v =>
            v.drop ((c.states.map (·.ntrs)).sum)).1.release (w.mem.update c.arc fun v =>
            v.drop ((c.states.map (·.ntrs)).sum)).2)) hi (fun R h => by
              obtain ⟨i1, _, s1⟩ := update_spec (R := R) h fun v => v.drop ((c.states.map (·.ntrs)).sum)
              obtain ⟨i2, s2⟩ := release_spec i1
              exact ⟨i2, s1.trans s2⟩)
          exact ⟨by rw [hp.2]; rfl, hp.1⟩
      | trs a => exact stay false
      | ctrs a pos n => exact stay false
      | gone => exact stay false
  | drop i =>
    simp only [vStep, World.step, view_get]
    cases hi : w.objs[i]? with
    | none => exact stay false
    | some o =>
      cases o with
      | fst f =>
        have hp := put_spec hw (o' := .gone) (m' := AFst.dropStates w.mem f.states) hi
          (fun R h => dropStates_spec f.states h)
        exact ⟨by rw [hp.2]; rfl, hp.1⟩
      | trs a =>
        have hp := put_spec hw (o' := .gone) (m' := w.mem.release a) hi (fun R h => release_spec h)
        exact ⟨by rw [hp.2]; rfl, hp.1⟩
      | cfst c =>
        have hp := put_spec hw (o' := .gone) (m' := w.mem.release c.arc) hi (fun R h => release_spec h)
        exact ⟨by rw [hp.2]; rfl, hp.1⟩
      | ctrs a pos n =>
        have hp := put_spec hw (o' := .gone) (m' := w.mem.release a) hi (fun R h => release_spec h)
        exact ⟨by rw [hp.2]; rfl, hp.1⟩
      | gone => exact stay false

end
end Verif.Arcs
