import Verif.Props.C50Mappers

/-! # What `encode` produces -/

namespace Verif
set_option linter.unusedSectionVars false
universe u
variable {W : Type u} [Zero W] [One W] [DecidableEq W]

/-- The two directions of the table agree. -/
def EncTable.Ok (T : EncTable W) : Prop := ∀ x (a : Nat), T.tupleToId x = some a ↔ T.idToTuple[a]? = some x

/-- Label `l` stands for the tuple `x`. -/
def EncTable.Code (T : EncTable W) (l : Label) (x : EncodeTuple W) : Prop := 0 < l ∧ T.idToTuple[l - 1]? = some x

theorem EncTable.Code.mono {T T' : EncTable W} (h : T.idToTuple <+: T'.idToTuple) {l x} (c : T.Code l x) : T'.Code l x := by
  obtain ⟨r, hr⟩ := h
  refine ⟨c.1, ?_⟩
  have h2 := c.2
  have hl : l - 1 < T.idToTuple.length := by
    by_contra hc
    rw [List.getElem?_eq_none (by omega)] at h2
    cases h2
  rw [← hr, List.getElem?_append_left hl]
  exact h2

theorem EncTable.Code.inj {T : EncTable W} (h : T.Ok) {l l' x x'} (c : T.Code l x) (c' : T.Code l' x') : l = l' ↔ x = x' := by
  constructor
  · rintro rfl
    have := c.2.symm.trans c'.2
    exact Option.some.inj this
  · rintro rfl
    have h1 := (h x _).2 c.2
    have h2 := (h x _).2 c'.2
    have h3 := Option.some.inj (h1.symm.trans h2)
    have := c.1
    have := c'.1
    omega

theorem EncTable.ok_new : (EncTable.new : EncTable W).Ok := by intro x a; simp [EncTable.new]

theorem EncTable.encode_spec {T : EncTable W} (h : T.Ok) (x) :
    (T.encode x).1.Ok ∧ T.idToTuple <+: (T.encode x).1.idToTuple ∧ (T.encode x).1.Code (T.encode x).2 x := by
  unfold EncTable.encode
  cases hx : T.tupleToId x with
  | some a => exact ⟨h, List.prefix_refl _, by simp, (h x a).1 hx⟩
  | none =>
    refine ⟨?_, List.prefix_append _ _, by simp, by simp⟩
    intro y a
    simp only
    have hno : ∀ b : Nat, T.idToTuple[b]? ≠ some x := by
      intro b hb
      rw [← h, hx] at hb
      cases hb
    by_cases hy : y = x
    · subst hy
      rw [if_pos rfl]
      constructor
      · intro ha; cases ha; simp
      · intro ha
        by_cases hl : a < T.idToTuple.length
        · rw [List.getElem?_append_left hl] at ha
          exact absurd ha (hno a)
        · rw [List.getElem?_append_right (by omega)] at ha
          have : a - T.idToTuple.length < 1 := by
            by_contra hc
            rw [List.getElem?_eq_none (by simp only [List.length_singleton]; omega)] at ha
            cases ha
          congr 1
          omega
    · rw [if_neg hy, h]
      by_cases hl : a < T.idToTuple.length
      · rw [List.getElem?_append_left hl]
      · rw [List.getElem?_append_right (by omega), List.getElem?_eq_none (by omega)]
        constructor
        · intro ha; cases ha
        · intro ha
          have := List.mem_of_getElem? ha
          simp only [List.mem_singleton] at this
          exact absurd this hy

/-- `t'` is the encoding of `t`. -/
def EncTr (ty : EncodeType) (T : EncTable W) (t t' : Tr W) : Prop :=
  T.Code t'.ilabel (toTuple ty t.ilabel t.olabel t.weight) ∧
  t'.olabel = (if ty.labels then t'.ilabel else t.olabel) ∧
  t'.weight = (if ty.weights then 1 else t.weight) ∧ t'.nextstate = t.nextstate

/-- `t` is the encoding of the final weight. -/
def EncFin (ty : EncodeType) (T : EncTable W) (w : W) (t : FinalTr W) : Prop :=
  if ty.weights then T.Code t.ilabel (toTuple ty EPS EPS w) ∧ t.olabel = (if ty.labels then t.ilabel else EPS) ∧ t.weight = 1
  else t = ⟨EPS, EPS, w⟩

theorem EncTr.mono {ty} {T T' : EncTable W} (h : T.idToTuple <+: T'.idToTuple) {t t'} (c : EncTr ty T t t') : EncTr ty T' t t' :=
  ⟨c.1.mono h, c.2⟩
theorem EncFin.mono {ty} {T T' : EncTable W} (h : T.idToTuple <+: T'.idToTuple) {t t'} (c : EncFin ty T t t') :
    EncFin ty T' t t' := by
  unfold EncFin at c ⊢
  by_cases hw : ty.weights = true
  · rw [if_pos hw] at c ⊢; exact ⟨c.1.mono h, c.2⟩
  · rw [if_neg hw] at c ⊢; exact c

theorem encode_runTrs (ty : EncodeType) : ∀ (ts : List (Tr W)) (T : EncTable W), T.Ok →
    ∃ T' ts', (encodeMapper ty).runTrs T ts = .ok (T', ts') ∧ T'.Ok ∧ T.idToTuple <+: T'.idToTuple ∧ List.Forall₂ (EncTr ty T') ts ts'
  | [], T, h => ⟨T, [], rfl, h, List.prefix_refl _, .nil⟩
  | t :: ts, T, h => by
    obtain ⟨h1, h2, h3⟩ := EncTable.encode_spec h (toTuple ty t.ilabel t.olabel t.weight)
    obtain ⟨T', ts', e, h4, h5, h6⟩ := encode_runTrs ty ts (T.encode (toTuple ty t.ilabel t.olabel t.weight)).1 h1
    refine ⟨T', (encodeTr ty T t).2 :: ts', ?_, h4, h2.trans h5, .cons ⟨h3.mono h5, rfl, rfl, rfl⟩ h6⟩
    have h0 : (encodeMapper ty).tr T t = .ok (encodeTr ty T t) := rfl
    unfold Mapper.runTrs
    rw [h0]
    simp only
    rw [show (encodeTr ty T t).1 = (T.encode (toTuple ty t.ilabel t.olabel t.weight)).1 from rfl, e]

theorem encode_runFin (ty : EncodeType) (o : Option W) (T : EncTable W) (h : T.Ok) :
    ∃ T' t, (encodeMapper ty).runFin T o = .ok (T', t) ∧ T'.Ok ∧ T.idToTuple <+: T'.idToTuple ∧ Option.Rel (EncFin ty T') o t := by
  cases o with
  | none => exact ⟨T, none, rfl, h, List.prefix_refl _, .none⟩
  | some w =>
    obtain ⟨h1, h2, h3⟩ := EncTable.encode_spec h (toTuple ty EPS EPS w)
    refine ⟨(encodeFin ty T ⟨EPS, EPS, w⟩).1, some (encodeFin ty T ⟨EPS, EPS, w⟩).2, rfl, ?_⟩
    unfold encodeFin
    by_cases hw : ty.weights = true
    · rw [if_pos hw]
      refine ⟨h1, h2, .some ?_⟩
      unfold EncFin
      rw [if_pos hw]
      exact ⟨h3, rfl, rfl⟩
    · rw [if_neg hw]
      refine ⟨h, List.prefix_refl _, .some ?_⟩
      unfold EncFin
      rw [if_neg hw]

theorem _root_.Option.Rel.imp' {α β : Type*} {r s : α → β → Prop} (hrs : ∀ a b, r a b → s a b) {o : Option α} {p : Option β}
    (h : Option.Rel r o p) : Option.Rel s o p := by
  cases h with
  | some h => exact .some (hrs _ _ h)
  | none => exact .none

/-- `r'` is the encoding of the transitions and final weight of a state. -/
def EncRow (ty : EncodeType) (T : EncTable W) (r : List (Tr W) × Option W) (r' : List (Tr W) × Option (FinalTr W)) : Prop :=
  List.Forall₂ (EncTr ty T) r.1 r'.1 ∧ Option.Rel (EncFin ty T) r.2 r'.2

theorem EncRow.mono {ty} {T T' : EncTable W} (h : T.idToTuple <+: T'.idToTuple) {t t'} (c : EncRow ty T t t') : EncRow ty T' t t' :=
  ⟨c.1.imp fun _ _ => EncTr.mono h, c.2.imp' fun _ _ => EncFin.mono h⟩

theorem encode_runAll (ty : EncodeType) : ∀ (rs : List (List (Tr W) × Option W)) (T : EncTable W), T.Ok →
    ∃ T' out, (encodeMapper ty).runAll T rs = .ok (T', out) ∧ T'.Ok ∧ T.idToTuple <+: T'.idToTuple ∧ List.Forall₂ (EncRow ty T') rs out
  | [], T, h => ⟨T, [], rfl, h, List.prefix_refl _, .nil⟩
  | r :: rs, T, h => by
    obtain ⟨T1, ts, e1, a1, a2, a3⟩ := encode_runTrs ty r.1 T h
    obtain ⟨T2, t, e2, b1, b2, b3⟩ := encode_runFin ty r.2 T1 a1
    obtain ⟨T3, out, e3, c1, c2, c3⟩ := encode_runAll ty rs T2 b1
    refine ⟨T3, (ts, t) :: out, ?_, c1, (a2.trans b2).trans c2, .cons ?_ c3⟩
    · have h0 : (encodeMapper ty).runState T r = .ok (T2, ts, t) := by
        unfold Mapper.runState
        rw [e1]
        simp only
        rw [e2]
      unfold Mapper.runAll
      rw [h0]
      simp only
      rw [e3]
    · exact ⟨a3.imp fun _ _ => EncTr.mono (b2.trans c2), b3.imp' fun _ _ => EncFin.mono c2⟩

/-- The transition to the superfinal state `n` that stands for a final weight. -/
def EncExtra (ty : EncodeType) (T : EncTable W) (n : StateId) : Option W → List (Tr W) → Prop
  | none, e => e = []
  | some w, e => ∃ l, T.Code l (toTuple ty EPS EPS w) ∧ e = [⟨l, if ty.labels then l else EPS, 1, n⟩]

/-- `g` is the encoding of `f` with table `T`. -/
structure Encoded (ty : EncodeType) (T : EncTable W) (f g : Fst W) : Prop where
  ok : T.Ok
  start : g.start = f.start
  props : g.props = (encodeMapper ty : Mapper (EncTable W) W).props f.props
  counters : f.AllCounters → g.AllCounters
  num : g.numStates = f.numStates + if ty.weights then 1 else 0
  labels : ty.weights = false → ∀ s, List.Forall₂ (EncTr ty T) (f.trsOf s) (g.trsOf s) ∧ g.finOf s = f.finOf s
  weights : ty.weights = true → ∀ s, s < f.numStates → g.finOf s = none ∧ ∃ ts e, g.trsOf s = ts ++ e ∧
    List.Forall₂ (EncTr ty T) (f.trsOf s) ts ∧ EncExtra ty T f.numStates (f.finOf s) e
  super : ty.weights = true → g.trsOf f.numStates = [] ∧ g.finOf f.numStates = some 1

theorem encode_spec (f : Fst W) (hs : f.start ≠ none) (ty : EncodeType) : ∃ T g, f.encode ty = .ok (T, g) ∧ Encoded ty T f g := by
  have hsp := trMap_spec f (encodeMapper ty) EncTable.new hs
  obtain ⟨T, out, e, h1, -, h3⟩ := encode_runAll ty (mapCalls (encodeMapper ty : Mapper (EncTable W) W).action f) EncTable.new EncTable.ok_new
  rw [e] at hsp
  have hrow : ∀ (s : Nat) r, out[s]? = some r → ∃ r0, (mapCalls (encodeMapper ty : Mapper (EncTable W) W).action f)[s]? = some r0 ∧
      EncRow ty T r0 r := by
    intro s r hr
    obtain ⟨hl, rfl⟩ := List.getElem?_eq_some_iff.1 hr
    have hl' : s < (mapCalls (encodeMapper ty : Mapper (EncTable W) W).action f).length := by rw [h3.length_eq]; exact hl
    exact ⟨_, List.getElem?_eq_getElem hl', List.Forall₂.get h3 hl' hl⟩
  have hact : (encodeMapper ty : Mapper (EncTable W) W).action = if ty.weights then .requireSuperfinal else .noSuperfinal := rfl
  have hgood : goodOut (encodeMapper ty : Mapper (EncTable W) W).action out := by
    intro r hr ha t ht
    obtain ⟨s, hs, rfl⟩ := List.getElem_of_mem hr
    obtain ⟨r0, -, hr0⟩ := hrow s _ (List.getElem?_eq_getElem hs)
    have hw : ty.weights ≠ true := by intro hw; rw [hact, if_pos hw] at ha; cases ha
    have h2 := hr0.2
    rw [ht] at h2
    generalize r0.2 = o at h2
    cases h2 with
    | some h =>
      unfold EncFin at h
      rw [if_neg hw] at h
      rw [h]; rfl
  obtain ⟨g, hg, hm⟩ := hsp.1 hgood
  have hst : ∀ s, s < f.numStates → ∃ ts t, List.Forall₂ (EncTr ty T) (f.trsOf s) ts ∧ Option.Rel (EncFin ty T) (f.finOf s) t ∧
      (g.trsOf s, g.finOf s) = placedCode (encodeMapper ty : Mapper (EncTable W) W).action f.numStates (f.finOf s) ts t := by
    intro s hs
    obtain ⟨ts, t, ho, hp⟩ := hm.state s hs
    obtain ⟨r0, hr0, hr⟩ := hrow s _ ho
    have : r0 = (f.trsOf s, f.finOf s) := by
      unfold mapCalls at hr0
      rw [List.getElem?_append_left (by simp [Fst.rows, hs]), rows_get f hs] at hr0
      exact (Option.some.inj hr0).symm
    subst this
    exact ⟨ts, t, hr.1, hr.2, hp⟩
  have hnum : g.numStates = f.numStates + if ty.weights then 1 else 0 := by
    rw [hm.num]
    congr 1
    rw [hact]
    cases ty.weights <;> rfl
  refine ⟨T, g, hg, h1, hm.start, hm.props, hm.counters, hnum, ?_, ?_, ?_⟩
  · intro hw s
    rw [hw] at hact hnum
    by_cases hs : s < f.numStates
    · obtain ⟨ts, t, a, b, c⟩ := hst s hs
      rw [hact] at c
      generalize hfo : f.finOf s = fo at b c ⊢
      cases b with
      | none =>
        simp only [placedCode, Prod.mk.injEq] at c
        rw [c.1, c.2]
        exact ⟨a, rfl⟩
      | some h =>
        unfold EncFin at h
        rw [if_neg (by rw [hw]; simp)] at h
        subst h
        simp only [Bool.false_eq_true, if_false, placedCode, reduceCtorEq, false_and, placed, Prod.mk.injEq] at c
        rw [c.1, c.2]
        exact ⟨a, rfl⟩
    · have hn : g.numStates = f.numStates := by simpa using hnum
      rw [Fst.trsOf_of_ge (f := f) (by omega), Fst.finOf_of_ge (f := f) (by omega), Fst.trsOf_of_ge (f := g) (by omega),
        Fst.finOf_of_ge (f := g) (by omega)]
      exact ⟨.nil, rfl⟩
  · intro hw s hs
    rw [hw] at hact
    obtain ⟨ts, t, a, b, c⟩ := hst s hs
    rw [hact] at c
    generalize hfo : f.finOf s = fo at b c ⊢
    cases b with
    | none =>
      simp only [placedCode, Prod.mk.injEq] at c
      rw [c.1, c.2]
      exact ⟨rfl, ts, [], by simp, a, rfl⟩
    | @some w t h =>
      unfold EncFin at h
      rw [if_pos hw] at h
      obtain ⟨p1, p2, p3⟩ := h
      have hl : t.ilabel ≠ EPS := by have := p1.1; omega
      have hl' : t.labelled = true := by unfold FinalTr.labelled; simp [hl]
      simp only [if_true, placedCode, hl', reduceCtorEq, false_and, and_false, if_false, placed, hl, ne_eq, not_false_eq_true,
        true_or, Prod.mk.injEq] at c
      rw [c.1, c.2]
      refine ⟨rfl, ts, _, rfl, a, t.ilabel, p1, ?_⟩
      rw [p2, p3]
  · intro hw
    apply hm.super
    rw [hact, if_pos hw]
    rfl

end Verif
