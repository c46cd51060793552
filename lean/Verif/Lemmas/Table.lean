import Verif.Model.StateTable
import Verif.Spec.Table

/-! # Numbering tables: invariants -/

namespace Verif
universe u v
variable {T : Type u} {τ : Type v}

/-- The local law of a numbering table. -/
structure TableLaw (find : τ → T → StateId × τ) (tup : τ → StateId → Option T) (size : τ → Nat) (inv : τ → Prop) : Prop where
  dense : ∀ m, inv m → ∀ s, (s < size m ↔ (tup m s).isSome)
  inj : ∀ m, inv m → ∀ a b t, tup m a = some t → tup m b = some t → a = b
  keep : ∀ m, inv m → ∀ t, inv (find m t).2
  found : ∀ m, inv m → ∀ t, tup (find m t).2 (find m t).1 = some t
  mono : ∀ m, inv m → ∀ t s u, tup m s = some u → tup (find m t).2 s = some u
  grow : ∀ m, inv m → ∀ t, size (find m t).2 = size m ∨ (size (find m t).2 = size m + 1 ∧ (find m t).1 = size m)

namespace TableLaw
variable {find : τ → T → StateId × τ} {tup : τ → StateId → Option T} {size : τ → Nat} {inv : τ → Prop}

theorem again (L : TableLaw find tup size inv) {m : τ} (hm : inv m) {s t} (h : tup m s = some t) : (find m t).1 = s :=
  L.inj _ (L.keep m hm t) _ _ t (L.found m hm t) (L.mono m hm t s t h)

theorem keepAll (L : TableLaw find tup size inv) : ∀ (h : List T) (m : τ), inv m → inv (askAll find m h).2
  | [], _, hm => hm
  | t :: ts, m, hm => keepAll L ts _ (L.keep m hm t)

theorem monoAll (L : TableLaw find tup size inv) : ∀ (h : List T) (m : τ), inv m → ∀ s u, tup m s = some u →
    tup (askAll find m h).2 s = some u
  | [], _, _, _, _, hs => hs
  | t :: ts, m, hm, s, u, hs => monoAll L ts _ (L.keep m hm t) s u (L.mono m hm t s u hs)

theorem lenAll (h : List T) : ∀ m : τ, (askAll find m h).1.length = h.length := by
  induction h with
  | nil => intro m; rfl
  | cons t ts ih => intro m; simp [askAll, ih]

theorem foundAll (L : TableLaw find tup size inv) : ∀ (h : List T) (m : τ), inv m → ∀ (i : Nat) t a, h[i]? = some t →
    (askAll find m h).1[i]? = some a → tup (askAll find m h).2 a = some t
  | [], _, _, i, t, a, h, _ => by simp at h
  | t :: ts, m, hm, 0, u, a, h, ha => by
    simp only [List.getElem?_cons_zero, Option.some.injEq] at h
    simp only [askAll, List.getElem?_cons_zero, Option.some.injEq] at ha
    subst h; subst ha
    exact monoAll L ts _ (L.keep m hm t) _ _ (L.found m hm t)
  | t :: ts, m, hm, i + 1, u, a, h, ha => by
    simp only [List.getElem?_cons_succ] at h
    simp only [askAll, List.getElem?_cons_succ] at ha
    exact foundAll L ts _ (L.keep m hm t) i u a h ha

theorem sizeAll (L : TableLaw find tup size inv) : ∀ (h : List T) (m : τ), inv m → ∀ s,
    (s < size (askAll find m h).2 ↔ (s < size m ∨ s ∈ (askAll find m h).1))
  | [], m, _, s => by simp [askAll]
  | t :: ts, m, hm, s => by
    have ih := sizeAll L ts _ (L.keep m hm t) s
    have hlt : (find m t).1 < size (find m t).2 := (L.dense _ (L.keep m hm t) _).2 (by rw [L.found m hm t]; rfl)
    simp only [askAll, List.mem_cons, ih]
    rcases L.grow m hm t with e | ⟨e, e'⟩
    · rw [e] at hlt ⊢
      constructor
      · rintro (h | h)
        · exact .inl h
        · exact .inr (.inr h)
      · rintro (h | h | h)
        · exact .inl h
        · exact .inl (h ▸ hlt)
        · exact .inr h
    · rw [e, e']
      constructor
      · rintro (h | h)
        · by_cases hs : s < size m
          · exact .inl hs
          · exact .inr (.inl (by omega))
        · exact .inr (.inr h)
      · rintro (h | h | h)
        · exact .inl (by omega)
        · exact .inl (by omega)
        · exact .inr h

theorem askAll_append (find : τ → T → StateId × τ) (h h' : List T) : ∀ m : τ,
    askAll find m (h ++ h') = ((askAll find m h).1 ++ (askAll find (askAll find m h).2 h').1, (askAll find (askAll find m h).2 h').2) := by
  induction h with
  | nil => intro m; rfl
  | cons t ts ih => intro m; simp only [List.cons_append, askAll, ih]

/-- The local law, and an empty table to begin with, are enough. -/
theorem numbers (L : TableLaw find tup size inv) {m : τ} (hm : inv m) (h0 : size m = 0) : NumbersTuples find tup m := by
  intro h h' ids m' e
  have e1 : ids = (askAll find m h).1 := by rw [e]
  have e2 : m' = (askAll find m h).2 := by rw [e]
  have hm' : inv m' := e2 ▸ L.keepAll h m hm
  have hf : ∀ (i : Nat) t a, h[i]? = some t → ids[i]? = some a → tup m' a = some t := by
    intro i t a hi ha; rw [e2]; exact L.foundAll h m hm i t a hi (e1 ▸ ha)
  refine ⟨e1 ▸ lenAll h m, ?_, ?_, ⟨size m', ?_⟩, ?_⟩
  · intro i j t u a b hi hj ha hb
    have := hf i t a hi ha
    have h2 := hf j u b hj hb
    constructor
    · rintro rfl; exact L.inj m' hm' a b t this h2
    · rintro rfl; rw [this] at h2; exact Option.some.inj h2
  · intro i t a hi ha
    have h1 := hf i t a hi ha
    have h2 := L.monoAll h' m' hm' a t h1
    exact ⟨h1, h2, L.again (L.keepAll h' m' hm') h2⟩
  · intro s
    refine ⟨?_, L.dense m' hm' s⟩
    have := L.sizeAll h m hm s
    rw [h0] at this
    rw [e2, e1, this]
    simp
  · rw [askAll_append, ← e1, ← lenAll (find := find) h m, ← e1]
    simp

end TableLaw

/-! ### `BiMap` -/

namespace BiMap
variable [DecidableEq T]

/-- The two halves agree. -/
def Ok (m : BiMap T) : Prop := ∀ t s, m.lookup t = some s ↔ m.ofId[s]? = some t

/-- The tuple of an id. -/
def tup (m : BiMap T) (s : StateId) : Option T := m.ofId[s]?

theorem findTuple_eq (m : BiMap T) (s t) : m.findTuple s = .ok t ↔ m.tup s = some t := by
  unfold findTuple tup
  cases m.ofId[s]? <;> simp

theorem findTuple_panic (m : BiMap T) (s) : m.findTuple s = .error .panic ↔ m.tup s = none := by
  unfold findTuple tup
  cases m.ofId[s]? <;> simp

theorem ok_new : (new : BiMap T).Ok := by intro t s; simp [new, lookup]

theorem lookup_cons (p : T × StateId) (l : List (T × StateId)) (o t) :
    (⟨p :: l, o⟩ : BiMap T).lookup t = if p.1 = t then some p.2 else (⟨l, o⟩ : BiMap T).lookup t := by
  unfold lookup
  by_cases h : p.1 = t <;> simp [h]

theorem law : TableLaw (T := T) BiMap.findId BiMap.tup (fun m => m.ofId.length) Ok where
  dense m _ s := by simp [tup]
  inj m hm a b t ha hb := by
    have h1 := (hm t a).2 ha
    have h2 := (hm t b).2 hb
    rw [h1] at h2; exact Option.some.inj h2
  keep m hm t := by
    unfold findId
    cases h : m.lookup t with
    | some s => exact hm
    | none =>
      intro u s
      rw [lookup_cons]
      simp only
      have hlk : (⟨m.toId, m.ofId ++ [t]⟩ : BiMap T).lookup u = m.lookup u := rfl
      by_cases hu : t = u
      · subst hu
        rw [if_pos rfl]
        constructor
        · intro e; injection e with e; subst e; simp
        · intro e
          rcases Nat.lt_trichotomy s m.ofId.length with hs | hs | hs
          · rw [List.getElem?_append_left hs] at e
            rw [(hm t s).2 e] at h; exact absurd h (by simp)
          · rw [hs]
          · rw [List.getElem?_eq_none (by simp; omega)] at e; exact absurd e (by simp)
      · rw [if_neg hu, hlk, hm u s]
        rcases Nat.lt_trichotomy s m.ofId.length with hs | hs | hs
        · rw [List.getElem?_append_left hs]
        · subst hs; simp [hu]
        · rw [List.getElem?_eq_none (by omega), List.getElem?_eq_none (by simp; omega)]
  found m hm t := by
    unfold findId
    cases h : m.lookup t with
    | some s => exact (hm t s).1 h
    | none => simp [tup]
  mono m hm t s u hs := by
    unfold findId
    cases h : m.lookup t with
    | some s => exact hs
    | none =>
      have : s < m.ofId.length := (List.getElem?_eq_some_iff.1 hs).1
      simp only [tup]
      rw [List.getElem?_append_left this]
      exact hs
  grow m hm t := by
    unfold findId
    cases h : m.lookup t with
    | some s => exact .inl rfl
    | none => exact .inr ⟨by simp, rfl⟩

end BiMap

/-! ### The table of `factor_weight` -/

namespace FwTable
variable {W : Type u} [One W] [DecidableEq W]

/-- The element of an id. -/
def tup (t : FwTable W) (s : StateId) : Option (FwElt W) := byLeft t.bimap s

theorem findTuple_eq (t : FwTable W) (s e) : t.findTuple s = .ok e ↔ t.tup s = some e := by
  unfold findTuple tup
  cases byLeft t.bimap s <;> simp

theorem findTuple_panic (t : FwTable W) (s) : t.findTuple s = .error .panic ↔ t.tup s = none := by
  unfold findTuple tup
  cases byLeft t.bimap s <;> simp

/-- The invariant: ids in order, elements distinct, and the second map lists the elements of weight one that bypass the lookup. -/
def Ok (t : FwTable W) : Prop :=
  t.bimap.map (·.1) = List.range t.bimap.length ∧ (t.bimap.map (·.2)).Nodup ∧
  ∀ q n, t.unfactoredAt q = some n ↔ (t.factorTr = false ∧ (n, (⟨some q, 1⟩ : FwElt W)) ∈ t.bimap)

theorem ok_new (b : Bool) : (new b : FwTable W).Ok := by
  refine ⟨rfl, List.nodup_nil, fun q n => ?_⟩
  simp [unfactoredAt, new]

theorem getElem_bimap {l : List (StateId × FwElt W)} (h : l.map (·.1) = List.range l.length) (i : Nat) (p : StateId × FwElt W) :
    l[i]? = some p → p.1 = i := by
  intro hi
  have h1 : (l.map (·.1))[i]? = some p.1 := by rw [List.getElem?_map, hi]; rfl
  have hlt : i < l.length := (List.getElem?_eq_some_iff.1 hi).1
  rw [h, List.getElem?_range hlt] at h1
  exact (Option.some.inj h1).symm

theorem mem_bimap {l : List (StateId × FwElt W)} (h : l.map (·.1) = List.range l.length) (n : StateId) (e : FwElt W) :
    (n, e) ∈ l ↔ l[n]? = some (n, e) := by
  constructor
  · intro hm
    obtain ⟨i, hi⟩ := List.mem_iff_getElem?.1 hm
    have := getElem_bimap h i _ hi
    simp only at this; subst this; exact hi
  · exact fun h => List.mem_iff_getElem?.2 ⟨n, h⟩

theorem byLeft_iff {l : List (StateId × FwElt W)} (h : l.map (·.1) = List.range l.length) (n : StateId) (e : FwElt W) :
    byLeft l n = some e ↔ (n, e) ∈ l := by
  unfold byLeft
  constructor
  · intro hf
    obtain ⟨p, hp, rfl⟩ := Option.map_eq_some_iff.1 hf
    have h1 := List.mem_of_find?_eq_some hp
    have h2 := List.find?_some hp
    simp only [decide_eq_true_eq] at h2
    subst h2; exact h1
  · intro hm
    cases hf : l.find? (fun p => decide (p.1 = n)) with
    | none =>
      have := List.find?_eq_none.1 hf (n, e) hm
      simp at this
    | some p =>
      have h1 := List.mem_of_find?_eq_some hf
      have h2 := List.find?_some hf
      simp only [decide_eq_true_eq] at h2
      have h3 : (n, p.2) ∈ l := by rw [← h2]; exact h1
      have h4 := (mem_bimap h n p.2).1 h3
      have h5 := (mem_bimap h n e).1 hm
      rw [h4] at h5
      injection h5 with h5
      simp only [Prod.mk.injEq, true_and] at h5
      simp [h5]

theorem right_inj {l : List (StateId × FwElt W)} (h : (l.map (·.2)).Nodup) {a b : StateId} {e : FwElt W}
    (ha : (a, e) ∈ l) (hb : (b, e) ∈ l) : a = b := by
  induction l with
  | nil => cases ha
  | cons p l ih =>
    simp only [List.map_cons, List.nodup_cons] at h
    rcases List.mem_cons.1 ha with ha | ha <;> rcases List.mem_cons.1 hb with hb | hb
    · rw [← ha] at hb; exact (Prod.mk.inj hb).1.symm
    · exact absurd (List.mem_map.2 ⟨(b, e), hb, rfl⟩ : e ∈ l.map (·.2)) (by rw [← ha] at h; exact h.1)
    · exact absurd (List.mem_map.2 ⟨(a, e), ha, rfl⟩ : e ∈ l.map (·.2)) (by rw [← hb] at h; exact h.1)
    · exact ih h.2 ha hb

theorem byRight_iff {l : List (StateId × FwElt W)} (h : (l.map (·.2)).Nodup) (n : StateId) (e : FwElt W) :
    byRight l e = some n ↔ (n, e) ∈ l := by
  unfold byRight
  constructor
  · intro hf
    obtain ⟨p, hp, rfl⟩ := Option.map_eq_some_iff.1 hf
    have h1 := List.mem_of_find?_eq_some hp
    have h2 := List.find?_some hp
    simp only [decide_eq_true_eq] at h2
    subst h2; exact h1
  · intro hm
    cases hf : l.find? (fun p => decide (p.2 = e)) with
    | none =>
      have := List.find?_eq_none.1 hf (n, e) hm
      simp at this
    | some p =>
      have h1 := List.mem_of_find?_eq_some hf
      have h2 := List.find?_some hf
      simp only [decide_eq_true_eq] at h2
      have h3 : (p.1, e) ∈ l := by rw [← h2]; exact h1
      simp [right_inj h h3 hm]

theorem bimapInsert_fresh {l : List (StateId × FwElt W)} (h : l.map (·.1) = List.range l.length) {e : FwElt W}
    (he : ∀ n, (n, e) ∉ l) : bimapInsert l l.length e = l ++ [(l.length, e)] := by
  unfold bimapInsert
  congr 1
  rw [List.filter_eq_self]
  intro p hp
  have h1 := (mem_bimap h p.1 p.2).1 hp
  have h2 := (List.getElem?_eq_some_iff.1 h1).1
  simp only [decide_eq_true_eq]
  refine ⟨by omega, ?_⟩
  rintro rfl
  exact he p.1 hp

theorem ok_append {l : List (StateId × FwElt W)} (h : l.map (·.1) = List.range l.length) (hn : (l.map (·.2)).Nodup)
    {e : FwElt W} (he : ∀ n, (n, e) ∉ l) :
    (l ++ [(l.length, e)]).map (·.1) = List.range (l ++ [(l.length, e)]).length ∧ ((l ++ [(l.length, e)]).map (·.2)).Nodup := by
  constructor
  · simp [h, List.range_succ]
  · rw [List.map_append, List.nodup_append]
    refine ⟨hn, by simp, ?_⟩
    rintro a ha b hb rfl
    simp only [List.map_cons, List.map_nil, List.mem_singleton] at hb
    subst hb
    obtain ⟨p, hp, rfl⟩ := List.mem_map.1 ha
    exact he p.1 hp

theorem findOrInsert_cases (t : FwTable W) (e : FwElt W) (ht : t.Ok) :
    (∃ n, t.findOrInsert e = (n, t) ∧ (n, e) ∈ t.bimap) ∨
    ((∀ n, (n, e) ∉ t.bimap) ∧ t.findOrInsert e = (t.bimap.length, { t with bimap := t.bimap ++ [(t.bimap.length, e)] })) := by
  unfold findOrInsert
  cases h : byRight t.bimap e with
  | some n => exact .inl ⟨n, rfl, (byRight_iff ht.2.1 n e).1 h⟩
  | none =>
    have he : ∀ n, (n, e) ∉ t.bimap := by
      intro n hn; rw [(byRight_iff ht.2.1 n e).2 hn] at h; exact absurd h (by simp)
    refine .inr ⟨he, ?_⟩
    simp only [insertBimap, bimapInsert_fresh ht.1 he]

theorem unfactoredAt_cons (t : FwTable W) (q n q') :
    ({ t with unfactored := (q, n) :: t.unfactored } : FwTable W).unfactoredAt q' = if q = q' then some n else t.unfactoredAt q' := by
  unfold unfactoredAt
  by_cases h : q = q' <;> simp [h]

/-- Either the element was numbered already, or it gets the next number. -/
theorem findState_cases (t : FwTable W) (e : FwElt W) (ht : t.Ok) :
    (∃ n, t.findState e = (n, t) ∧ (n, e) ∈ t.bimap) ∨
    ((∀ n, (n, e) ∉ t.bimap) ∧ (t.findState e).1 = t.bimap.length ∧ (t.findState e).2.Ok ∧
      (t.findState e).2.bimap = t.bimap ++ [(t.bimap.length, e)]) := by
  have key : ¬ (t.factorTr = false ∧ e.weight = 1 ∧ e.state.isSome) →
      (∃ n, t.findOrInsert e = (n, t) ∧ (n, e) ∈ t.bimap) ∨
      ((∀ n, (n, e) ∉ t.bimap) ∧ (t.findOrInsert e).1 = t.bimap.length ∧ (t.findOrInsert e).2.Ok ∧
      (t.findOrInsert e).2.bimap = t.bimap ++ [(t.bimap.length, e)]) := by
    intro hk
    rcases findOrInsert_cases t e ht with h | ⟨he, h⟩
    · exact .inl h
    · refine .inr ⟨he, by rw [h], ?_, by rw [h]⟩
      rw [h]
      obtain ⟨h1, h2⟩ := ok_append ht.1 ht.2.1 he
      refine ⟨h1, h2, fun q n => ?_⟩
      have := ht.2.2 q n
      show t.unfactoredAt q = some n ↔ _
      rw [this]
      simp only [List.mem_append, List.mem_singleton]
      constructor
      · rintro ⟨a, b⟩; exact ⟨a, .inl b⟩
      · rintro ⟨a, b | b⟩
        · exact ⟨a, b⟩
        · exfalso; apply hk
          have : e = ⟨some q, 1⟩ := (Prod.mk.inj b).2.symm
          subst this; exact ⟨a, rfl, rfl⟩
  unfold findState
  cases hs : e.state with
  | none => exact key (by simp [hs])
  | some q =>
    simp only
    by_cases hc : t.factorTr = false ∧ e.weight = 1
    · rw [if_pos hc]
      have hee : e = ⟨some q, 1⟩ := by cases e; simp_all
      unfold findUnfactored
      cases hu : t.unfactoredAt q with
      | some n => exact .inl ⟨n, rfl, by rw [hee]; exact ((ht.2.2 q n).1 hu).2⟩
      | none =>
        have he : ∀ n, (n, e) ∉ t.bimap := by
          intro n hn
          rw [hee] at hn
          rw [(ht.2.2 q n).2 ⟨hc.1, hn⟩] at hu; exact absurd hu (by simp)
        refine .inr ⟨he, rfl, ?_, ?_⟩
        · simp only [insertBimap, bimapInsert_fresh ht.1 he]
          obtain ⟨h1, h2⟩ := ok_append ht.1 ht.2.1 he
          refine ⟨h1, h2, fun q' n => ?_⟩
          have e0 := unfactoredAt_cons ({ t with bimap := t.bimap ++ [(t.bimap.length, e)] } : FwTable W) q t.bimap.length q'
          simp only at e0
          rw [e0]
          have hold := ht.2.2 q' n
          simp only [List.mem_append, List.mem_singleton]
          by_cases hq : q = q'
          · subst hq
            rw [if_pos rfl]
            constructor
            · intro h; injection h with h; subst h; exact ⟨hc.1, .inr (by rw [hee])⟩
            · rintro ⟨_, h | h⟩
              · exact absurd (hee ▸ h) (he n)
              · rw [(Prod.mk.inj h).1]
          · rw [if_neg hq]
            show t.unfactoredAt q' = some n ↔ _
            rw [hold]
            constructor
            · rintro ⟨a, b⟩; exact ⟨a, .inl b⟩
            · rintro ⟨a, b | b⟩
              · exact ⟨a, b⟩
              · have := (Prod.mk.inj b).2
                rw [hee] at this
                injection this with h1 h2
                injection h1 with h1
                exact absurd h1.symm hq
        · simp only [insertBimap, bimapInsert_fresh ht.1 he]
    · rw [if_neg hc]
      exact key (by rintro ⟨a, b, _⟩; exact hc ⟨a, b⟩)

theorem law : TableLaw (T := FwElt W) FwTable.findState FwTable.tup (fun t => t.bimap.length) Ok where
  dense t ht s := by
    constructor
    · intro hs
      have h : t.bimap[s]? = some t.bimap[s] := List.getElem?_eq_getElem hs
      have h1 := getElem_bimap ht.1 s _ h
      have h2 : (s, t.bimap[s].2) ∈ t.bimap := by
        have := List.getElem_mem hs
        rwa [show t.bimap[s] = (s, t.bimap[s].2) from Prod.ext h1 rfl] at this
      rw [tup, (byLeft_iff ht.1 s _).2 h2]; rfl
    · intro h
      obtain ⟨e, he⟩ := Option.isSome_iff_exists.1 h
      have := (mem_bimap ht.1 s e).1 ((byLeft_iff ht.1 s e).1 he)
      exact (List.getElem?_eq_some_iff.1 this).1
  inj t ht a b e ha hb := right_inj ht.2.1 ((byLeft_iff ht.1 a e).1 ha) ((byLeft_iff ht.1 b e).1 hb)
  keep t ht e := by
    rcases findState_cases t e ht with ⟨n, h, _⟩ | ⟨_, _, h, _⟩
    · rw [h]; exact ht
    · exact h
  found t ht e := by
    rcases findState_cases t e ht with ⟨n, h, hm⟩ | ⟨_, h1, h2, h3⟩
    · rw [h]; exact (byLeft_iff ht.1 n e).2 hm
    · rw [h1, tup, byLeft_iff h2.1, h3]; simp
  mono t ht e s u hs := by
    rcases findState_cases t e ht with ⟨n, h, hm⟩ | ⟨_, h1, h2, h3⟩
    · rw [h]; exact hs
    · rw [tup, byLeft_iff h2.1, h3]
      exact List.mem_append_left _ ((byLeft_iff ht.1 s u).1 hs)
  grow t ht e := by
    rcases findState_cases t e ht with ⟨n, h, hm⟩ | ⟨_, h1, h2, h3⟩
    · rw [h]; exact .inl rfl
    · exact .inr ⟨by rw [h3]; simp, h1⟩

end FwTable
end Verif
