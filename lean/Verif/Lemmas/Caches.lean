import Verif.Spec.Lazy
import Verif.Lemmas.Table

/-! # The caches obey the law of caches, and table operations the law of operations -/

namespace Verif
universe u v w x
variable {W : Type u}

theorem vecGet_put {α : Type u} (l : List (Option α)) (i : Nat) (x : α) (q : Nat) :
    vecGet (vecPut l i x) q = if q = i then some x else vecGet l q := by
  unfold vecGet vecPut
  by_cases hq : q = i
  · subst hq
    rw [if_pos rfl]
    have : ((if q ≥ l.length then l ++ List.replicate (q + 1 - l.length) none else l).set q (some x))[q]? = some (some x) := by
      rw [List.getElem?_set_self]
      split
      · simp; omega
      · omega
    rw [this]
  · rw [if_neg hq, List.getElem?_set_ne (Ne.symm hq)]
    by_cases h : i ≥ l.length
    · rw [if_pos h]
      by_cases hl : q < l.length
      · rw [List.getElem?_append_left hl]
      · rw [List.getElem?_append_right (by omega), List.getElem?_replicate, List.getElem?_eq_none (by omega : l.length ≤ q)]
        split
        · rename_i h; split at h <;> simp at h
        · rfl
    · rw [if_neg h]

theorem mapGet_put {α : Type u} (l : List (StateId × α)) (i : Nat) (x : α) (q : Nat) :
    mapGet (mapPut l i x) q = if q = i then some x else mapGet l q := by
  unfold mapGet mapPut
  by_cases hq : q = i
  · subst hq; simp
  · rw [if_neg hq]
    have hi : ¬ i = q := fun h => hq h.symm
    simp only [List.find?_cons, hi, decide_false]
    congr 1
    rw [List.find?_filter]
    congr 1
    funext p
    by_cases hp : p.1 = q <;> simp [hp, hq]

theorem scanTrs_eq (l : List (Tr W)) : ∀ k i o, scanTrs l k i o =
    (l.foldl (fun k t => max k (t.nextstate + 1)) k, i + l.countP (fun t => t.ilabel == EPS), o + l.countP (fun t => t.olabel == EPS)) := by
  induction l with
  | nil => intro k i o; rfl
  | cons t ts ih =>
    intro k i o
    simp only [scanTrs, ih, List.foldl_cons, List.countP_cons, beq_iff_eq]
    congr 2 <;> split <;> omega

theorem foldl_max (l : List (Tr W)) : ∀ a b : Nat, l.foldl (fun k t => max k (t.nextstate + 1)) (max a b) =
    max a (l.foldl (fun k t => max k (t.nextstate + 1)) b) := by
  induction l with
  | nil => intro a b; rfl
  | cons t ts ih => intro a b; simp only [List.foldl_cons]; rw [Nat.max_assoc, ih]

/-- The counters stored with the transitions are right. -/
def CacheTrs.Ok (e : CacheTrs W) : Prop :=
  e.niepsilons = e.trs.countP (fun t => t.ilabel == EPS) ∧ e.noepsilons = e.trs.countP (fun t => t.olabel == EPS)

theorem vecCache_law : CacheLaw (vecCache (W := W)) (fun c => ∀ s e, vecGet c.trs s = some e → e.Ok) where
  inv_empty := by intro s e h; simp [vecCache, vecGet] at h
  start_empty := rfl
  trs_empty s := by simp [vecCache, vecGet]
  fin_empty s := by simp [vecCache, vecGet]
  known_empty := rfl
  inv_start c r hc := hc
  start_start c r hc := rfl
  trs_start c r s hc := rfl
  fin_start c r s hc := rfl
  known_start c r hc := by
    cases r with
    | none => simp [vecCache, knownStart]
    | some s => simp [vecCache, knownStart]; omega
  inv_trs c s l hc := by
    intro q e h
    simp only [vecCache, scanTrs_eq, vecGet_put] at h
    split at h
    · injection h with h; subst h; exact ⟨by simp, by simp⟩
    · exact hc q e h
  start_trs c s l hc := rfl
  trs_trs c s l q hc := by
    simp only [vecCache, scanTrs_eq, vecGet_put]
    split <;> rfl
  fin_trs c s l q hc := rfl
  known_trs c s l hc := by
    simp only [vecCache, scanTrs_eq]
    rw [Nat.max_comm _ c.finsKnown, Nat.max_comm _ c.finsKnown, foldl_max, foldl_max]
  inv_fin c s w hc := hc
  start_fin c s w hc := rfl
  trs_fin c s w q hc := rfl
  fin_fin c s w q hc := by simp only [vecCache, vecGet_put]
  known_fin c s w hc := by simp only [vecCache]; omega
  num_trs c s hc := by simp only [vecCache, Option.map_map]; rfl
  num_ieps c s hc := by
    simp only [vecCache, Option.map_map]
    cases h : vecGet c.trs s with
    | none => rfl
    | some e => simp [(hc s e h).1]
  num_oeps c s hc := by
    simp only [vecCache, Option.map_map]
    cases h : vecGet c.trs s with
    | none => rfl
    | some e => simp [(hc s e h).2]

theorem mapCache_law : CacheLaw (mapCache (W := W)) (fun c => ∀ s e, mapGet c.trs s = some e → e.Ok) where
  inv_empty := by intro s e h; simp [mapCache, mapGet] at h
  start_empty := rfl
  trs_empty s := by simp [mapCache, mapGet]
  fin_empty s := by simp [mapCache, mapGet]
  known_empty := rfl
  inv_start c r hc := hc
  start_start c r hc := rfl
  trs_start c r s hc := rfl
  fin_start c r s hc := rfl
  known_start c r hc := by
    cases r with
    | none => simp [mapCache, knownStart]
    | some s => simp [mapCache, knownStart]; omega
  inv_trs c s l hc := by
    intro q e h
    simp only [mapCache, scanTrs_eq, mapGet_put] at h
    split at h
    · injection h with h; subst h; exact ⟨by simp, by simp⟩
    · exact hc q e h
  start_trs c s l hc := rfl
  trs_trs c s l q hc := by
    simp only [mapCache, scanTrs_eq, mapGet_put]
    split <;> rfl
  fin_trs c s l q hc := rfl
  known_trs c s l hc := by
    simp only [mapCache, scanTrs_eq]
    rw [Nat.max_comm _ c.finsKnown, Nat.max_comm _ c.finsKnown, foldl_max, foldl_max]
  inv_fin c s w hc := hc
  start_fin c s w hc := rfl
  trs_fin c s w q hc := rfl
  fin_fin c s w q hc := by simp only [mapCache, mapGet_put]
  known_fin c s w hc := by simp only [mapCache]; omega
  num_trs c s hc := by simp only [mapCache, Option.map_map]; rfl
  num_ieps c s hc := by
    simp only [mapCache, Option.map_map]
    cases h : mapGet c.trs s with
    | none => rfl
    | some e => simp [(hc s e h).1]
  num_oeps c s hc := by
    simp only [mapCache, Option.map_map]
    cases h : mapGet c.trs s with
    | none => rfl
    | some e => simp [(hc s e h).2]

/-- Invariant of `FirstCache`: the last entries are in the inner cache. -/
def LastCache.Ok {C : Type v} (K : CacheOps W C) (inv : C → Prop) (c : LastCache W C) : Prop :=
  inv c.inner ∧ (∀ i l, c.lastTrs = some (i, l) → K.getTrs c.inner i = some l) ∧
  (∀ i w, c.lastFin = some (i, w) → K.getFinal c.inner i = some w)

theorem lastOr_eq {α : Type u} (last : Option (StateId × α)) (f : StateId → Option α) (h : ∀ i l, last = some (i, l) → f i = some l)
    (s : StateId) : lastOr last s (f s) = f s := by
  unfold lastOr
  split
  · rename_i i l
    split
    · rename_i e; subst e; exact (h _ _ rfl).symm
    · rfl
  · rfl

theorem lastCache_law {C : Type v} {K : CacheOps W C} {inv : C → Prop} (L : CacheLaw K inv) :
    CacheLaw (lastCache K) (LastCache.Ok K inv) := by
  have gt : ∀ (c : LastCache W C) s, LastCache.Ok K inv c → (lastCache K).getTrs c s = K.getTrs c.inner s := by
    intro c s hc; exact lastOr_eq _ (K.getTrs c.inner) hc.2.1 s
  have gf : ∀ (c : LastCache W C) s, LastCache.Ok K inv c → (lastCache K).getFinal c s = K.getFinal c.inner s := by
    intro c s hc; exact lastOr_eq _ (K.getFinal c.inner) hc.2.2 s
  have i1 : ∀ c r, LastCache.Ok K inv c → LastCache.Ok K inv ((lastCache K).insertStart c r) := by
    intro c r hc
    refine ⟨L.inv_start _ _ hc.1, fun i l h => ?_, fun i l h => ?_⟩
    · exact (L.trs_start _ _ _ hc.1).trans (hc.2.1 i l h)
    · exact (L.fin_start _ _ _ hc.1).trans (hc.2.2 i l h)
  have i2 : ∀ c s l, LastCache.Ok K inv c → LastCache.Ok K inv ((lastCache K).insertTrs c s l) := by
    intro c s l hc
    refine ⟨L.inv_trs _ _ _ hc.1, fun i l' h => ?_, fun i l' h => ?_⟩
    · simp only [lastCache, Option.some.injEq, Prod.mk.injEq] at h
      obtain ⟨rfl, rfl⟩ := h
      exact (L.trs_trs _ _ _ _ hc.1).trans (if_pos rfl)
    · exact (L.fin_trs _ _ _ _ hc.1).trans (hc.2.2 i l' h)
  have i3 : ∀ c s w, LastCache.Ok K inv c → LastCache.Ok K inv ((lastCache K).insertFinal c s w) := by
    intro c s l hc
    refine ⟨L.inv_fin _ _ _ hc.1, fun i l' h => ?_, fun i l' h => ?_⟩
    · exact (L.trs_fin _ _ _ _ hc.1).trans (hc.2.1 i l' h)
    · simp only [lastCache, Option.some.injEq, Prod.mk.injEq] at h
      obtain ⟨rfl, rfl⟩ := h
      exact (L.fin_fin _ _ _ _ hc.1).trans (if_pos rfl)
  refine
    { inv_empty := ⟨L.inv_empty, by simp [lastCache], by simp [lastCache]⟩
      start_empty := L.start_empty, trs_empty := L.trs_empty, fin_empty := L.fin_empty, known_empty := L.known_empty
      inv_start := i1
      start_start := fun c r hc => L.start_start _ _ hc.1
      trs_start := fun c r s hc => ?_
      fin_start := fun c r s hc => ?_
      known_start := fun c r hc => L.known_start _ _ hc.1
      inv_trs := i2
      start_trs := fun c s l hc => L.start_trs _ _ _ hc.1
      trs_trs := fun c s l q hc => ?_
      fin_trs := fun c s l q hc => ?_
      known_trs := fun c s l hc => L.known_trs _ _ _ hc.1
      inv_fin := i3
      start_fin := fun c s w hc => L.start_fin _ _ _ hc.1
      trs_fin := fun c s w q hc => ?_
      fin_fin := fun c s w q hc => ?_
      known_fin := fun c s w hc => L.known_fin _ _ _ hc.1
      num_trs := fun c s hc => ?_
      num_ieps := fun c s hc => ?_
      num_oeps := fun c s hc => ?_ }
  · rw [gt _ _ (i1 c r hc), gt _ _ hc]; exact L.trs_start _ _ _ hc.1
  · rw [gf _ _ (i1 c r hc), gf _ _ hc]; exact L.fin_start _ _ _ hc.1
  · rw [gt _ _ (i2 c s l hc), gt _ _ hc]; exact L.trs_trs _ _ _ _ hc.1
  · rw [gf _ _ (i2 c s l hc), gf _ _ hc]; exact L.fin_trs _ _ _ _ hc.1
  · rw [gt _ _ (i3 c s w hc), gt _ _ hc]; exact L.trs_fin _ _ _ _ hc.1
  · rw [gf _ _ (i3 c s w hc), gf _ _ hc]; exact L.fin_fin _ _ _ _ hc.1
  · rw [gt _ _ hc]; exact L.num_trs _ _ hc.1
  · rw [gt _ _ hc]; exact L.num_ieps _ _ hc.1
  · rw [gt _ _ hc]; exact L.num_oeps _ _ hc.1

/-! ### Operations over a table -/

section table
variable {T : Type v} {τ : Type w} {find : τ → T → StateId × τ} {tup : τ → StateId → Option T} {size : τ → Nat} {inv : τ → Prop}

theorem Names.mono {n n' : StateId → Option T} (h : ∀ s t, n s = some t → n' s = some t) {tr : Tr W} {a : MTr T W} :
    Names n tr a → Names n' tr a := fun ⟨h1, h2, h3, h4⟩ => ⟨h1, h2, h3, h _ _ h4⟩

theorem forall2_mono {α : Type u} {β : Type v} {P Q : α → β → Prop} (h : ∀ a b, P a b → Q a b) {l : List α} {m : List β}
    (hl : List.Forall₂ P l m) : List.Forall₂ Q l m := by
  induction hl with
  | nil => exact .nil
  | cons hd _ ih => exact .cons (h _ _ hd) ih

/-- Numbering transitions: the ids name the targets, and all names in use stay. -/
theorem nameAll_spec (L : TableLaw find tup size inv) (P : T → Prop)
    (l : List (MTr T W)) : ∀ m, inv m → (∀ s t, tup m s = some t → P t) → (∀ a ∈ l, P a.next) →
    inv (nameAll find m l).2 ∧ (∀ s t, tup m s = some t → tup (nameAll find m l).2 s = some t) ∧
    (∀ s t, tup (nameAll find m l).2 s = some t → P t) ∧
    List.Forall₂ (Names (tup (nameAll find m l).2)) (nameAll find m l).1 l := by
  induction l with
  | nil => intro m hm hp _; exact ⟨hm, fun _ _ h => h, hp, .nil⟩
  | cons a as ih =>
    intro m hm hp hl
    have hp1 : ∀ s t, tup (find m a.next).2 s = some t → P t := by
      intro s t hs
      by_cases hk : s < size m
      · obtain ⟨t', ht'⟩ := Option.isSome_iff_exists.1 ((L.dense m hm s).1 hk)
        have := L.mono m hm a.next s t' ht'
        rw [this] at hs; injection hs with hs; subst hs
        exact hp s t' ht'
      · have hlt := (L.dense _ (L.keep m hm a.next) s).2 (by rw [hs]; rfl)
        rcases L.grow m hm a.next with e | ⟨e, e'⟩
        · omega
        · have : s = (find m a.next).1 := by omega
          rw [this, L.found m hm] at hs
          injection hs with hs; subst hs
          exact hl a (by simp)
    obtain ⟨h1, h2, h3, h4⟩ := ih _ (L.keep m hm a.next) hp1 (fun b hb => hl b (by simp [hb]))
    refine ⟨h1, fun s t h => h2 s t (L.mono m hm _ s t h), h3, .cons ⟨rfl, rfl, rfl, h2 _ _ (L.found m hm _)⟩ h4⟩

/-- An operation over a table obeys the law of operations. -/
theorem TupleOp.law (L : TableLaw find tup size inv) {tuple : τ → StateId → R T}
    (ht : ∀ m s t, tuple m s = .ok t ↔ tup m s = some t) (O : TupleOp T W) (M : Machine T W)
    (hstart : O.start = .ok M.start) (htrs : ∀ t, M.Reach t → O.trs t = .ok (M.trs t)) (hfin : ∀ t, M.Reach t → O.fin t = .ok (M.fin t)) :
    OpLaw (O.withTable find tuple) M tup (fun m => inv m ∧ ∀ s t, tup m s = some t → M.Reach t) where
  one o ho := fun a b t ha hb => L.inj o ho.1 a b t ha hb
  reach o ho := ho.2
  start o ho := by
    simp only [TupleOp.withTable, hstart]
    cases hs : M.start with
    | none => exact ⟨ho, fun _ _ h => h, none, rfl, .none⟩
    | some t =>
      have h := nameAll_spec (W := PUnit.{u + 1}) L M.Reach [⟨0, 0, PUnit.unit, t⟩] o ho.1 ho.2 (by
        intro a ha; simp only [List.mem_singleton] at ha; subst ha; exact .start hs)
      refine ⟨⟨L.keep o ho.1 t, h.2.2.1⟩, h.2.1, some (find o t).1, rfl, .some (L.found o ho.1 t)⟩
  trs o ho s t hs := by
    have hr := ho.2 s t hs
    simp only [TupleOp.withTable, (ht o s t).2 hs, htrs t hr]
    obtain ⟨h1, h2, h3, h4⟩ := nameAll_spec L M.Reach (M.trs t) o ho.1 ho.2 (fun a ha => .step hr ha)
    exact ⟨⟨h1, h3⟩, h2, _, rfl, h4⟩
  fin o ho s t hs := by
    have hr := ho.2 s t hs
    simp only [TupleOp.withTable, (ht o s t).2 hs]
    exact ⟨ho, fun _ _ h => h, hfin t hr⟩

end table
end Verif
