import Verif.Spec.LazyThreads
import Verif.Lemmas.Lazy

/-! # Lazy FSTs shared by several threads: the invariant -/

set_option linter.unusedSectionVars false

namespace Verif
universe u v w x
variable {W : Type u} {C : Type v} {τ : Type w} {T : Type x}

namespace Lz
variable {K : CacheOps W C} {cinv : C → Prop} {O : TupleOp T W} {M : Machine T W} {find : τ → T → StateId × τ}
  {tuple : τ → StateId → R T} {tup : τ → StateId → Option T} {size : τ → Nat} {inv : τ → Prop}

/-- What a running query knows is right under the names `n`. -/
def ThreadOk (M : Machine T W) (n : StateId → Option T) : Thread T W → Prop
  | .ask q => q.about (fun s => (n s).isSome)
  | .startMiss => True
  | .finMiss s => (n s).isSome
  | .trsMiss s => (n s).isSome
  | .naming s todo acc => ∃ t pre, n s = some t ∧ M.trs t = pre ++ todo ∧ List.Forall₂ (Names n) acc pre
  | .putStart r => Option.Rel (fun s t => n s = some t) r M.start
  | .putFin s w => ∃ t, n s = some t ∧ w = M.fin t
  | .putTrs s l => ∃ t, n s = some t ∧ List.Forall₂ (Names n) l (M.trs t)
  | .done q a => Correct M n q a ∧ ∀ s, a.told s → (n s).isSome

theorem isSome_mono {n n' : StateId → Option T} (h : ∀ s t, n s = some t → n' s = some t) {s} (hs : (n s).isSome) : (n' s).isSome := by
  obtain ⟨t, ht⟩ := Option.isSome_iff_exists.1 hs
  rw [h _ _ ht]; rfl

theorem ThreadOk.mono {n n' : StateId → Option T} (h : ∀ s t, n s = some t → n' s = some t) {th : Thread T W}
    (ht : ThreadOk M n th) : ThreadOk M n' th := by
  cases th <;> simp only [ThreadOk] at ht ⊢
  · exact about_mono (fun s => isSome_mono h) ht
  · exact isSome_mono h ht
  · exact isSome_mono h ht
  · obtain ⟨t, pre, h1, h2, h3⟩ := ht
    exact ⟨t, pre, h _ _ h1, h2, forall2_mono (fun _ _ => Names.mono h) h3⟩
  · exact rel_mono h ht
  · obtain ⟨t, h1, h2⟩ := ht; exact ⟨t, h _ _ h1, h2⟩
  · obtain ⟨t, h1, h2⟩ := ht; exact ⟨t, h _ _ h1, forall2_mono (fun _ _ => Names.mono h) h2⟩
  · exact ⟨ht.1.mono h, fun s hs => isSome_mono h (ht.2 s hs)⟩

/-- Names that a table gives to reachable tuples only. -/
def Tab (M : Machine T W) (tup : τ → StateId → Option T) (inv : τ → Prop) (m : τ) : Prop := inv m ∧ ∀ s t, tup m s = some t → M.Reach t

theorem tab_find (L : TableLaw find tup size inv) {m : τ} (hm : Tab M tup inv m) {t : T} (ht : M.Reach t) :
    Tab M tup inv (find m t).2 ∧ (∀ s u, tup m s = some u → tup (find m t).2 s = some u) ∧ tup (find m t).2 (find m t).1 = some t := by
  have h := nameAll_spec (W := PUnit.{u + 1}) L M.Reach [⟨0, 0, PUnit.unit, t⟩] m hm.1 hm.2 (by
    intro a ha; simp only [List.mem_singleton] at ha; subst ha; exact ht)
  exact ⟨⟨L.keep m hm.1 t, h.2.2.1⟩, h.2.1, L.found m hm.1 t⟩

theorem told_names {n : StateId → Option T} {l : List (Tr W)} {m : List (MTr T W)} (hl : List.Forall₂ (Names n) l m) :
    ∀ s, (Answer.trs (.ok l) : Answer W).told s → (n s).isSome := by
  rintro s ⟨tr, htr, rfl⟩
  obtain ⟨a, _, h⟩ := names_next hl tr htr
  rw [h.2.2.2]; rfl

theorem told_start {n : StateId → Option T} {r : Option StateId} {o : Option T} (hl : Option.Rel (fun s t => n s = some t) r o) :
    ∀ s, (Answer.start (.ok r) : Answer W).told s → (n s).isSome := by
  intro s hs
  cases hl with
  | none => exact absurd hs (by simp [Answer.told])
  | some h => simp only [Answer.told] at hs; subst hs; rw [h]; rfl

theorem forall2_snoc {α : Type u} {β : Type v} {P : α → β → Prop} {l : List α} {m : List β} (h : List.Forall₂ P l m) {a b}
    (hab : P a b) : List.Forall₂ P (l ++ [a]) (m ++ [b]) := by
  induction h with
  | nil => exact .cons hab .nil
  | cons hd _ ih => exact .cons hd ih

/-- One atomic step. -/
theorem stepThread_ok (L : CacheLaw K cinv) (TL : TableLaw find tup size inv) (ht : ∀ m s t, tuple m s = .ok t ↔ tup m s = some t)
    (hstart : O.start = .ok M.start) (htrs : ∀ t, M.Reach t → O.trs t = .ok (M.trs t)) (hfin : ∀ t, M.Reach t → O.fin t = .ok (M.fin t))
    {c : C} {m : τ} (hz : Coh K cinv M tup (Tab M tup inv) (⟨c, m⟩ : Lz C τ)) {th : Thread T W} (hth : ThreadOk M (tup m) th) :
    Coh K cinv M tup (Tab M tup inv) (⟨(stepThread K O find tuple c m th).1, (stepThread K O find tuple c m th).2.1⟩ : Lz C τ) ∧
    (∀ s t, tup m s = some t → tup (stepThread K O find tuple c m th).2.1 s = some t) ∧
    ThreadOk M (tup (stepThread K O find tuple c m th).2.1) (stepThread K O find tuple c m th).2.2 := by
  have same : ∀ s t, tup m s = some t → tup m s = some t := fun _ _ h => h
  cases th with
  | ask q =>
    cases q with
    | start =>
      simp only [stepThread]
      cases hc : K.getStart c with
      | some r => exact ⟨hz, same, ⟨r, rfl, hz.start r hc⟩, told_start (hz.start r hc)⟩
      | none => exact ⟨hz, same, trivial⟩
    | fin s =>
      simp only [stepThread]
      cases hc : K.getFinal c s with
      | some r =>
        obtain ⟨t, h1, h2⟩ := hz.fin s r hc
        exact ⟨hz, same, ⟨t, h1, by rw [h2]⟩, fun s hs => by simp [Answer.told] at hs⟩
      | none => exact ⟨hz, same, hth⟩
    | trs s =>
      simp only [stepThread]
      cases hc : K.getTrs c s with
      | some r =>
        obtain ⟨t, h1, h2⟩ := hz.trs s r hc
        exact ⟨hz, same, ⟨t, r, h1, rfl, h2⟩, told_names h2⟩
      | none => exact ⟨hz, same, hth⟩
    | numTrs s =>
      refine ⟨hz, same, ?_, fun s hs => by simp [Answer.told] at hs⟩
      simp only [Correct, L.num_trs _ _ hz.cache]
      cases hc : K.getTrs c s with
      | none => exact .inl rfl
      | some l =>
        obtain ⟨t, h1, h2⟩ := hz.trs s l hc
        exact .inr ⟨t, h1, by simp [okOr, length_names h2]⟩
    | numIEps s =>
      refine ⟨hz, same, ?_, fun s hs => by simp [Answer.told] at hs⟩
      simp only [Correct, L.num_ieps _ _ hz.cache]
      cases hc : K.getTrs c s with
      | none => exact .inl rfl
      | some l =>
        obtain ⟨t, h1, h2⟩ := hz.trs s l hc
        refine .inr ⟨t, h1, ?_⟩
        simp only [okOr, Option.map_some]
        rw [countP_names (p' := fun a => a.ilabel == EPS) (fun a b h => by rw [h.1]) h2]
    | numOEps s =>
      refine ⟨hz, same, ?_, fun s hs => by simp [Answer.told] at hs⟩
      simp only [Correct, L.num_oeps _ _ hz.cache]
      cases hc : K.getTrs c s with
      | none => exact .inl rfl
      | some l =>
        obtain ⟨t, h1, h2⟩ := hz.trs s l hc
        refine .inr ⟨t, h1, ?_⟩
        simp only [okOr, Option.map_some]
        rw [countP_names (p' := fun a => a.olabel == EPS) (fun a b h => by rw [h.2.1]) h2]
    | clear => exact ⟨coh_fresh L hz.op, same, trivial, fun s hs => by simp [Answer.told] at hs⟩
  | startMiss =>
    simp only [stepThread, hstart]
    cases hs : M.start with
    | none => exact ⟨hz, same, by simp only [ThreadOk, hs]; exact .none⟩
    | some t =>
      obtain ⟨h1, h2, h3⟩ := tab_find TL hz.op (.start hs : M.Reach t)
      exact ⟨hz.moveOp h1 h2, h2, by simp only [ThreadOk, hs]; exact .some h3⟩
  | finMiss s =>
    obtain ⟨t, h⟩ := Option.isSome_iff_exists.1 hth
    simp only [stepThread, (ht m s t).2 h, hfin t (hz.op.2 s t h)]
    exact ⟨hz, same, t, h, rfl⟩
  | trsMiss s =>
    obtain ⟨t, h⟩ := Option.isSome_iff_exists.1 hth
    simp only [stepThread, (ht m s t).2 h, htrs t (hz.op.2 s t h)]
    exact ⟨hz, same, t, [], h, rfl, .nil⟩
  | naming s todo acc =>
    obtain ⟨t, pre, h1, h2, h3⟩ := hth
    cases todo with
    | nil => exact ⟨hz, same, t, h1, by rw [h2, List.append_nil]; exact h3⟩
    | cons a as =>
      have hr : M.Reach a.next := .step (hz.op.2 s t h1) (by rw [h2]; simp)
      obtain ⟨g1, g2, g3⟩ := tab_find TL hz.op hr
      refine ⟨hz.moveOp g1 g2, g2, t, pre ++ [a], g2 _ _ h1, by simp [h2], ?_⟩
      exact forall2_snoc (forall2_mono (fun _ _ => Names.mono g2) h3) ⟨rfl, rfl, rfl, g3⟩
  | putStart r =>
    simp only [stepThread]
    refine ⟨⟨L.inv_start _ _ hz.cache, hz.op, ?_, ?_, ?_⟩, same, ⟨r, rfl, hth⟩, told_start hth⟩
    · intro r' hr
      rw [L.start_start _ _ hz.cache] at hr
      injection hr with hr; subst hr; exact hth
    · intro s l hs
      rw [L.trs_start _ _ _ hz.cache] at hs; exact hz.trs s l hs
    · intro s w hs
      rw [L.fin_start _ _ _ hz.cache] at hs; exact hz.fin s w hs
  | putFin s w =>
    obtain ⟨t, h1, h2⟩ := hth
    simp only [stepThread]
    refine ⟨⟨L.inv_fin _ _ _ hz.cache, hz.op, ?_, ?_, ?_⟩, same, ⟨t, h1, by rw [h2]⟩, fun s hs => by simp [Answer.told] at hs⟩
    · intro r' hr
      rw [L.start_fin _ _ _ hz.cache] at hr; exact hz.start r' hr
    · intro q l hs
      rw [L.trs_fin _ _ _ _ hz.cache] at hs; exact hz.trs q l hs
    · intro q w' hs
      rw [L.fin_fin _ _ _ _ hz.cache] at hs
      split at hs
      · rename_i e; subst e; injection hs with hs; subst hs; exact ⟨t, h1, h2⟩
      · exact hz.fin q w' hs
  | putTrs s l =>
    obtain ⟨t, h1, h2⟩ := hth
    simp only [stepThread]
    refine ⟨⟨L.inv_trs _ _ _ hz.cache, hz.op, ?_, ?_, ?_⟩, same, ⟨t, l, h1, rfl, h2⟩, told_names h2⟩
    · intro r' hr
      rw [L.start_trs _ _ _ hz.cache] at hr; exact hz.start r' hr
    · intro q l' hs
      rw [L.trs_trs _ _ _ _ hz.cache] at hs
      split at hs
      · rename_i e; subst e; injection hs with hs; subst hs; exact ⟨t, h1, h2⟩
      · exact hz.trs q l' hs
    · intro q w' hs
      rw [L.fin_trs _ _ _ _ hz.cache] at hs; exact hz.fin q w' hs
  | done q a => exact ⟨hz, same, hth⟩

/-- The invariant of a shared lazy FST. -/
structure ConfOk (K : CacheOps W C) (cinv : C → Prop) (M : Machine T W) (tup : τ → StateId → Option T) (inv : τ → Prop)
    (x : Conf C τ T W) : Prop where
  coh : Coh K cinv M tup (Tab M tup inv) (⟨x.cache, x.table⟩ : Lz C τ)
  threads : ∀ th ∈ x.threads, ThreadOk M (tup x.table) th

theorem schedule_ok (L : CacheLaw K cinv) (TL : TableLaw find tup size inv) (ht : ∀ m s t, tuple m s = .ok t ↔ tup m s = some t)
    (hstart : O.start = .ok M.start) (htrs : ∀ t, M.Reach t → O.trs t = .ok (M.trs t)) (hfin : ∀ t, M.Reach t → O.fin t = .ok (M.fin t))
    (es : List Event) : ∀ x : Conf C τ T W, ConfOk K cinv M tup inv x → x.Fair K O find tuple es →
    ConfOk K cinv M tup inv (x.schedule K O find tuple es) := by
  induction es with
  | nil => intro x hx _; exact hx
  | cons e es ih =>
    intro x hx hf
    cases e with
    | issue q =>
      obtain ⟨hf1, hf2⟩ := hf
      refine ih _ ⟨hx.coh, ?_⟩ hf2
      intro th hth
      simp only [Conf.event, List.mem_append, List.mem_singleton] at hth
      rcases hth with hth | rfl
      · exact hx.threads th hth
      · refine about_mono ?_ hf1
        rintro s ⟨q', a, hm, hs⟩
        exact (hx.threads _ hm).2 s hs
    | step i =>
      refine ih _ ?_ hf
      simp only [Conf.event]
      cases hi : x.threads[i]? with
      | none => exact hx
      | some th =>
        obtain ⟨h1, h2, h3⟩ := stepThread_ok L TL ht hstart htrs hfin hx.coh (hx.threads th (List.mem_of_getElem? hi))
        refine ⟨h1, ?_⟩
        intro th' hth'
        rcases List.mem_or_eq_of_mem_set hth' with h | h
        · exact (hx.threads th' h).mono h2
        · subst h; exact h3

end Lz
end Verif
