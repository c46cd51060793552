import Verif.Lemmas.LazyCompute

/-! # Lazy FSTs: tuples are numbered in the order of the search -/

namespace Verif
universe u v w x
variable {W : Type u} {T : Type x} {τ : Type w} {find : τ → T → StateId × τ} {tup : τ → StateId → Option T} {size : τ → Nat} {inv : τ → Prop}

theorem find_new (L : TableLaw find tup size inv) {m : τ} (hm : inv m) (t : T) {p : StateId} {t' : T} (h : tup (find m t).2 p = some t') :
    tup m p = some t' ∨ (p = size m ∧ t' = t) := by
  by_cases hk : p < size m
  · obtain ⟨u, hu⟩ := Option.isSome_iff_exists.1 ((L.dense m hm p).1 hk)
    have := L.mono m hm t p u hu
    rw [h] at this
    rw [hu, this]
    exact .inl rfl
  · have hlt := (L.dense _ (L.keep m hm t) p).2 (by rw [h]; rfl)
    rcases L.grow m hm t with e | ⟨e, e'⟩
    · omega
    · have hp : p = size m := by omega
      have := L.found m hm t
      rw [e', ← hp, h] at this
      injection this with this
      exact .inr ⟨hp, this⟩

theorem nameAll_numbered (L : TableLaw find tup size inv) (M : Machine T W) {s : StateId} {u : T} (l : List (MTr T W)) (hl : ∀ a ∈ l, a ∈ M.trs u) :
    ∀ m, inv m → tup m s = some u → M.InSearchOrder (tup m) → M.InSearchOrder (tup (nameAll find m l).2) := by
  induction l with
  | nil => intro m _ _ h; exact h
  | cons a as ih =>
    intro m hm hs h
    refine ih (fun a ha => hl a (List.mem_cons_of_mem _ ha)) _ (L.keep m hm a.next) (L.mono m hm _ _ _ hs) ?_
    have hlt : s < size m := (L.dense m hm s).2 (by rw [hs]; rfl)
    have old : ∀ q t, tup m q = some t → (q = 0 ∧ M.start = some t) ∨ ∃ s u, s < q ∧ tup (find m a.next).2 s = some u ∧ ∃ a ∈ M.trs u, a.next = t := by
      intro q t hq
      rcases h q t hq with h | ⟨s, u, h1, h2, h3⟩
      · exact .inl h
      · exact .inr ⟨s, u, h1, L.mono m hm _ _ _ h2, h3⟩
    intro q t hq
    rcases find_new L hm _ hq with hq | ⟨rfl, rfl⟩
    · exact old q t hq
    · exact .inr ⟨s, u, hlt, L.mono m hm _ _ _ hs, a, hl a (List.mem_cons_self ..), rfl⟩

theorem TupleOp.numbered_law (L : TableLaw find tup size inv) {tuple : τ → StateId → R T}
    (ht : ∀ m s t, tuple m s = .ok t ↔ tup m s = some t) (O : TupleOp T W) (M : Machine T W)
    (hstart : O.start = .ok M.start) (htrs : ∀ t, M.Reach t → O.trs t = .ok (M.trs t)) (hfin : ∀ t, M.Reach t → O.fin t = .ok (M.fin t)) :
    OpLaw (O.withTable find tuple) M tup (fun m => (inv m ∧ ∀ s t, tup m s = some t → M.Reach t) ∧ M.InSearchOrder (tup m)) where
  one o ho := (TupleOp.law L ht O M hstart htrs hfin).one o ho.1
  reach o ho := (TupleOp.law L ht O M hstart htrs hfin).reach o ho.1
  start o ho := by
    obtain ⟨h1, h2, h3⟩ := (TupleOp.law L ht O M hstart htrs hfin).start o ho.1
    refine ⟨⟨h1, ?_⟩, h2, h3⟩
    simp only [TupleOp.withTable, hstart]
    cases hs : M.start with
    | none => exact ho.2
    | some t0 =>
      show M.InSearchOrder (tup (find o t0).2)
      intro q t hq
      rcases find_new L ho.1.1 _ hq with hq | ⟨rfl, rfl⟩
      · rcases ho.2 q t hq with h | ⟨s, u, k1, k2, k3⟩
        · exact .inl h
        · exact .inr ⟨s, u, k1, L.mono o ho.1.1 _ _ _ k2, k3⟩
      · by_cases h0 : size o = 0
        · exact .inl ⟨h0, hs⟩
        · obtain ⟨u, hu⟩ := Option.isSome_iff_exists.1 ((L.dense o ho.1.1 0).1 (by omega))
          rcases ho.2 0 u hu with ⟨_, h⟩ | ⟨s, _, h, _⟩
          · have h' : u = t := by rw [hs] at h; exact (Option.some.inj h).symm
            subst h'
            have h2 := L.again ho.1.1 hu
            have h3 := L.found o ho.1.1 u
            have := L.inj _ (L.keep o ho.1.1 u) _ _ _ hq h3
            omega
          · omega
  trs o ho s t hs := by
    obtain ⟨h1, h2, h3⟩ := (TupleOp.law L ht O M hstart htrs hfin).trs o ho.1 s t hs
    refine ⟨⟨h1, ?_⟩, h2, h3⟩
    have hr := ho.1.2 s t hs
    simp only [TupleOp.withTable, (ht o s t).2 hs, htrs t hr]
    exact nameAll_numbered L M _ (fun a ha => ha) o ho.1.1 hs ho.2
  fin o ho s t hs := by
    obtain ⟨h1, h2, h3⟩ := (TupleOp.law L ht O M hstart htrs hfin).fin o ho.1 s t hs
    refine ⟨⟨h1, ?_⟩, h2, h3⟩
    simp only [TupleOp.withTable, (ht o s t).2 hs]
    exact ho.2

end Verif
