import Verif.Lemmas.Determinize

/-! # Determinization: where the elements of a tuple come from -/

namespace Verif
set_option linter.unusedSectionVars false
universe u v
variable {W : Type u} {κ : Type v} [Zero W] [One W] [Mul W] [DecidableEq W]

section
variable {o : DetOps W} {K : W → κ} (hK : ∀ a b c, o.plus a b = .ok c → K c = K a ∨ K c = K b)
include hK

theorem mergeInto_from {e : DElt W} : ∀ {acc acc' : List (DElt W)}, mergeInto o acc e = .ok acc' →
    ∀ a ∈ acc', (∃ b ∈ acc, b.state = a.state ∧ K b.weight = K a.weight) ∨ (e.state = a.state ∧ K e.weight = K a.weight) := by
  intro acc
  induction acc with
  | nil =>
    intro acc' h a ha
    simp only [mergeInto, Except.ok.injEq] at h
    subst h
    simp only [List.mem_singleton] at ha
    subst ha; exact .inr ⟨rfl, rfl⟩
  | cons b as ih =>
    intro acc' h a ha
    rw [mergeInto] at h
    split at h
    · next hst =>
      split at h
      · cases h
      · next w hw =>
        injection h with h
        subst h
        rcases List.mem_cons.1 ha with rfl | ha
        · rcases hK _ _ _ hw with h | h
          · exact .inl ⟨b, by simp, rfl, h.symm⟩
          · exact .inr ⟨hst.symm, h.symm⟩
        · exact .inl ⟨a, by simp [ha], rfl, rfl⟩
    · split at h
      · cases h
      · next as' has =>
        injection h with h
        subst h
        rcases List.mem_cons.1 ha with rfl | ha
        · exact .inl ⟨_, by simp, rfl, rfl⟩
        · rcases ih has a ha with ⟨b, hb, h⟩ | h
          · exact .inl ⟨b, by simp [hb], h⟩
          · exact .inr h

theorem mergePairs_from : ∀ {ps acc acc' : List (DElt W)}, mergePairs o acc ps = .ok acc' →
    ∀ a ∈ acc', ∃ b ∈ acc ++ ps, b.state = a.state ∧ K b.weight = K a.weight := by
  intro ps
  induction ps with
  | nil =>
    intro acc acc' h a ha
    simp only [mergePairs, Except.ok.injEq] at h
    subst h
    exact ⟨a, by simpa using ha, rfl, rfl⟩
  | cons e ps ih =>
    intro acc acc' h a ha
    rw [mergePairs] at h
    split at h
    · cases h
    · next acc1 h1 =>
      obtain ⟨b, hb, e1, e2⟩ := ih h a ha
      rcases List.mem_append.1 hb with hb | hb
      · rcases mergeInto_from hK h1 b hb with ⟨c, hc, e3, e4⟩ | ⟨e3, e4⟩
        · exact ⟨c, by simp [hc], e3.trans e1, e4.trans e2⟩
        · exact ⟨e, by simp, e3.trans e1, e4.trans e2⟩
      · exact ⟨b, by simp [hb], e1, e2⟩

theorem normTr_from {ord : List (DElt W) → List (DElt W)} (ho : ∀ l, (ord l).Perm l) {ps qs : List (DElt W)} {d : W} (h : normTr o ord ps = .ok (d, qs)) :
    ∃ ws : List W, (∀ w, w ∈ ws ↔ ∃ p ∈ ps, w = p.weight) ∧ commonFold o 0 ws = .ok d ∧
      ∀ q ∈ qs, ∃ p ∈ ps, p.state = q.state ∧ ∃ m x, Sums o ws m ∧ K m = K p.weight ∧ o.divide m d = .ok x ∧ o.quantize x = .ok q.weight := by
  have hperm := List.perm_insertionSort (fun a b : DElt W => a.state ≤ b.state) ps
  unfold normTr at h
  simp only at h
  generalize List.insertionSort (fun a b : DElt W => a.state ≤ b.state) ps = ss at h hperm
  split at h
  · cases h
  · next d' hd =>
    split at h
    · cases h
    · next ms hm =>
      split at h
      · cases h
      · next rs hr =>
        injection h with h
        injection h with h1 h2
        subst h1 h2
        obtain ⟨g1, -⟩ := mergePairs_spec.{u, v} (ws := ss.map (·.weight)) hm (fun e he => List.mem_map_of_mem he) (by simp) (by simp)
        have g2 := mergePairs_from hK hm
        refine ⟨ss.map (·.weight), ?_, hd, ?_⟩
        · intro w
          simp only [List.mem_map, hperm.mem_iff]
          exact ⟨fun ⟨a, h1, h2⟩ => ⟨a, h1, h2.symm⟩, fun ⟨a, h1, h2⟩ => ⟨a, h1, h2.symm⟩⟩
        · intro q hq
          have hf := divideAll_spec hr
          have ho' := ho ms
          generalize ord ms = os at hf ho'
          obtain ⟨p, hp, e1, x, e2, e3⟩ : ∃ p ∈ os, q.state = p.state ∧ ∃ x, o.divide p.weight d' = .ok x ∧ o.quantize x = .ok q.weight := by
            clear ho' hr g1 g2 hm
            induction hf with
            | nil => cases hq
            | @cons p r _ _ hpq _ ih =>
              rcases List.mem_cons.1 hq with rfl | hq
              · exact ⟨p, by simp, hpq⟩
              · obtain ⟨p, h1, h2⟩ := ih hq
                exact ⟨p, by simp [h1], h2⟩
          have hp' := ho'.mem_iff.1 hp
          obtain ⟨b, hb, e4, e5⟩ := g2 p hp'
          refine ⟨b, hperm.mem_iff.1 (by simpa using hb), e4.trans e1.symm, p.weight, x, g1 p hp', e5.symm, e2, e3⟩

variable {f : Fst W} {ord : DTup W → Label → List (DElt W) → List (DElt W)}

theorem detTrs_from (ho : Orders ord) {t : DTup W} (hlt : ∀ e ∈ t.subset, e.state < f.numStates) {as} (h : detTrs f o ord t = .ok as) :
    ∀ a ∈ as, ∃ ws : List W, (∀ w ∈ ws, ∃ e ∈ t.subset, ∃ tr ∈ f.trsOf e.state, w = e.weight * tr.weight) ∧ commonFold o 0 ws = .ok a.weight ∧
      ∀ q ∈ a.next.subset, ∃ e ∈ t.subset, ∃ tr ∈ f.trsOf e.state, tr.ilabel = a.ilabel ∧ a.ilabel = a.olabel ∧ tr.nextstate = q.state ∧
        ∃ m x, Sums o ws m ∧ K m = K (e.weight * tr.weight) ∧ o.divide m a.weight = .ok x ∧ o.quantize x = .ok q.weight := by
  intro a ha
  obtain ⟨m, c1, -, -, c4, -⟩ := detCollect_spec.{u, v} (f := f) t.subset [] hlt
  replace c4 : ∀ l x, LmHas m l x ↔ ∃ e ∈ t.subset, ∃ tr ∈ f.trsOf e.state, l = tr.ilabel ∧ x = ⟨tr.nextstate, e.weight * tr.weight⟩ := by
    intro l x; rw [c4]; simp [LmHas]
  rw [detTrs, c1] at h
  obtain ⟨p, hp, h1, h2, -, h4⟩ : ∃ p ∈ m, a.ilabel = p.1 ∧ a.olabel = p.1 ∧ a.next.filterState = 0 ∧ normTr o (ord t p.1) p.2 = .ok (a.weight, a.next.subset) := by
    have hall := normAll_spec h
    clear h c1 c4
    induction hall with
    | nil => cases ha
    | @cons p b _ _ hd _ ih =>
      rcases List.mem_cons.1 ha with rfl | ha
      · exact ⟨p, by simp, hd⟩
      · obtain ⟨p, h1, h2⟩ := ih ha
        exact ⟨p, by simp [h1], h2⟩
  obtain ⟨ws, w1, w2, w3⟩ := normTr_from hK (ho t p.1) h4
  refine ⟨ws, ?_, w2, ?_⟩
  · intro w hw
    obtain ⟨x, hx, rfl⟩ := (w1 w).1 hw
    obtain ⟨e, he, tr, htr, -, rfl⟩ := (c4 p.1 x).1 ⟨p, hp, rfl, hx⟩
    exact ⟨e, he, tr, htr, rfl⟩
  · intro q hq
    obtain ⟨x, hx, e1, m', y, e2, e3, e4, e5⟩ := w3 q hq
    obtain ⟨e, he, tr, htr, e6, rfl⟩ := (c4 p.1 x).1 ⟨p, hp, rfl, hx⟩
    exact ⟨e, he, tr, htr, by rw [h1, e6], by rw [h1, h2], e1, m', y, e2, e3, e4, e5⟩

theorem detFinSum_from : ∀ {es : List (DElt W)} {acc w : W}, (∀ e ∈ es, e.state < f.numStates) → detFinSum f o acc es = .ok w →
    K w = K acc ∨ ∃ e ∈ es, K w = K (e.weight * (f.finOf e.state).getD 0) := by
  intro es
  induction es with
  | nil => intro acc w _ h; simp only [detFinSum, Except.ok.injEq] at h; subst h; exact .inl rfl
  | cons e es ih =>
    intro acc w he h
    have hg : f.finalWeightR e.state = .ok (f.finOf e.state) := by
      have := he e (by simp)
      simp only [Fst.finalWeightR, Fst.finOf]
      rw [List.getElem?_eq_getElem (by simpa [Fst.numStates] using this)]
    rw [detFinSum, hg] at h
    simp only at h
    split at h
    · cases h
    · next c hc =>
      rcases ih (fun e' he' => he e' (by simp [he'])) h with e1 | ⟨e', he', e1⟩
      · rcases hK _ _ _ hc with e2 | e2
        · exact .inl (e1.trans e2)
        · exact .inr ⟨e, by simp, e1.trans e2⟩
      · exact .inr ⟨e', by simp [he'], e1⟩

end
end Verif
