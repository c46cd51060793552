import Verif.Lemmas.DetFunc
import Verif.Lemmas.DetSupport

/-! # Functional transducers: the determinization does not fail -/

namespace Verif
set_option linter.unusedSectionVars false
universe u
variable {W : Type u}

/-- A run from `i` to a state, with the strings read and written. -/
inductive Fst.Run (f : Fst W) (i : StateId) : List Label → List Label → StateId → Prop
  | nil : f.Run i [] [] i
  | snoc {x y s} {t : Tr W} : f.Run i x y s → t ∈ f.trsOf s → f.Run i (x ++ strip t.ilabel) (y ++ strip t.olabel) t.nextstate

theorem Fst.Run.accepts [Monoid W] {f : Fst W} {i : StateId} {x y : List Label} {s : StateId} (h : f.Run i x y s) :
    ∀ {n : Nat} {p : PathT W}, p ∈ f.pathsFrom n s → ∃ m w, (x ++ p.1, y ++ p.2.1, w) ∈ f.pathsFrom m i := by
  induction h with
  | nil => intro n p hp; exact ⟨n, p.2.2, by simpa using hp⟩
  | @snoc x y s t _ ht ih =>
    intro n p hp
    have : t.asPath.cat p ∈ f.pathsFrom (n + 1) s := by
      rw [Fst.pathsFrom, Multiset.mem_bind]
      exact ⟨t, by simpa using ht, Multiset.mem_map_of_mem _ hp⟩
    obtain ⟨m, w, h⟩ := ih this
    exact ⟨m, w, by simpa [PathT.cat, Tr.asPath] using h⟩

theorem coaccessible_path [Monoid W] {f : Fst W} {s : StateId} (h : f.Coaccessible s) : ∃ n, ∃ p, p ∈ f.pathsFrom n s := by
  obtain ⟨q, hr, hq⟩ := h
  induction hr using Relation.ReflTransGen.head_induction_on with
  | refl =>
    obtain ⟨w, hw⟩ := Option.isSome_iff_exists.1 hq
    exact ⟨0, ([], [], w), by simp [Fst.pathsFrom, hw]⟩
  | head he _ ih =>
    obtain ⟨t, ht, rfl⟩ := he
    obtain ⟨n, p, hp⟩ := ih
    exact ⟨n + 1, t.asPath.cat p, by
      rw [Fst.pathsFrom, Multiset.mem_bind]
      exact ⟨t, by simpa using ht, Multiset.mem_map_of_mem _ hp⟩⟩

section
variable [Semiring W] [DecidableEq W] {o : DetOps W} {good : W → Prop}

theorem rg_plus_str (hp : ∀ a b, o.plus a b = .ok (a + b)) (a b c : RG W) (h : (rgDet o).plus a b = .ok c) : c.raw.1 = a.raw.1 ∨ c.raw.1 = b.raw.1 := by
  rcases rg_plus_cases hp h with ⟨rfl, rfl⟩ | ⟨rfl, rfl⟩ | ⟨l, x, y, rfl, rfl, rfl⟩
  · exact .inr rfl
  · exact .inl rfl
  · exact .inl rfl

theorem rg_plus_same (hp : ∀ a b, o.plus a b = .ok (a + b)) {a b : RG W} (h : a.raw.1 = b.raw.1) : ∃ c, (rgDet o).plus a b = .ok c := by
  rcases RG.cases' a with rfl | ⟨l, x, rfl⟩
  · exact ⟨_, rg_zero_plus hp b⟩
  · rcases RG.cases' b with rfl | ⟨m, y, rfl⟩
    · exact ⟨_, rg_plus_zero hp _⟩
    · simp only [RG.raw, RG.single, StrW.labels.injEq] at h
      subst h
      exact ⟨_, by rw [rg_plus_single hp, if_pos rfl]⟩

/-- Equal states come with equal strings. -/
def SameStr (es : List (DElt (RG W))) : Prop := ∀ a ∈ es, ∀ b ∈ es, a.state = b.state → a.weight.raw.1 = b.weight.raw.1

theorem rg_mergeInto_ok (hp : ∀ a b, o.plus a b = .ok (a + b)) {e : DElt (RG W)} : ∀ {acc : List (DElt (RG W))}, SameStr (acc ++ [e]) →
    ∃ acc', mergeInto (rgDet o) acc e = .ok acc' := by
  intro acc
  induction acc with
  | nil => intro _; exact ⟨_, rfl⟩
  | cons a as ih =>
    intro h
    rw [mergeInto]
    split
    · rename_i hs
      obtain ⟨c, hc⟩ := rg_plus_same hp (h a (by simp) e (by simp) hs)
      rw [hc]; exact ⟨_, rfl⟩
    · obtain ⟨c, hc⟩ := ih (fun x hx y hy => h x (List.mem_cons_of_mem _ hx) y (List.mem_cons_of_mem _ hy))
      rw [hc]; exact ⟨_, rfl⟩

theorem rg_mergePairs_ok (hp : ∀ a b, o.plus a b = .ok (a + b)) : ∀ {ps acc : List (DElt (RG W))}, SameStr (acc ++ ps) →
    ∃ acc', mergePairs (rgDet o) acc ps = .ok acc' := by
  intro ps
  induction ps with
  | nil => intro acc _; exact ⟨acc, rfl⟩
  | cons e ps ih =>
    intro acc h
    obtain ⟨c, hc⟩ := rg_mergeInto_ok hp (e := e) (acc := acc) (fun x hx y hy => h x (by simp at hx ⊢; tauto) y (by simp at hy ⊢; tauto))
    have key : ∀ a ∈ c ++ ps, ∃ b ∈ acc ++ e :: ps, b.state = a.state ∧ b.weight.raw.1 = a.weight.raw.1 := by
      intro a ha
      rcases List.mem_append.1 ha with ha | ha
      · rcases mergeInto_from (K := fun v : RG W => v.raw.1) (rg_plus_str hp) hc a ha with ⟨b, hb, e1⟩ | e1
        · exact ⟨b, by simp [hb], e1⟩
        · exact ⟨e, by simp, e1⟩
      · exact ⟨a, by simp [ha], rfl, rfl⟩
    obtain ⟨d, hd⟩ := ih (acc := c) (fun x hx y hy hxy => by
      obtain ⟨b, hb, e1, e2⟩ := key x hx
      obtain ⟨b', hb', e3, e4⟩ := key y hy
      rw [← e2, ← e4]
      exact h b hb b' hb' (by rw [e1, e3, hxy]))
    exact ⟨d, by rw [mergePairs, hc]; exact hd⟩

theorem rg_normTr_ok (L : DivLaw o good) {ord : List (DElt (RG W)) → List (DElt (RG W))} (ho : ∀ l, (ord l).Perm l) {ps : List (DElt (RG W))}
    (hg : ∀ p ∈ ps, RGood good p.weight) (hs : SameStr ps) : ∃ x, normTr (rgDet o) ord ps = .ok x := by
  have hperm := List.perm_insertionSort (fun a b : DElt (RG W) => a.state ≤ b.state) ps
  unfold normTr
  simp only
  generalize List.insertionSort (fun a b : DElt (RG W) => a.state ≤ b.state) ps = ss at hperm
  have hall : ∀ x ∈ ss.map (·.weight), RGood good x := by
    intro x hx
    obtain ⟨e, he, rfl⟩ := List.mem_map.1 hx
    exact hg e (hperm.mem_iff.1 he)
  obtain ⟨d, hd, -⟩ := rg_commonFold_eq L.plus (ss.map (·.weight)) 0 (by
    intro v hv
    obtain ⟨l, w, rfl, -⟩ := hall v hv
    exact RG.single_ne_zero _ _)
  obtain ⟨ms, hm⟩ := rg_mergePairs_ok L.plus (ps := ss) (acc := []) (fun a ha b hb => hs a (hperm.mem_iff.1 (by simpa using ha)) b (hperm.mem_iff.1 (by simpa using hb)))
  rw [hd, hm]
  simp only
  obtain ⟨g1, _, _, _⟩ := mergePairs_spec.{u, 0} (ws := ss.map (·.weight)) hm (fun e he => List.mem_map_of_mem he) (by simp) (by simp)
  have : ∀ p ∈ ord ms, Sums (rgDet o) (ss.map (·.weight)) p.weight := fun p hp => g1 p ((ho ms).mem_iff.1 hp)
  obtain ⟨qs, hq⟩ : ∃ qs, divideAll (rgDet o) d (ord ms) = .ok qs := by
    generalize ord ms = os at this
    induction os with
    | nil => exact ⟨[], rfl⟩
    | cons p ps ih =>
      obtain ⟨c, w, k, x, q, -, -, e1, e2, -⟩ := rg_divide L hall hd (this p (by simp))
      obtain ⟨qs, hqs⟩ := ih (fun r hr => this r (by simp [hr]))
      exact ⟨⟨p.state, RG.single k q⟩ :: qs, by rw [divideAll, e1]; simp only [e2, hqs]⟩
  rw [hq]
  exact ⟨_, rfl⟩

variable {q : W → R W} {f : Fst W} {ord : DTup (RG W) → Label → List (DElt (RG W)) → List (DElt (RG W))}

/-- The elements of a tuple stand for runs with the same input, whose outputs are that of the tuple followed by the residual strings. -/
def TupRuns (f : Fst W) (good : W → Prop) (i : StateId) (t : DTup (RG W)) : Prop :=
  ∃ x y, ∀ e ∈ t.subset, e.state < f.numStates ∧ ∃ r w, e.weight = RG.single r w ∧ good w ∧ EPS ∉ r ∧ f.Run i x (y ++ r) e.state

section
variable (L : DivLaw o good) (ho : Orders ord) (hw : f.WF) (hg : ∀ s, ∀ t ∈ f.trsOf s, good t.weight) {g : Fst (RG W)}
  (hn : g.numStates = f.numStates) (htr : ∀ s, g.trsOf s = (f.trsOf s).map (gallicTr RG.mk')) {i : StateId} (hi : f.start = some i) (hgi : g.start = some i)
include L ho hw hg hn htr hi hgi

theorem tupRuns_reach {t : DTup (RG W)} (h : (detMachine g (rgDet o) ord).Reach t) : TupRuns f good i t := by
  have hgt : ∀ s, ∀ t ∈ g.trsOf s, ∃ t' ∈ f.trsOf s, t = gallicTr RG.mk' t' := by
    intro s t ht
    rw [htr] at ht
    obtain ⟨t', a, b⟩ := List.mem_map.1 ht
    exact ⟨t', a, b.symm⟩
  induction h with
  | @start t h =>
    simp only [TupleOp.machine, detOp, hgi, Option.map_some, Option.some.injEq] at h
    subst h
    refine ⟨[], [], fun e he => ?_⟩
    simp only [List.mem_singleton] at he
    subst he
    exact ⟨hw.start_lt i hi, [], 1, rfl, L.one, by simp, .nil⟩
  | @step t a _ ha ih =>
    obtain ⟨x, y, ih⟩ := ih
    simp only [TupleOp.machine, detOp] at ha
    cases hc : detTrs g (rgDet o) ord t with
    | error e => rw [hc] at ha; cases ha
    | ok as =>
      rw [hc] at ha
      obtain ⟨ws, w1, w2, w3⟩ := detTrs_from (K := fun v : RG W => v.raw.1) (rg_plus_str L.plus) ho (fun e he => by rw [hn]; exact (ih e he).1) hc a ha
      have hgood : ∀ v ∈ ws, RGood good v := by
        intro v hv
        obtain ⟨e, he, tr, ht, rfl⟩ := w1 v hv
        obtain ⟨t', ht', rfl⟩ := hgt _ _ ht
        obtain ⟨-, r, w, e1, e2, e3, -⟩ := ih e he
        exact ⟨r ++ strip t'.olabel, w * t'.weight, by rw [e1]; rfl, L.mul _ _ e2 (hg _ _ ht'), by
          simp only [List.mem_append, not_or]; exact ⟨e3, strip_clean _⟩⟩
      by_cases hnil : a.next.subset = []
      · exact ⟨[], [], fun e he => by rw [hnil] at he; cases he⟩
      have hne : ws ≠ [] := by
        obtain ⟨e, he⟩ := List.exists_mem_of_ne_nil _ hnil
        obtain ⟨e0, -, tr, -, -, -, -, m, z, hs, -⟩ := w3 e he
        obtain ⟨-, v, hv, -⟩ := rg_sums L hgood hs
        exact List.ne_nil_of_mem hv
      obtain ⟨c, wc, hcw, -, -, -, -⟩ := rg_commonFold L hne hgood w2
      refine ⟨x ++ strip a.ilabel, y ++ c, fun e he => ?_⟩
      obtain ⟨e0, he0, tr, ht, l1, -, l2, m, z, hs, l3, l4, l5⟩ := w3 e he
      obtain ⟨t', ht', rfl⟩ := hgt _ _ ht
      obtain ⟨-, r, w, e1, e2, e3, e4⟩ := ih e0 he0
      obtain ⟨c', wc', k, u, q', d1, d2, d3, d4, d5, d6, d7⟩ := rg_divide L hgood w2 hs
      rw [hcw] at d1
      obtain ⟨rfl, rfl⟩ := RG.single_inj d1
      rw [l4] at d3; injection d3 with d3; subst d3
      rw [l5] at d4; injection d4 with d4
      rw [e1, d2] at l3
      have l3 : StrW.labels (c ++ k) = StrW.labels (r ++ strip t'.olabel) := l3
      injection l3 with l3
      have hlab : t'.ilabel = a.ilabel := l1
      have hnx : t'.nextstate = e.state := l2
      rw [← hnx]
      refine ⟨hw.next_lt _ _ ht', k, q', d4, d6, d7, ?_⟩
      have := e4.snoc ht'
      rw [hlab] at this
      simpa [List.append_assoc, l3] using this

/-- The determinization of a functional transducer whose states are all coaccessible does not fail. -/
theorem functional_no_error (hfun : ∀ x y y' w w', f.Accepts x y w → f.Accepts x y' w' → y = y') (hco : f.Holds .coaccessible)
    (hfin : ∀ s, g.finOf s = (f.finOf s).map fun w => RG.mk' (.labels [], w)) {t : DTup (RG W)} (h : (detMachine g (rgDet o) ord).Reach t) :
    (∃ as, detTrs g (rgDet o) ord t = .ok as) ∧ ∃ w, detFin g (rgDet o) t = .ok w := by
  obtain ⟨x, y, ht⟩ := tupRuns_reach L ho hw hg hn htr hi hgi h
  have hlt : ∀ e ∈ t.subset, e.state < g.numStates := fun e he => by rw [hn]; exact (ht e he).1
  have huniq : ∀ {x k k' : List Label} {s : StateId}, s < f.numStates → f.Run i x (y ++ k) s → f.Run i x (y ++ k') s → k = k' := by
    intro x k k' s hs h1 h2
    obtain ⟨n, p, hp⟩ := coaccessible_path (hco s hs)
    obtain ⟨m1, w1, a1⟩ := h1.accepts hp
    obtain ⟨m2, w2, a2⟩ := h2.accepts hp
    have := hfun _ _ _ _ _ ⟨m1, by rw [Fst.accPaths_some hi]; exact a1⟩ ⟨m2, by rw [Fst.accPaths_some hi]; exact a2⟩
    have := List.append_cancel_right this
    exact List.append_cancel_left this
  constructor
  · obtain ⟨m, c1, -, -, c4, -⟩ := detCollect_spec.{u, u} (f := g) t.subset [] hlt
    rw [detTrs, c1]
    have hel : ∀ p ∈ m, ∀ z ∈ p.2, ∃ k w, z.weight = RG.single k w ∧ good w ∧ EPS ∉ k ∧ z.state < f.numStates ∧ f.Run i (x ++ strip p.1) (y ++ k) z.state := by
      intro p hp z hz
      rcases (c4 p.1 z).1 ⟨p, hp, rfl, hz⟩ with ⟨_, h, _⟩ | ⟨e, he, tr, htr', e0, rfl⟩
      · cases h
      · rw [htr] at htr'
        obtain ⟨t', ht', rfl⟩ := List.mem_map.1 htr'
        obtain ⟨-, r, w, e1, e2, e3, e4⟩ := ht e he
        refine ⟨r ++ strip t'.olabel, w * t'.weight, by rw [e1]; rfl, L.mul _ _ e2 (hg _ _ ht'), by
          simp only [List.mem_append, not_or]; exact ⟨e3, strip_clean _⟩, hw.next_lt _ _ ht', ?_⟩
        have := e4.snoc ht'
        have hl : t'.ilabel = p.1 := e0.symm
        rw [hl] at this
        show f.Run i _ _ t'.nextstate
        simpa [List.append_assoc] using this
    refine normAll_ok fun p hp => rg_normTr_ok L (ho t p.1) (fun z hz => ?_) (fun a ha b hb hab => ?_)
    · obtain ⟨k, w, e1, e2, e3, -⟩ := hel p hp z hz
      exact ⟨k, w, e1, e2, e3⟩
    · obtain ⟨k, w, e1, -, -, e4, e5⟩ := hel p hp a ha
      obtain ⟨k', w', e1', -, -, e4', e5'⟩ := hel p hp b hb
      rw [hab] at e5
      have := huniq e4' e5 e5'
      rw [e1, e1', this]; rfl
  · have key : ∀ (es : List (DElt (RG W))) (acc : RG W), (∀ e ∈ es, e ∈ t.subset) →
        (∀ e ∈ es, acc = 0 ∨ e.weight * (g.finOf e.state).getD 0 = 0 ∨ acc.raw.1 = (e.weight * (g.finOf e.state).getD 0).raw.1) →
        (∀ e ∈ t.subset, ∀ e' ∈ t.subset, e.weight * (g.finOf e.state).getD 0 = 0 ∨ e'.weight * (g.finOf e'.state).getD 0 = 0 ∨
          (e.weight * (g.finOf e.state).getD 0).raw.1 = (e'.weight * (g.finOf e'.state).getD 0).raw.1) →
        ∃ w, detFinSum g (rgDet o) acc es = .ok w := by
      intro es
      induction es with
      | nil => intro acc _ _ _; exact ⟨acc, rfl⟩
      | cons e es ih =>
        intro acc hsub hacc hall
        have hgf : g.finalWeightR e.state = .ok (g.finOf e.state) := by
          have := hlt e (hsub e (by simp))
          simp only [Fst.finalWeightR, Fst.finOf]
          rw [List.getElem?_eq_getElem (by simpa [Fst.numStates] using this)]
        obtain ⟨c, hc⟩ : ∃ c, (rgDet o).plus acc (e.weight * (g.finOf e.state).getD 0) = .ok c := by
          rcases hacc e (by simp) with h | h | h
          · rw [h]; exact ⟨_, rg_zero_plus L.plus _⟩
          · rw [h]; exact ⟨_, rg_plus_zero L.plus _⟩
          · exact rg_plus_same L.plus h
        obtain ⟨w, hw'⟩ := ih c (fun x hx => hsub x (by simp [hx])) (fun x hx => by
          rcases rg_plus_cases L.plus hc with ⟨-, rfl⟩ | ⟨-, rfl⟩ | ⟨l, a, b, h1, h2, rfl⟩
          · exact hall e (hsub e (by simp)) x (hsub x (by simp [hx]))
          · exact hacc x (by simp [hx])
          · rcases hacc x (by simp [hx]) with h | h | h
            · exact absurd (h1.symm.trans h) (RG.single_ne_zero _ _)
            · exact .inr (.inl h)
            · rw [h1] at h; exact .inr (.inr h)) hall
        exact ⟨w, by rw [detFinSum, hgf]; simp only [hc, hw']⟩
    obtain ⟨w, hw'⟩ := key t.subset 0 (fun e he => he) (fun e _ => .inl rfl) (fun e he e' he' => by
      obtain ⟨-, r, u, e1, -, -, e4⟩ := ht e he
      obtain ⟨-, r', u', e1', -, -, e4'⟩ := ht e' he'
      rw [hfin, hfin]
      cases hx : f.finOf e.state with
      | none => left; exact mul_zero _
      | some a =>
        cases hx' : f.finOf e'.state with
        | none => right; left; exact mul_zero _
        | some b =>
          right; right
          obtain ⟨m1, w1, a1⟩ := e4.accepts (n := 0) (p := ([], [], a)) (by simp [Fst.pathsFrom, hx])
          obtain ⟨m2, w2, a2⟩ := e4'.accepts (n := 0) (p := ([], [], b)) (by simp [Fst.pathsFrom, hx'])
          have := hfun _ _ _ _ _ ⟨m1, by rw [Fst.accPaths_some hi]; exact a1⟩ ⟨m2, by rw [Fst.accPaths_some hi]; exact a2⟩
          have := List.append_cancel_left (List.append_cancel_right this)
          rw [e1, e1', this]; rfl)
    unfold detFin
    rw [hw']
    simp only
    split
    · exact ⟨_, rfl⟩
    · exact ⟨_, rfl⟩

end
end
end Verif
