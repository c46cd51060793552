import Verif.Spec.Agree
import Verif.Props.C38
import Verif.Lemmas.PresentsFlags

/-! # From machines to static FSTs -/

namespace Verif
universe u v w x
variable {W : Type u} {C : Type v} {σ : Type w} {T : Type x}
open Lz

section
open Classical in
/-- The state of `F` that has the tuple. -/
noncomputable def backName (nm : StateId → Option T) (t : T) : Option StateId :=
  if h : ∃ q, nm q = some t then some h.choose else none

theorem backName_spec {nm : StateId → Option T} {t : T} {q : StateId} (h : backName nm t = some q) : nm q = some t := by
  unfold backName at h
  split at h
  · rename_i h'; cases h; exact h'.choose_spec
  · cases h

theorem backName_eq {nm : StateId → Option T} (h1 : OneName nm) {t : T} {q : StateId} (h : nm q = some t) : backName nm t = some q := by
  unfold backName
  have h' : ∃ q, nm q = some t := ⟨q, h⟩
  rw [dif_pos h']
  exact congrArg some (h1 _ _ _ h'.choose_spec h)

/-- The translation through tuples. -/
noncomputable def through (nm nmF : StateId → Option T) (s : StateId) : Option StateId := (nm s).bind (backName nmF)

theorem through_eq {nm nmF : StateId → Option T} (h1 : OneName nmF) {s q : StateId} {t : T} (h : nm s = some t) (h' : nmF q = some t) :
    through nm nmF s = some q := by
  unfold through; rw [h]; exact backName_eq h1 h'

theorem through_spec {nm nmF : StateId → Option T} {s q : StateId} (h : through nm nmF s = some q) : ∃ t, nm s = some t ∧ nmF q = some t := by
  unfold through at h
  cases h1 : nm s with
  | none => rw [h1] at h; cases h
  | some t => rw [h1] at h; exact ⟨t, rfl, backName_spec h⟩

theorem through_one {nm nmF : StateId → Option T} (h1 : OneName nm) : OneName (through nm nmF) := by
  intro a b q ha hb
  obtain ⟨t, e1, e2⟩ := through_spec ha
  obtain ⟨t', e1', e2'⟩ := through_spec hb
  rw [e2] at e2'; injection e2' with e2'
  exact h1 a b t e1 (e2' ▸ e1')

variable {M : Machine T W} {nm nmF : StateId → Option T} {F : Fst W}

theorem names_through (HF : M.Presents nmF F) {l l' : List (Tr W)} {as : List (MTr T W)} (h : List.Forall₂ (Names nm) l as)
    (h' : List.Forall₂ (Names nmF) l' as) :
    List.Forall₂ (Names (through nm nmF)) l (l'.map fun t => ⟨t.ilabel, t.olabel, t.weight, t.nextstate⟩) := by
  induction h generalizing l' with
  | nil => cases h'; exact .nil
  | cons hd _ ih =>
    cases h' with
    | cons hd' tl' =>
      refine .cons ⟨hd.1.trans hd'.1.symm, hd.2.1.trans hd'.2.1.symm, hd.2.2.1.trans hd'.2.2.1.symm, ?_⟩ (ih tl')
      exact through_eq HF.one hd.2.2.2 hd'.2.2.2

theorem correct_through (HF : M.Presents nmF F) (hreach : ∀ s t, nm s = some t → M.Reach t) {q : Query} {a : Answer W} (h : Correct M nm q a) :
    Correct F.machine (through nm nmF) q a := by
  have key : ∀ s t, nm s = some t → ∃ p, nmF p = some t ∧ through nm nmF s = some p := by
    intro s t e
    obtain ⟨p, hp⟩ := (HF.tuples t).1 (hreach s t e)
    exact ⟨p, hp, through_eq HF.one e hp⟩
  cases q <;> cases a <;> simp only [Correct] at h ⊢
  case start.start r =>
    obtain ⟨s, rfl, hs⟩ := h
    refine ⟨s, rfl, ?_⟩
    have h2 := HF.start
    simp only [Fst.machine]
    generalize M.start = ms at hs h2
    generalize F.start = fs at h2
    cases hs with
    | none => cases h2; exact .none
    | some e =>
      cases h2 with
      | some e' => exact .some (through_eq HF.one e e')
  case fin.fin s r =>
    obtain ⟨t, e, rfl⟩ := h
    obtain ⟨p, hp, hq⟩ := key s t e
    exact ⟨p, hq, by simp only [Fst.machine, HF.fin p t hp]⟩
  case trs.trs s r =>
    obtain ⟨t, l, e, rfl, hl⟩ := h
    obtain ⟨p, hp, hq⟩ := key s t e
    exact ⟨p, l, hq, rfl, names_through HF hl (HF.trs p t hp)⟩
  case numTrs.num s r =>
    refine h.imp id fun ⟨t, e, h⟩ => ?_
    obtain ⟨p, hp, hq⟩ := key s t e
    refine ⟨p, hq, h.trans ?_⟩
    simp only [Fst.machine, List.length_map, (HF.trs p t hp).length_eq]
  case numIEps.num s r =>
    refine h.imp id fun ⟨t, e, h⟩ => ?_
    obtain ⟨p, hp, hq⟩ := key s t e
    refine ⟨p, hq, h.trans ?_⟩
    have := congrArg (List.countP (· == EPS)) (HF.ilabels hp)
    simp only [List.countP_map] at this
    simp only [Fst.machine, List.countP_map]
    exact congrArg _ this.symm
  case numOEps.num s r =>
    refine h.imp id fun ⟨t, e, h⟩ => ?_
    obtain ⟨p, hp, hq⟩ := key s t e
    refine ⟨p, hq, h.trans ?_⟩
    have := congrArg (List.countP (· == EPS)) (HF.olabels hp)
    simp only [List.countP_map] at this
    simp only [Fst.machine, List.countP_map]
    exact congrArg _ this.symm

end

theorem names_copy {nm nmF : StateId → Option T} {ν : StateId → StateId} {x y : Tr W} {a : MTr T W} (hx : Names nm x a) (hy : Names nmF y a)
    (he : ν y.nextstate = x.nextstate) : x = { y with nextstate := ν y.nextstate } := by
  cases x; cases y
  simp only [Names] at hx hy he
  simp only [Tr.mk.injEq]
  exact ⟨hx.1.trans hy.1.symm, hx.2.1.trans hy.2.1.symm, hx.2.2.1.trans hy.2.2.1.symm, he.symm⟩

variable [Zero W] [One W] [DecidableEq W]

/-- A history of queries, then `compute`: both agree with an FST that presents the machine. -/
theorem agree_core {K : CacheOps W C} {cinv : C → Prop} {O : LazyOp σ W} {M : Machine T W} {name : σ → StateId → Option T}
    {oinv : σ → Prop} (L : CacheLaw K cinv) (OL : OpLaw O M name oinv) {o : σ} (ho : oinv o) {F : Fst W} {nmF : StateId → Option T}
    (HF : M.Presents nmF F) (h : List Query) (hf : Fair K O (fun _ => False) ⟨K.empty, o⟩ h) :
    (∃ ρ, Agree F ρ ((⟨K.empty, o⟩ : Lz C σ).run K O h).1) ∧
    ∃ G z' ν, EndsWith (fun n => Lz.compute K O n ((⟨K.empty, o⟩ : Lz C σ).run K O h).2) (.ok G, z') ∧ G.WF ∧ G.AllCounters ∧ F.Copies G ν := by
  obtain ⟨h1, _, h3⟩ := run_coh L OL h _ _ (coh_fresh L ho) (fun _ hs => hs.elim) hf
  refine ⟨⟨through (name ((⟨K.empty, o⟩ : Lz C σ).run K O h).2.op) nmF, through_one (OL.one _ h1.op), ?_, fun p hp =>
    correct_through HF (OL.reach _ h1.op) (h3 p hp)⟩, ?_⟩
  · intro s q hq
    obtain ⟨t, _, e⟩ := through_spec hq
    exact (HF.states q).2 ⟨t, e⟩
  have hfin : {t | M.Reach t}.Finite := by
    refine Set.Finite.of_finite_image (f := some) (((Set.finite_Iio F.numStates).image nmF).subset ?_) (Option.some_injective T).injOn
    rintro _ ⟨t, ht, rfl⟩
    obtain ⟨q, hq⟩ := (HF.tuples t).1 ht
    exact ⟨q, (HF.states q).2 ⟨t, hq⟩, hq⟩
  obtain ⟨G, z', g1, g2, g3, _, nm, g5, g6, g7⟩ := C38_compute L OL ho h hf hfin
  have hx : ∀ a, a < F.numStates → ∃ s t, nmF a = some t ∧ nm s = some t ∧ s < G.numStates ∧ G.finOf s = F.finOf a ∧
      List.Forall₂ (Names nm) (G.trsOf s) (M.trs t) ∧ List.Forall₂ (Names nmF) (F.trsOf a) (M.trs t) := by
    intro a ha
    obtain ⟨t, ht⟩ := (HF.states a).1 ha
    obtain ⟨s, e1, e2, e3, e4, _⟩ := g7 t ((HF.tuples t).2 ⟨a, ht⟩)
    exact ⟨s, t, ht, e1, e2, by rw [e3, HF.fin a t ht], e4, HF.trs a t ht⟩
  choose! ν hν using hx
  have heq : ∀ a s t, nmF a = some t → nm s = some t → ν a = s := by
    intro a s t e e'
    obtain ⟨t', e1, e2, _⟩ := hν a ((HF.states a).2 ⟨t, e⟩)
    rw [e] at e1; injection e1 with e1
    exact g5 _ _ t (e1 ▸ e2) e'
  refine ⟨G, z', ν, g1, g2, g3, ?_, fun a ha => ?_, ?_, fun a ha => ?_, ?_⟩
  · intro a b ha hb e
    obtain ⟨t, e1, e2, _⟩ := hν a ha
    obtain ⟨t', f1, f2, _⟩ := hν b hb
    rw [e, f2] at e2; injection e2 with e2
    exact HF.one a b _ e1 (e2 ▸ f1)
  · obtain ⟨t, _, _, e, _⟩ := hν a ha; exact e
  · have h2 := HF.start
    generalize M.start = ms at g6 h2
    generalize F.start = fs at h2
    generalize G.start = gs at g6
    cases g6 with
    | none => cases h2; rfl
    | some e =>
      cases h2 with
      | some e' => simp only [Option.map_some]; rw [heq _ _ _ e' e]
  · obtain ⟨t, _, _, _, e, _⟩ := hν a ha; exact e
  · intro a ha
    obtain ⟨t, _, _, _, _, e1, e2⟩ := hν a ha
    generalize G.trsOf (ν a) = l at e1
    generalize F.trsOf a = l' at e2
    generalize M.trs t = as at e1 e2
    induction e1 generalizing l' with
    | nil => cases e2; rfl
    | cons hd _ ih =>
      cases e2 with
      | cons hd' tl' =>
        rw [List.map_cons, ih _ tl', names_copy hd hd' (heq _ _ _ hd'.2.2.2 hd.2.2.2)]

end Verif
