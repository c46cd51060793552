import Verif.Lemmas.Caches
import Verif.Lemmas.Access
import Verif.Lemmas.Wf
import Verif.Lemmas.Counters
import Verif.Lemmas.Shape
import Mathlib.Data.Set.Finite.Basic

/-! # Lazy FSTs: coherence of the cache, and the expansion -/

set_option linter.unusedSectionVars false

namespace Verif
universe u v w x
variable {W : Type u} {C : Type v} {σ : Type w} {T : Type x}

namespace Lz
variable {K : CacheOps W C} {cinv : C → Prop} {O : LazyOp σ W} {M : Machine T W} {name : σ → StateId → Option T} {oinv : σ → Prop}

/-- All that is cached is what the machine says under the present names. -/
structure Coh (K : CacheOps W C) (cinv : C → Prop) (M : Machine T W) (name : σ → StateId → Option T) (oinv : σ → Prop)
    (z : Lz C σ) : Prop where
  cache : cinv z.cache
  op : oinv z.op
  start : ∀ r, K.getStart z.cache = some r → Option.Rel (fun s t => name z.op s = some t) r M.start
  trs : ∀ s l, K.getTrs z.cache s = some l → ∃ t, name z.op s = some t ∧ List.Forall₂ (Names (name z.op)) l (M.trs t)
  fin : ∀ s w, K.getFinal z.cache s = some w → ∃ t, name z.op s = some t ∧ w = M.fin t

/-- No name was taken back. -/
def Le (name : σ → StateId → Option T) (z z' : Lz C σ) : Prop := ∀ s t, name z.op s = some t → name z'.op s = some t

theorem Le.refl (z : Lz C σ) : Le name z z := fun _ _ h => h
theorem Le.trans {a b c : Lz C σ} (h : Le name a b) (h' : Le name b c) : Le name a c := fun s t x => h' s t (h s t x)

theorem rel_mono {α : Type u} {β : Type v} {P Q : α → β → Prop} (h : ∀ a b, P a b → Q a b) {l : Option α} {m : Option β}
    (hl : Option.Rel P l m) : Option.Rel Q l m := by
  cases hl with
  | some hd => exact .some (h _ _ hd)
  | none => exact .none

/-- Only the operation's interior state moves on. -/
theorem Coh.moveOp {z : Lz C σ} (hz : Coh K cinv M name oinv z) {o : σ} (ho : oinv o)
    (hle : ∀ s t, name z.op s = some t → name o s = some t) : Coh K cinv M name oinv ⟨z.cache, o⟩ where
  cache := hz.cache
  op := ho
  start r h := rel_mono hle (hz.start r h)
  trs s l h := by
    obtain ⟨t, h1, h2⟩ := hz.trs s l h
    exact ⟨t, hle _ _ h1, forall2_mono (fun _ _ => Names.mono hle) h2⟩
  fin s w h := by
    obtain ⟨t, h1, h2⟩ := hz.fin s w h
    exact ⟨t, hle _ _ h1, h2⟩

theorem coh_fresh (L : CacheLaw K cinv) {o : σ} (ho : oinv o) : Coh K cinv M name oinv (⟨K.empty, o⟩ : Lz C σ) where
  cache := L.inv_empty
  op := ho
  start r h := by rw [L.start_empty] at h; exact absurd h (by simp)
  trs s l h := by rw [L.trs_empty] at h; exact absurd h (by simp)
  fin s w h := by rw [L.fin_empty] at h; exact absurd h (by simp)

theorem start_coh (L : CacheLaw K cinv) (OL : OpLaw O M name oinv) {z : Lz C σ} (hz : Coh K cinv M name oinv z) :
    Coh K cinv M name oinv (z.start K O).2 ∧ Le name z (z.start K O).2 ∧
    ∃ r, (z.start K O).1 = .ok r ∧ Option.Rel (fun s t => name (z.start K O).2.op s = some t) r M.start := by
  unfold Lz.start
  cases hc : K.getStart z.cache with
  | some r => exact ⟨hz, Le.refl z, r, rfl, hz.start r hc⟩
  | none =>
    obtain ⟨h1, h2, r, h3, h4⟩ := OL.start z.op hz.op
    rcases hcs : O.computeStart z.op with ⟨a, o⟩
    simp only [hcs] at h1 h2 h3 h4
    subst h3
    simp only
    have hm := hz.moveOp h1 h2
    refine ⟨⟨L.inv_start _ _ hz.cache, h1, ?_, ?_, ?_⟩, h2, r, rfl, h4⟩
    · intro r' hr
      rw [L.start_start _ _ hz.cache] at hr
      injection hr with hr; subst hr; exact h4
    · intro s l hs
      rw [L.trs_start _ _ _ hz.cache] at hs
      exact hm.trs s l hs
    · intro s w hs
      rw [L.fin_start _ _ _ hz.cache] at hs
      exact hm.fin s w hs

theorem trs_coh (L : CacheLaw K cinv) (OL : OpLaw O M name oinv) {z : Lz C σ} (hz : Coh K cinv M name oinv z) {s : StateId} {t : T}
    (hs : name z.op s = some t) :
    Coh K cinv M name oinv (z.getTrs K O s).2 ∧ Le name z (z.getTrs K O s).2 ∧
    ∃ l, (z.getTrs K O s).1 = .ok l ∧ List.Forall₂ (Names (name (z.getTrs K O s).2.op)) l (M.trs t) := by
  unfold Lz.getTrs
  cases hc : K.getTrs z.cache s with
  | some l =>
    obtain ⟨t', h1, h2⟩ := hz.trs s l hc
    rw [hs] at h1; injection h1 with h1; subst h1
    exact ⟨hz, Le.refl z, l, rfl, h2⟩
  | none =>
    obtain ⟨h1, h2, l, h3, h4⟩ := OL.trs z.op hz.op s t hs
    rcases hcs : O.computeTrs s z.op with ⟨a, o⟩
    simp only [hcs] at h1 h2 h3 h4
    subst h3
    simp only
    have hm := hz.moveOp h1 h2
    refine ⟨⟨L.inv_trs _ _ _ hz.cache, h1, ?_, ?_, ?_⟩, h2, l, rfl, h4⟩
    · intro r hr
      rw [L.start_trs _ _ _ hz.cache] at hr
      exact hm.start r hr
    · intro q l' hq
      rw [L.trs_trs _ _ _ _ hz.cache] at hq
      split at hq
      · rename_i e; subst e
        injection hq with hq; subst hq
        exact ⟨t, h2 _ _ hs, h4⟩
      · exact hm.trs q l' hq
    · intro q w hq
      rw [L.fin_trs _ _ _ _ hz.cache] at hq
      exact hm.fin q w hq

theorem fin_coh (L : CacheLaw K cinv) (OL : OpLaw O M name oinv) {z : Lz C σ} (hz : Coh K cinv M name oinv z) {s : StateId} {t : T}
    (hs : name z.op s = some t) :
    Coh K cinv M name oinv (z.finalWeight K O s).2 ∧ Le name z (z.finalWeight K O s).2 ∧ (z.finalWeight K O s).1 = .ok (M.fin t) := by
  unfold Lz.finalWeight
  cases hc : K.getFinal z.cache s with
  | some w =>
    obtain ⟨t', h1, h2⟩ := hz.fin s w hc
    rw [hs] at h1; injection h1 with h1; subst h1
    exact ⟨hz, Le.refl z, by rw [h2]⟩
  | none =>
    obtain ⟨h1, h2, h3⟩ := OL.fin z.op hz.op s t hs
    rcases hcs : O.computeFinal s z.op with ⟨a, o⟩
    simp only [hcs] at h1 h2 h3
    subst h3
    simp only
    have hm := hz.moveOp h1 h2
    refine ⟨⟨L.inv_fin _ _ _ hz.cache, h1, ?_, ?_, ?_⟩, h2, trivial⟩
    · intro r hr
      rw [L.start_fin _ _ _ hz.cache] at hr
      exact hm.start r hr
    · intro q l' hq
      rw [L.trs_fin _ _ _ _ hz.cache] at hq
      exact hm.trs q l' hq
    · intro q w hq
      rw [L.fin_fin _ _ _ _ hz.cache] at hq
      split at hq
      · rename_i e; subst e
        injection hq with hq; subst hq
        exact ⟨t, h2 _ _ hs, rfl⟩
      · exact hm.fin q w hq

theorem Correct.mono {n n' : StateId → Option T} (h : ∀ s t, n s = some t → n' s = some t) {q : Query} {a : Answer W}
    (hc : Correct M n q a) : Correct M n' q a := by
  cases q <;> cases a <;> simp only [Correct] at hc ⊢
  · obtain ⟨s, h1, h2⟩ := hc; exact ⟨s, h1, rel_mono h h2⟩
  · obtain ⟨s, h1, h2⟩ := hc; exact ⟨s, h _ _ h1, h2⟩
  · obtain ⟨s, l, h1, h2, h3⟩ := hc; exact ⟨s, l, h _ _ h1, h2, forall2_mono (fun _ _ => Names.mono h) h3⟩
  · rcases hc with hc | ⟨s, h1, h2⟩
    · exact .inl hc
    · exact .inr ⟨s, h _ _ h1, h2⟩
  · rcases hc with hc | ⟨s, h1, h2⟩
    · exact .inl hc
    · exact .inr ⟨s, h _ _ h1, h2⟩
  · rcases hc with hc | ⟨s, h1, h2⟩
    · exact .inl hc
    · exact .inr ⟨s, h _ _ h1, h2⟩

theorem countP_names {n : StateId → Option T} {p : Tr W → Bool} {p' : MTr T W → Bool} (h : ∀ a b, Names n a b → p a = p' b)
    {l : List (Tr W)} {m : List (MTr T W)} (hl : List.Forall₂ (Names n) l m) : l.countP p = m.countP p' := by
  induction hl with
  | nil => rfl
  | cons hd _ ih => rw [List.countP_cons, List.countP_cons, ih, h _ _ hd]

theorem length_names {n : StateId → Option T} {l : List (Tr W)} {m : List (MTr T W)} (hl : List.Forall₂ (Names n) l m) :
    l.length = m.length := by
  induction hl with
  | nil => rfl
  | cons hd _ ih => simp [ih]

/-- The targets of named transitions have names. -/
theorem names_next {n : StateId → Option T} {l : List (Tr W)} {m : List (MTr T W)} (hl : List.Forall₂ (Names n) l m) :
    ∀ tr ∈ l, ∃ a ∈ m, Names n tr a := by
  induction hl with
  | nil => simp
  | cons hd _ ih =>
    intro tr htr
    rcases List.mem_cons.1 htr with rfl | htr
    · exact ⟨_, by simp, hd⟩
    · obtain ⟨a, ha, h⟩ := ih tr htr
      exact ⟨a, by simp [ha], h⟩

/-- One query keeps coherence, names only grow, the answer is right, and every state told is named. -/
theorem ask_coh (L : CacheLaw K cinv) (OL : OpLaw O M name oinv) {z : Lz C σ} (hz : Coh K cinv M name oinv z) {q : Query}
    (hq : q.about (fun s => (name z.op s).isSome)) :
    Coh K cinv M name oinv (z.ask K O q).2 ∧ Le name z (z.ask K O q).2 ∧ Correct M (name (z.ask K O q).2.op) q (z.ask K O q).1 ∧
    ∀ s, (z.ask K O q).1.told s → (name (z.ask K O q).2.op s).isSome := by
  cases q with
  | start =>
    obtain ⟨h1, h2, r, h3, h4⟩ := start_coh L OL hz
    refine ⟨h1, h2, ⟨r, h3, h4⟩, ?_⟩
    intro s hs
    simp only [ask] at hs ⊢
    rw [h3] at hs
    generalize M.start = ms at h4
    cases h4 with
    | none => exact absurd hs (by simp [Answer.told])
    | some h => simp only [Answer.told] at hs; subst hs; rw [h]; rfl
  | fin s =>
    obtain ⟨t, ht⟩ := Option.isSome_iff_exists.1 hq
    obtain ⟨h1, h2, h3⟩ := fin_coh L OL hz ht
    exact ⟨h1, h2, ⟨t, h2 _ _ ht, h3⟩, fun s hs => by simp [ask, Answer.told] at hs⟩
  | trs s =>
    obtain ⟨t, ht⟩ := Option.isSome_iff_exists.1 hq
    obtain ⟨h1, h2, l, h3, h4⟩ := trs_coh L OL hz ht
    refine ⟨h1, h2, ⟨t, l, h2 _ _ ht, h3, h4⟩, ?_⟩
    intro s' hs
    simp only [ask] at hs ⊢
    rw [h3] at hs
    obtain ⟨tr, htr, rfl⟩ := hs
    obtain ⟨a, _, h⟩ := names_next h4 tr htr
    rw [h.2.2.2]; rfl
  | numTrs s =>
    refine ⟨hz, Le.refl z, ?_, fun s hs => by simp [ask, Answer.told] at hs⟩
    simp only [ask, Correct, Lz.numTrs, L.num_trs _ _ hz.cache]
    cases hc : K.getTrs z.cache s with
    | none => exact .inl rfl
    | some l =>
      obtain ⟨t, h1, h2⟩ := hz.trs s l hc
      exact .inr ⟨t, h1, by simp [okOr, length_names h2]⟩
  | numIEps s =>
    refine ⟨hz, Le.refl z, ?_, fun s hs => by simp [ask, Answer.told] at hs⟩
    simp only [ask, Correct, Lz.numIEps, L.num_ieps _ _ hz.cache]
    cases hc : K.getTrs z.cache s with
    | none => exact .inl rfl
    | some l =>
      obtain ⟨t, h1, h2⟩ := hz.trs s l hc
      refine .inr ⟨t, h1, ?_⟩
      simp only [okOr, Option.map_some]
      rw [countP_names (p' := fun a => a.ilabel == EPS) (fun a b h => by rw [h.1]) h2]
  | numOEps s =>
    refine ⟨hz, Le.refl z, ?_, fun s hs => by simp [ask, Answer.told] at hs⟩
    simp only [ask, Correct, Lz.numOEps, L.num_oeps _ _ hz.cache]
    cases hc : K.getTrs z.cache s with
    | none => exact .inl rfl
    | some l =>
      obtain ⟨t, h1, h2⟩ := hz.trs s l hc
      refine .inr ⟨t, h1, ?_⟩
      simp only [okOr, Option.map_some]
      rw [countP_names (p' := fun a => a.olabel == EPS) (fun a b h => by rw [h.2.1]) h2]
  | clear => exact ⟨coh_fresh L hz.op, Le.refl z, trivial, fun s hs => by simp [ask, Answer.told] at hs⟩

theorem about_mono {p q : StateId → Prop} (h : ∀ s, p s → q s) {x : Query} : x.about p → x.about q := by
  cases x <;> simp only [Query.about] <;> first | exact h _ | exact fun _ => trivial

/-- A whole history. -/
theorem run_coh (L : CacheLaw K cinv) (OL : OpLaw O M name oinv) (h : List Query) : ∀ (z : Lz C σ) (known : StateId → Prop),
    Coh K cinv M name oinv z → (∀ s, known s → (name z.op s).isSome) → Fair K O known z h →
    Coh K cinv M name oinv (z.run K O h).2 ∧ Le name z (z.run K O h).2 ∧
    ∀ p ∈ (z.run K O h).1, Correct M (name (z.run K O h).2.op) p.1 p.2 := by
  induction h with
  | nil => intro z known hz _ _; exact ⟨hz, Le.refl z, by simp [run]⟩
  | cons q qs ih =>
    intro z known hz hk hf
    obtain ⟨hf1, hf2⟩ := hf
    obtain ⟨h1, h2, h3, h4⟩ := ask_coh L OL hz (about_mono hk hf1)
    have hk' : ∀ s, (known s ∨ (z.ask K O q).1.told s) → (name (z.ask K O q).2.op s).isSome := by
      rintro s (hs | hs)
      · obtain ⟨t, ht⟩ := Option.isSome_iff_exists.1 (hk s hs)
        rw [h2 _ _ ht]; rfl
      · exact h4 s hs
    obtain ⟨g1, g2, g3⟩ := ih _ _ h1 hk' hf2
    refine ⟨g1, h2.trans g2, ?_⟩
    intro p hp
    simp only [run, List.mem_cons] at hp ⊢
    rcases hp with rfl | hp
    · exact h3.mono g2
    · exact g3 p hp

/-! ### Two correct answers agree -/

theorem names_unique {n : StateId → Option T} (h1 : OneName n) {l l' : List (Tr W)} {m : List (MTr T W)}
    (hl : List.Forall₂ (Names n) l m) (hl' : List.Forall₂ (Names n) l' m) : l = l' := by
  induction hl generalizing l' with
  | nil => cases hl'; rfl
  | @cons a b l m hd _ ih =>
    cases hl' with
    | @cons a' _ l'' _ hd' htl =>
      rw [ih htl]
      congr 1
      obtain ⟨e1, e2, e3, e4⟩ := hd
      obtain ⟨d1, d2, d3, d4⟩ := hd'
      have := h1 _ _ _ e4 d4
      cases a; cases a'
      simp_all

/-! ### The expansion -/

section compute
variable [Zero W] [One W] [DecidableEq W]

/-- The marked states. -/
def Marked (vis : List Bool) (s : StateId) : Prop := vis[s]? = some true

theorem scan_spec (l : List (Tr W)) : ∀ (q : List StateId) (vis : List Bool) (out : Fst W),
    ∃ new vis' out', scan l q vis out = (q ++ new, vis', out') ∧ new.Nodup ∧ (∀ s ∈ new, ¬ Marked vis s) ∧
      (∀ s, Marked vis' s ↔ (Marked vis s ∨ s ∈ new)) ∧ (∀ s ∈ new, ∃ t ∈ l, t.nextstate = s) ∧
      (∀ t ∈ l, Marked vis' t.nextstate) ∧ (∀ s, out'.trsOf s = out.trsOf s) ∧ (∀ s, out'.finOf s = out.finOf s) ∧
      out'.start = out.start ∧ out.numStates ≤ out'.numStates ∧ (∀ t ∈ l, t.nextstate < out'.numStates) ∧
      (out.AllCounters → out'.AllCounters) := by
  induction l with
  | nil =>
    intro q vis out
    exact ⟨[], vis, out, by simp [scan], List.nodup_nil, by simp, by simp, by simp, by simp, fun _ => rfl, fun _ => rfl, rfl,
      Nat.le_refl _, by simp, fun h => h⟩
  | cons t ts ih =>
    intro q vis out
    obtain ⟨vis1, hv1⟩ : ∃ v, v = if t.nextstate ≥ vis.length then vis ++ List.replicate (t.nextstate + 1 - vis.length) false else vis :=
      ⟨_, rfl⟩
    obtain ⟨out1, ho1⟩ : ∃ o, o = if t.nextstate ≥ out.numStates then out.addStates (t.nextstate - out.numStates + 1) else out :=
      ⟨_, rfl⟩
    have hm1 : ∀ s, Marked vis1 s ↔ Marked vis s := by
      intro s
      rw [hv1]
      unfold Marked
      split
      · by_cases hl : s < vis.length
        · rw [List.getElem?_append_left hl]
        · rw [List.getElem?_append_right (by omega), List.getElem?_replicate, List.getElem?_eq_none (by omega : vis.length ≤ s)]
          split <;> simp
      · rfl
    have hlen : t.nextstate < vis1.length := by
      rw [hv1]; split
      · simp; omega
      · omega
    have o1 : ∀ s, out1.trsOf s = out.trsOf s := by intro s; rw [ho1]; split <;> simp
    have o2 : ∀ s, out1.finOf s = out.finOf s := by intro s; rw [ho1]; split <;> simp
    have o3 : out1.start = out.start := by rw [ho1]; split <;> simp
    have o4 : out.numStates ≤ out1.numStates ∧ t.nextstate < out1.numStates := by
      rw [ho1]; split
      · rw [Fst.addStates_numStates]; omega
      · omega
    have o5 : out.AllCounters → out1.AllCounters := by
      intro h; rw [ho1]; split
      · exact Fst.allCounters_addStates h _
      · exact h
    by_cases hv : Marked vis1 t.nextstate
    · obtain ⟨new, vis', out', e, a1, a2, a3, a4, a5, a6, a7, a8, a9, a10, a11⟩ := ih q vis1 out1
      refine ⟨new, vis', out', ?_, a1, fun s hs h => a2 s hs ((hm1 s).2 h), fun s => by rw [a3, hm1], ?_, ?_, fun s => by rw [a6, o1],
        fun s => by rw [a7, o2], by rw [a8, o3], by omega, ?_, fun h => a11 (o5 h)⟩
      · have hv' : vis1[t.nextstate]? = some true := hv
        rw [← e]
        simp only [scan, ← hv1, ← ho1, hv', if_true]
      · intro s hs; obtain ⟨t', h, h'⟩ := a4 s hs; exact ⟨t', by simp [h], h'⟩
      · intro t' ht'
        rcases List.mem_cons.1 ht' with rfl | ht'
        · exact (a3 _).2 (.inl hv)
        · exact a5 t' ht'
      · intro t' ht'
        rcases List.mem_cons.1 ht' with rfl | ht'
        · omega
        · exact a10 t' ht'
    · have hm2 : ∀ s, Marked (vis1.set t.nextstate true) s ↔ (Marked vis1 s ∨ s = t.nextstate) := by
        intro s
        unfold Marked
        by_cases hs : s = t.nextstate
        · subst hs; rw [List.getElem?_set_self hlen]; simp
        · rw [List.getElem?_set_ne (Ne.symm hs)]; simp [hs]
      obtain ⟨new, vis', out', e, a1, a2, a3, a4, a5, a6, a7, a8, a9, a10, a11⟩ := ih (q ++ [t.nextstate]) (vis1.set t.nextstate true) out1
      refine ⟨t.nextstate :: new, vis', out', ?_, ?_, ?_, ?_, ?_, ?_, fun s => by rw [a6, o1],
        fun s => by rw [a7, o2], by rw [a8, o3], by omega, ?_, fun h => a11 (o5 h)⟩
      · have hv' : ¬ vis1[t.nextstate]? = some true := hv
        rw [show q ++ t.nextstate :: new = (q ++ [t.nextstate]) ++ new by simp, ← e]
        simp only [scan, ← hv1, ← ho1, hv', if_false]
      · rw [List.nodup_cons]
        refine ⟨fun h => a2 _ h ((hm2 _).2 (.inr rfl)), a1⟩
      · intro s hs h
        rcases List.mem_cons.1 hs with rfl | hs
        · exact hv ((hm1 _).2 h)
        · exact a2 s hs ((hm2 s).2 (.inl ((hm1 s).2 h)))
      · intro s
        rw [a3, hm2, hm1, List.mem_cons, or_assoc]
      · intro s hs
        rcases List.mem_cons.1 hs with rfl | hs
        · exact ⟨t, by simp, rfl⟩
        · obtain ⟨t', h, h'⟩ := a4 s hs; exact ⟨t', by simp [h], h'⟩
      · intro t' ht'
        rcases List.mem_cons.1 ht' with rfl | ht'
        · exact (a3 _).2 (.inl ((hm2 _).2 (.inr rfl)))
        · exact a5 t' ht'
      · intro t' ht'
        rcases List.mem_cons.1 ht' with rfl | ht'
        · omega
        · exact a10 t' ht'

theorem scan_num (l : List (Tr W)) : ∀ (q : List StateId) (vis : List Bool) (out : Fst W) (s : Nat),
    s < (scan l q vis out).2.2.numStates → s < out.numStates ∨ ∃ t ∈ l, s ≤ t.nextstate := by
  induction l with
  | nil => intro q vis out s h; exact .inl h
  | cons t ts ih =>
    intro q vis out s h
    rw [scan] at h
    rcases ih _ _ _ s h with h | ⟨t', h1, h2⟩
    · by_cases hn : t.nextstate ≥ out.numStates
      · rw [if_pos hn, Fst.addStates_numStates] at h
        by_cases hs : s < out.numStates
        · exact .inl hs
        · exact .inr ⟨t, by simp, by omega⟩
      · rw [if_neg hn] at h; exact .inl h
    · exact .inr ⟨t', by simp [h1], h2⟩

theorem trs_tight (H : TightOp O name oinv) {z : Lz C σ} (hz : oinv z.op) {s : StateId} {l : List (Tr W)}
    (hl : (z.getTrs K O s).1 = .ok l) (hs : (name z.op s).isSome) (p : StateId) (hp : (name (z.getTrs K O s).2.op p).isSome) :
    (name z.op p).isSome ∨ ∃ tr ∈ l, tr.nextstate = p := by
  unfold Lz.getTrs at hl hp
  cases hc : K.getTrs z.cache s with
  | some l' => rw [hc] at hp; exact .inl hp
  | none =>
    rw [hc] at hl hp
    rcases hcs : O.computeTrs s z.op with ⟨a, o⟩
    rw [hcs] at hl hp
    cases a with
    | error e => exact absurd hl (by simp)
    | ok l' =>
      simp only [Except.ok.injEq] at hl hp
      subst hl
      rcases H.trs z.op hz s hs p (by rw [hcs]; exact hp) with h | ⟨l2, h1, h2⟩
      · exact .inl h
      · rw [hcs] at h1; injection h1 with h1; subst h1; exact .inr h2

theorem fin_tight (H : TightOp O name oinv) {z : Lz C σ} (hz : oinv z.op) {s : StateId}
    (hs : (name z.op s).isSome) (p : StateId) (hp : (name (z.finalWeight K O s).2.op p).isSome) : (name z.op p).isSome := by
  unfold Lz.finalWeight at hp
  cases hc : K.getFinal z.cache s with
  | some l' => rw [hc] at hp; exact hp
  | none =>
    rw [hc] at hp
    have := H.fin z.op hz s hs p
    rcases hcs : O.computeFinal s z.op with ⟨a, o⟩
    rw [hcs] at hp this
    cases a with
    | error e => exact this hp
    | ok l' => exact this hp

theorem computeLoop_more : ∀ (n : Nat) (q : List StateId) (vis : List Bool) (out : Fst W) (z : Lz C σ) x,
    computeLoop K O n q vis out z = some x → computeLoop K O (n + 1) q vis out z = some x := by
  intro n
  induction n with
  | zero => intro q vis out z x h; simp [computeLoop] at h
  | succ n ih =>
    intro q vis out z x h
    cases q with
    | nil => exact h
    | cons s q =>
      rw [computeLoop] at h ⊢
      rcases hg : z.getTrs K O s with ⟨a, z1⟩
      rw [hg] at h
      cases a with
      | error e => exact h
      | ok l =>
        simp only at h ⊢
        rcases hf : z1.finalWeight K O s with ⟨b, z2⟩
        rw [hf] at h
        cases b with
        | error e => exact h
        | ok w => exact ih _ _ _ _ _ h

/-- What holds of the output for the states in `D`, which are done. -/
structure Done (M : Machine T W) (nm : StateId → Option T) (vis : List Bool) (out : Fst W) (D : List StateId) : Prop where
  trs : ∀ s ∈ D, ∃ t, nm s = some t ∧ List.Forall₂ (Names nm) (out.trsOf s) (M.trs t) ∧ out.finOf s = M.fin t
  next : ∀ s ∈ D, ∀ tr ∈ out.trsOf s, Marked vis tr.nextstate
  empty : ∀ s, s ∉ D → out.trsOf s = [] ∧ out.finOf s = none
  lt : ∀ s, Marked vis s → s < out.numStates
  named : ∀ s, Marked vis s → (nm s).isSome

theorem computeLoop_spec (L : CacheLaw K cinv) (OL : OpLaw O M name oinv) :
    ∀ (n : Nat) (q D : List StateId) (vis : List Bool) (out : Fst W) (z : Lz C σ), Coh K cinv M name oinv z →
      (D ++ q).Nodup → (∀ s, Marked vis s ↔ s ∈ D ++ q) → Done M (name z.op) vis out D → out.AllCounters →
      ((∃ R : List T, (∀ t, M.Reach t → t ∈ R) ∧ R.length < n + D.length) ∨ computeLoop K O n q vis out z ≠ none) →
      ∃ out' z' D' vis', computeLoop K O n q vis out z = some (.ok out', z') ∧ Coh K cinv M name oinv z' ∧ Le name z z' ∧
        (∀ s, Marked vis' s ↔ s ∈ D') ∧ (∀ s ∈ D ++ q, s ∈ D') ∧ Done M (name z'.op) vis' out' D' ∧ out'.start = out.start ∧
        out.numStates ≤ out'.numStates ∧ out'.AllCounters ∧
        (TightOp O name oinv → (∀ p, (name z.op p).isSome → Marked vis p) → (∀ p, p < out.numStates → ∃ p', p ≤ p' ∧ Marked vis p') →
          (∀ p, (name z'.op p).isSome → Marked vis' p) ∧ ∀ p, p < out'.numStates → ∃ p', p ≤ p' ∧ Marked vis' p') := by
  intro n
  induction n with
  | zero =>
    intro q D vis out z hz hnd hmk hd _ hn
    -- more names than tuples
    exfalso
    rcases hn with ⟨R, hR, hn⟩ | hn
    swap
    · exact hn rfl
    have hsub : ∀ s ∈ D, ∃ t ∈ R, name z.op s = some t := by
      intro s hs
      obtain ⟨t, ht⟩ := Option.isSome_iff_exists.1 (hd.named s ((hmk s).2 (by simp [hs])))
      exact ⟨t, hR t (OL.reach _ hz.op s t ht), ht⟩
    have hD : D.Nodup := (List.nodup_append.1 hnd).1
    have : (D.map (fun s => name z.op s)).Nodup := by
      rw [List.nodup_map_iff_inj_on hD]
      intro a ha b hb hab
      obtain ⟨t, _, ht⟩ := hsub a ha
      exact OL.one _ hz.op a b t ht (hab ▸ ht)
    have hl := List.Subperm.length_le (this.subperm (l₂ := R.map some) (by
      intro o ho
      obtain ⟨s, hs, rfl⟩ := List.mem_map.1 ho
      obtain ⟨t, ht, e⟩ := hsub s hs
      exact List.mem_map.2 ⟨t, ht, e.symm⟩))
    simp at hl
    omega
  | succ n ih =>
    intro q D vis out z hz hnd hmk hd hcn hn
    cases q with
    | nil => exact ⟨out, z, D, vis, rfl, hz, Le.refl z, by simpa using hmk, by simp, hd, rfl, Nat.le_refl _, hcn, fun _ h1 h2 => ⟨h1, h2⟩⟩
    | cons s q =>
      obtain ⟨t, ht⟩ := Option.isSome_iff_exists.1 (hd.named s ((hmk s).2 (by simp)))
      obtain ⟨g1, g2, l, g3, g4⟩ := trs_coh L OL hz ht
      rcases hg : z.getTrs K O s with ⟨a, z1⟩
      rw [hg] at g1 g2 g3 g4
      simp only at g1 g2 g3 g4
      subst g3
      obtain ⟨f1, f2, f3⟩ := fin_coh L OL g1 (g2 s t ht)
      rcases hf : z1.finalWeight K O s with ⟨b, z2⟩
      rw [hf] at f1 f2 f3
      simp only at f1 f2 f3
      subst f3
      obtain ⟨new, vis', out', e, a1, a2, a3, a4, a5, a6, a7, a8, a9, a10, a11⟩ := scan_spec l q vis out
      have hnq : s ∉ D := by
        intro h
        have := (List.nodup_append.1 hnd).2.2
        exact this s h s (by simp) rfl
      have hlt : s < out'.numStates := by
        have := hd.lt s ((hmk s).2 (by simp)); omega
      have hz2 : Le name z z2 := g2.trans f2
      have htr : ∀ p, (putFinal (out'.setTrs s l) s (M.fin t)).trsOf p = if p = s then l else out.trsOf p := by
        intro p
        have : (putFinal (out'.setTrs s l) s (M.fin t)).trsOf p = (out'.setTrs s l).trsOf p := by
          cases M.fin t <;> simp [putFinal]
        rw [this, Fst.setTrs_trsOf]
        by_cases hp : p = s
        · subst hp; simp [hlt]
        · simp [hp, a6]
      have hfn : ∀ p, (putFinal (out'.setTrs s l) s (M.fin t)).finOf p = if p = s then M.fin t else out.finOf p := by
        intro p
        have h0 : (out'.setTrs s l).finOf p = out.finOf p := by simp [a7]
        cases hM : M.fin t with
        | none =>
          simp only [putFinal, h0]
          by_cases hp : p = s
          · subst hp; simp [(hd.empty p hnq).2]
          · simp [hp]
        | some w =>
          simp only [putFinal, Fst.setFinal_finOf]
          by_cases hp : p = s
          · subst hp; simp [hlt]
          · simp [hp, a7]
      have hns : (putFinal (out'.setTrs s l) s (M.fin t)).numStates = out'.numStates := by
        cases M.fin t <;> simp [putFinal]
      have hst : (putFinal (out'.setTrs s l) s (M.fin t)).start = out.start := by
        cases M.fin t <;> simp [putFinal, a8]
      have hcn' : (putFinal (out'.setTrs s l) s (M.fin t)).AllCounters := by
        have := Fst.allCounters_setTrs (a11 hcn) s l
        cases M.fin t with
        | none => exact this
        | some w => exact Fst.allCounters_setFinal this s w
      have hmk' : ∀ p, Marked vis' p ↔ p ∈ (D ++ [s]) ++ (q ++ new) := by
        intro p; rw [a3, hmk]; simp only [List.mem_append, List.mem_cons, List.not_mem_nil, or_false]; tauto
      obtain ⟨out'', z', D', vis'', h1, h2, h3, h4, h5, h6, h7, h8, h9, h10⟩ := ih (q ++ new) (D ++ [s]) vis'
        (putFinal (out'.setTrs s l) s (M.fin t)) z2 f1 (by
          have : (D ++ [s]) ++ (q ++ new) = (D ++ s :: q) ++ new := by simp
          rw [this, List.nodup_append]
          refine ⟨hnd, a1, ?_⟩
          rintro a ha b hb rfl
          exact a2 a hb ((hmk a).2 ha)) hmk' (by
          refine ⟨?_, ?_, ?_, ?_, ?_⟩
          · intro p hp
            rcases List.mem_append.1 hp with hp | hp
            · obtain ⟨u, hu1, hu2, hu3⟩ := hd.trs p hp
              have hps : p ≠ s := fun h => hnq (h ▸ hp)
              refine ⟨u, hz2 _ _ hu1, ?_, ?_⟩
              · rw [htr, if_neg hps]; exact forall2_mono (fun _ _ => Names.mono hz2) hu2
              · rw [hfn, if_neg hps]; exact hu3
            · have : p = s := by simpa using hp
              subst this
              refine ⟨t, hz2 _ _ ht, ?_, ?_⟩
              · rw [htr, if_pos rfl]; exact forall2_mono (fun _ _ => Names.mono f2) g4
              · rw [hfn, if_pos rfl]
          · intro p hp tr htr'
            rw [htr] at htr'
            by_cases hps : p = s
            · rw [if_pos hps] at htr'; exact a5 tr htr'
            · rw [if_neg hps] at htr'
              have hp' : p ∈ D := by
                rcases List.mem_append.1 hp with hp | hp
                · exact hp
                · exact absurd (by simpa using hp) hps
              exact (a3 _).2 (.inl (hd.next p hp' tr htr'))
          · intro p hp
            simp only [List.mem_append, List.mem_singleton, not_or] at hp
            rw [htr, hfn, if_neg hp.2, if_neg hp.2]
            exact hd.empty p hp.1
          · intro p hp
            rw [hns]
            rcases (a3 p).1 hp with hp | hp
            · have := hd.lt p hp; omega
            · obtain ⟨tr, h, rfl⟩ := a4 p hp
              exact a10 tr h
          · intro p hp
            rcases (a3 p).1 hp with hp | hp
            · obtain ⟨u, hu⟩ := Option.isSome_iff_exists.1 (hd.named p hp)
              rw [hz2 _ _ hu]; rfl
            · obtain ⟨tr, h, rfl⟩ := a4 p hp
              obtain ⟨a, _, ha⟩ := names_next g4 tr h
              rw [f2 _ _ ha.2.2.2]; rfl) hcn' (by
          rcases hn with ⟨R, hR, hn⟩ | hn
          · exact .inl ⟨R, hR, by simp; omega⟩
          · right
            rw [computeLoop, hg] at hn
            simp only [e, hf] at hn
            exact hn)
      refine ⟨out'', z', D', vis'', ?_, h2, hz2.trans h3, h4, ?_, h6, by rw [h7, hst], by rw [hns] at h8; omega, h9, ?_⟩
      · rw [computeLoop, hg]
        simp only [e, hf]
        exact h1
      · intro p hp
        apply h5
        simp only [List.mem_append, List.mem_cons, List.not_mem_nil, or_false] at hp ⊢
        tauto
      · intro H i1 i2
        have hs' : (name z.op s).isSome := by rw [ht]; rfl
        refine h10 H ?_ ?_
        · intro p hp
          have hp1 := fin_tight (K := K) H g1.op (s := s) (by rw [g2 s t ht]; rfl) p (by rw [hf]; exact hp)
          rcases trs_tight (K := K) H hz.op (s := s) (l := l) (by rw [hg]) hs' p (by rw [hg]; exact hp1) with h | ⟨tr, htr, rfl⟩
          · exact (a3 p).2 (.inl (i1 p h))
          · exact a5 tr htr
        · intro p hp
          rw [hns] at hp
          rcases scan_num l q vis out p (by rw [e]; exact hp) with h | ⟨tr, htr, h⟩
          · obtain ⟨p', h1, h2⟩ := i2 p h
            exact ⟨p', h1, (a3 p').2 (.inl h2)⟩
          · exact ⟨tr.nextstate, h, a5 tr htr⟩

end compute
end Lz

/-! ### Paths -/

theorem bind_forall2 {α : Type u} {β : Type v} {γ : Type w} {P : α → β → Prop} {f : α → Multiset γ} {g : β → Multiset γ} {l : List α}
    {m : List β} (hl : List.Forall₂ P l m) (h : ∀ a ∈ l, ∀ b, P a b → f a = g b) : (l : Multiset α).bind f = (m : Multiset β).bind g := by
  induction hl with
  | nil => rfl
  | @cons a b l m hd _ ih =>
    rw [← Multiset.cons_coe, ← Multiset.cons_coe, Multiset.cons_bind, Multiset.cons_bind, ih fun x hx => h x (by simp [hx]),
      h a (by simp) b hd]

/-- An FST whose states in a closed set `D` are the named tuples of a machine has the paths of the machine. -/
theorem pathsFrom_named [Mul W] {M : Machine T W} {nm : StateId → Option T} {F : Fst W} {D : StateId → Prop}
    (h : ∀ s, D s → ∃ t, nm s = some t ∧ List.Forall₂ (Names nm) (F.trsOf s) (M.trs t) ∧ F.finOf s = M.fin t)
    (hc : ∀ s, D s → ∀ tr ∈ F.trsOf s, D tr.nextstate) : ∀ (n : Nat) (s : StateId) (t : T), D s → nm s = some t →
    F.pathsFrom n s = M.pathsFrom n t := by
  intro n
  induction n with
  | zero =>
    intro s t hs ht
    obtain ⟨t', h1, _, h3⟩ := h s hs
    rw [ht] at h1; injection h1 with h1; subst h1
    simp only [Fst.pathsFrom, Machine.pathsFrom, h3]
    cases M.fin t <;> rfl
  | succ n ih =>
    intro s t hs ht
    obtain ⟨t', h1, h2, _⟩ := h s hs
    rw [ht] at h1; injection h1 with h1; subst h1
    simp only [Fst.pathsFrom, Machine.pathsFrom]
    refine bind_forall2 h2 fun tr htr a ha => ?_
    have e : tr.asPath = a.asPath := by simp [Tr.asPath, MTr.asPath, ha.1, ha.2.1, ha.2.2.1]
    rw [ih _ _ (hc s hs tr htr) ha.2.2.2, e]

end Verif
