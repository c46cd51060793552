import Verif.Lemmas.MergeStates
import Verif.Lemmas.PartSplit
import Verif.Spec.Minimize

/-! # The loop of Hopcroft's algorithm -/

namespace Verif
set_option linter.unusedSectionVars false
universe u v

namespace PState

theorem exists_of_size {σ : PState} {x} (h : 0 < σ.size x) : ∃ e, σ.cls e = some x := by
  unfold size at h
  rw [List.countP_pos_iff] at h
  obtain ⟨e, -, he⟩ := h
  exact ⟨e, by simpa using he⟩

theorem split_nonempty {σ : PState} {c rest} (h : σ.Ok (c :: rest)) (hn : ∀ x, x < σ.nc → ∃ e, σ.cls e = some x) :
    ∀ x, x < (σ.split c).nc → ∃ e, (σ.split c).cls e = some x := by
  intro x hx
  by_cases h0 : σ.sizeNo c = 0
  · have : (σ.split c).nc = σ.nc := by simp [PState.split, h0]
    obtain ⟨e, he⟩ := hn x (by omega)
    exact ⟨e, by simpa [PState.split, h0] using he⟩
  · obtain ⟨z1, z2, z3⟩ := split_sizes h h0
    have hnc : (σ.split c).nc = σ.nc + 1 := by simp [PState.split, h0]
    by_cases h1 : x = σ.nc
    · subst h1; exact exists_of_size z1
    · by_cases h2 : x = c
      · subst h2; exact exists_of_size (by omega)
      · obtain ⟨e, he⟩ := hn x (by omega)
        exact ⟨e, (split_other h2 (by omega) e).2 he⟩

theorem finalize_nonempty : ∀ (pend : List Nat) {σ : PState}, σ.Ok pend → (∀ x, x < σ.nc → ∃ e, σ.cls e = some x) →
    ∀ x, x < (pend.foldl PState.split σ).nc → ∃ e, (pend.foldl PState.split σ).cls e = some x := by
  intro pend
  induction pend with
  | nil => intro σ _ h; exact h
  | cons c rest ih => intro σ h hn; exact ih h.split (split_nonempty h hn)

theorem finalize_nc : ∀ (pend : List Nat) (σ : PState), σ.nc ≤ (pend.foldl PState.split σ).nc := by
  intro pend
  induction pend with
  | nil => intro σ; exact le_rfl
  | cons c rest ih => intro σ; exact (split_nc σ c).trans (ih _)

theorem finalize_cls : ∀ (pend : List Nat) {σ : PState}, σ.Ok pend → ∀ e,
    (pend.foldl PState.split σ).cls e = σ.cls e ∨
      ∃ k, σ.nc ≤ k ∧ k < (pend.foldl PState.split σ).nc ∧ (pend.foldl PState.split σ).cls e = some k := by
  intro pend
  induction pend with
  | nil => intro σ _ e; exact Or.inl rfl
  | cons c rest ih =>
    intro σ h e
    rw [List.foldl_cons]
    have hle := split_nc σ c
    rcases ih h.split e with h1 | ⟨k, h1, h2, h3⟩
    · rw [h1]
      by_cases h2 : (σ.split c).cls e = σ.cls e
      · exact Or.inl h2
      · right
        simp only [PState.split] at h2
        split at h2
        · rename_i h'
          refine ⟨σ.nc, le_rfl, lt_of_lt_of_le ?_ (finalize_nc rest _), ?_⟩
          · simp [PState.split, h'.1]
          · simp only [PState.split]; rw [if_pos h']
        · exact absurd rfl h2
    · exact Or.inr ⟨k, by omega, h2, h3⟩

end PState

/-- What a call of `finalize_split` with a queue does. -/
structure FinStep (σ σ' : PState) (q q' : List Nat) : Prop where
  n : σ'.n = σ.n
  dom : ∀ e, (σ'.cls e).isSome = (σ.cls e).isSome
  same : ∀ e e', (σ.cls e).isSome = true → (σ.cls e').isSome = true → (σ'.cls e = σ'.cls e' ↔ σ.cls e = σ.cls e' ∧ σ.marked e = σ.marked e')
  cls : ∀ e, σ'.cls e = σ.cls e ∨ ∃ k ∈ q', σ'.cls e = some k
  sub : ∀ k ∈ q, k ∈ q'
  lt : (∀ k ∈ q, k < σ.nc) → ∀ k ∈ q', k < σ'.nc
  len : q'.length + σ.nc = q.length + σ'.nc
  ne : (∀ x, x < σ.nc → ∃ e, σ.cls e = some x) → ∀ x, x < σ'.nc → ∃ e, σ'.cls e = some x
  unmarked : ∀ e, σ'.marked e = false

theorem finStep {p : Part} {σ : PState} (h : Part.Rep p σ) (q : List Nat) :
    ∃ new p' σ', p.finalizeSplit = .ok (new, p') ∧ Part.Rep p' σ' ∧ FinStep σ σ' q (new.reverse ++ q) := by
  obtain ⟨p', h1, h2⟩ := Part.rep_finalize h
  have hok := PState.ok_of_rep h
  have hnc := PState.finalize_nc σ.pending σ
  refine ⟨_, p', _, h1, h2, ?_, ?_, ?_, ?_, ?_, ?_, ?_, ?_, ?_⟩
  · exact Part.foldl_split_n _ _
  · exact fun e => Part.foldl_split_dom _ _ e
  · exact fun e e' he he' => PState.finalize_same _ hok he he'
  · intro e
    rcases PState.finalize_cls _ hok e with h3 | ⟨k, h3, h4, h5⟩
    · exact Or.inl h3
    · refine Or.inr ⟨k, ?_, h5⟩
      simp only [List.mem_append, List.mem_reverse, List.mem_range'_1]
      left; omega
  · intro k hk; simp [hk]
  · intro hq k hk
    simp only [List.mem_append, List.mem_reverse, List.mem_range'_1] at hk
    rcases hk with hk | hk
    · show k < (List.foldl PState.split σ σ.pending).nc; omega
    · have := hq k hk
      show k < (List.foldl PState.split σ σ.pending).nc; omega
  · simp only [List.length_append, List.length_reverse, List.length_range']; omega
  · exact fun hn => PState.finalize_nonempty _ hok hn
  · obtain ⟨E, C, no, yes, k, hv, hi, hf, hk⟩ := h2
    exact hi.noMarks

namespace Hop

variable {V : Type v}

/-- A partition of the states, its classes are not empty. `E` are states that have to stay together, `K` is what is known of two states
of the same class. -/
structure Good (n : Nat) (E K : Nat → Nat → Prop) (σ : PState) (q : List Nat) : Prop where
  num : σ.n = n
  all : ∀ e, e < n → (σ.cls e).isSome = true
  ne : ∀ x, x < σ.nc → ∃ e, σ.cls e = some x
  lt : ∀ c ∈ q, c < σ.nc
  coarse : ∀ e e', e < n → e' < n → E e e' → σ.cls e = σ.cls e'
  key : ∀ e e', e < n → e' < n → σ.cls e = σ.cls e' → K e e'

/-- Successors of states of the same class are in the same class, unless one of their classes is in the queue, or they are separated by
`C0`. -/
def Pairs (n : Nat) (δ : Nat → Label → Nat → Prop) (σ : PState) (q : List Nat) (C0 : Nat → Prop) : Prop :=
  ∀ a e e' s s', e < n → e' < n → σ.cls e = σ.cls e' → δ e a s → δ e' a s' →
    σ.cls s = σ.cls s' ∨ (∃ c ∈ q, σ.cls s = some c ∨ σ.cls s' = some c) ∨ ¬ (C0 s ↔ C0 s')

/-- The list has a transition with label `a` to the state that stands for `e`. -/
def Src (l : List (Tr V)) (a : Label) (e : Nat) : Prop := ∃ t ∈ l, t.ilabel = a ∧ t.nextstate = e + 1

/-- Invariant of the loop over the transitions `done ++ rest` into the class `C0`. -/
structure Loop (n : Nat) (δ : Nat → Label → Nat → Prop) (E K : Nat → Nat → Prop) (C0 : Nat → Prop) (done rest : List (Tr V))
    (σ : PState) (q : List Nat) (prev : Label) : Prop where
  good : Good n E K σ q
  pairs : Pairs n δ σ q C0
  stable : ∀ a, a ≠ prev → (∀ t ∈ rest, t.ilabel ≠ a) → ∀ e e', e < n → e' < n → σ.cls e = σ.cls e' →
    (Src (done ++ rest) a e ↔ Src (done ++ rest) a e')
  mark : ∀ e, σ.marked e = true → Src done prev e
  marked : ∀ e, e < n → Src done prev e → σ.marked e = true ∨ ∀ e', σ.cls e' = σ.cls e → e' = e
  last : ∀ t ∈ done, t.ilabel ≤ prev ∧ ∃ u ∈ done, u.ilabel = prev

variable {n : Nat} {δ : Nat → Label → Nat → Prop} {E K : Nat → Nat → Prop} {C0 : Nat → Prop} {done rest : List (Tr V)} {σ σ' : PState}
  {q q' : List Nat} {prev : Label}

theorem Pairs.fin (h : Pairs n δ σ q C0) (hg : Good n E K σ q) (f : FinStep σ σ' q q') : Pairs n δ σ' q' C0 := by
  intro a e e' s s' he he' hc hs hs'
  have hc0 := ((f.same e e' (hg.all e he) (hg.all e' he')).1 hc).1
  rcases f.cls s with h1 | ⟨k, hk, h1⟩
  · rcases f.cls s' with h2 | ⟨k, hk, h2⟩
    · rcases h a e e' s s' he he' hc0 hs hs' with h3 | ⟨c, h3, h4⟩ | h3
      · exact Or.inl (by rw [h1, h2, h3])
      · exact Or.inr (Or.inl ⟨c, f.sub c h3, by rwa [h1, h2]⟩)
      · exact Or.inr (Or.inr h3)
    · exact Or.inr (Or.inl ⟨k, hk, Or.inr h2⟩)
  · exact Or.inr (Or.inl ⟨k, hk, Or.inl h1⟩)

theorem Src.left {l l' : List (Tr V)} {a e} (h : Src l a e) : Src (l ++ l') a e := by
  obtain ⟨t, h1, h2⟩ := h
  exact ⟨t, by simp [h1], h2⟩

theorem Src.of_append {l l' : List (Tr V)} {a e} (h : Src (l ++ l') a e) (hr : ∀ t ∈ l', t.ilabel ≠ a) : Src l a e := by
  obtain ⟨t, h1, h2⟩ := h
  rcases List.mem_append.1 h1 with h1 | h1
  · exact ⟨t, h1, h2⟩
  · exact absurd h2.1 (hr t h1)

/-- A call of `finalize_split` when all transitions with the previous label have been seen. -/
theorem Loop.fin (h : Loop n δ E K C0 done rest σ q prev) (f : FinStep σ σ' q q') (hsym : ∀ e e', E e e' → E e' e)
    (hE : ∀ a e e', e < n → e' < n → E e e' → Src (done ++ rest) a e → Src (done ++ rest) a e')
    (hfin : (∀ e, σ.marked e = false) ∨ ∀ t ∈ rest, t.ilabel ≠ prev) :
    Good n E K σ' q' ∧ Pairs n δ σ' q' C0 ∧
      ∀ a, (∀ t ∈ rest, t.ilabel ≠ a) → ∀ e e', e < n → e' < n → σ'.cls e = σ'.cls e' → (Src (done ++ rest) a e ↔ Src (done ++ rest) a e') := by
  have hg := h.good
  refine ⟨⟨f.n.trans hg.num, fun e he => by rw [f.dom]; exact hg.all e he, f.ne hg.ne, f.lt hg.lt, ?_, ?_⟩, h.pairs.fin hg f, ?_⟩
  · intro e e' he he' hee
    have hm : ∀ e e', e < n → e' < n → E e e' → σ.marked e = true → σ.marked e' = true := by
      intro e e' he he' hee hm
      rcases hfin with hfin | hfin
      · rw [hfin] at hm; cases hm
      · have h1 := (hE prev e e' he he' hee (h.mark e hm).left).of_append hfin
        rcases h.marked e' he' h1 with h2 | h2
        · exact h2
        · have := h2 e (hg.coarse e e' he he' hee); subst this; exact hm
    refine (f.same e e' (hg.all e he) (hg.all e' he')).2 ⟨hg.coarse e e' he he' hee, ?_⟩
    have h1 := hm e e' he he' hee
    have h2 := hm e' e he' he (hsym _ _ hee)
    cases hA : σ.marked e <;> cases hB : σ.marked e' <;> simp_all
  · intro e e' he he' hc
    exact hg.key e e' he he' ((f.same e e' (hg.all e he) (hg.all e' he')).1 hc).1
  · intro a ha
    have key : ∀ e e', e < n → e' < n → σ'.cls e = σ'.cls e' → Src (done ++ rest) a e → Src (done ++ rest) a e' := by
      intro e e' he he' hc hs
      obtain ⟨hc1, hc2⟩ := (f.same e e' (hg.all e he) (hg.all e' he')).1 hc
      by_cases hap : a = prev
      · subst hap
        rcases h.marked e he (hs.of_append ha) with h1 | h1
        · exact (h.mark e' (by rw [← hc2]; exact h1)).left
        · have := h1 e' hc1.symm; subst this; exact hs
      · exact (h.stable a hap ha e e' he he' hc1).1 hs
    exact fun e e' he he' hc => ⟨key e e' he he' hc, key e' e he' he hc.symm⟩

/-- Marking the source of a transition. -/
theorem Loop.visit {t : Tr V} {e : Nat} {p : Part} (hp : Part.Rep p σ) (hn : t.nextstate = e + 1) (he : e < n)
    (hg : Good n E K σ q) (hpr : Pairs n δ σ q C0)
    (hst : ∀ a, a ≠ t.ilabel → (∀ u ∈ rest, u.ilabel ≠ a) → ∀ e e', e < n → e' < n → σ.cls e = σ.cls e' →
      (Src (done ++ t :: rest) a e ↔ Src (done ++ t :: rest) a e'))
    (hm1 : ∀ e, σ.marked e = true → Src done t.ilabel e)
    (hm2 : ∀ e, e < n → Src done t.ilabel e → σ.marked e = true ∨ ∀ e', σ.cls e' = σ.cls e → e' = e)
    (hpv : ∀ u ∈ done, u.ilabel ≤ t.ilabel) :
    ∃ c k p' σ', p.getClassId e = .ok c ∧ p.getClassSize c = .ok k ∧ (if k > 1 then p.splitOn e else .ok p) = .ok p' ∧ Part.Rep p' σ' ∧
      σ'.nc = σ.nc ∧ Loop n δ E K C0 (done ++ [t]) rest σ' q t.ilabel := by
  obtain ⟨c, hc⟩ := Option.isSome_iff_exists.1 (hg.all e he)
  have hok := PState.ok_of_rep hp
  have hs := hp.shows
  refine ⟨c, σ.size c, ?_⟩
  have happ : done ++ [t] ++ rest = done ++ t :: rest := by simp
  have hprev : ∀ u ∈ done ++ [t], u.ilabel ≤ t.ilabel ∧ ∃ w ∈ done ++ [t], w.ilabel = t.ilabel := by
    intro u hu
    refine ⟨?_, t, by simp, rfl⟩
    rcases List.mem_append.1 hu with h | h
    · exact hpv u h
    · have : u = t := by simpa using h
      rw [this]
  have hsrc : ∀ x, Src (done ++ [t]) t.ilabel x → Src done t.ilabel x ∨ x = e := by
    rintro x ⟨u, h1, h2, h3⟩
    rcases List.mem_append.1 h1 with h | h
    · exact Or.inl ⟨u, h, h2, h3⟩
    · have : u = t := by simpa using h
      subst this; right; omega
  by_cases hk : σ.size c > 1
  · obtain ⟨p', h1, h2⟩ := Part.rep_splitOn hp hc
    refine ⟨p', _, hs.classId e c hc, hs.classSize c (hok.el e c hc).2.1, by rw [if_pos hk]; exact h1, h2, rfl, ?_⟩
    refine ⟨⟨hg.num, hg.all, hg.ne, hg.lt, hg.coarse, hg.key⟩, hpr, ?_, ?_, ?_, hprev⟩
    · rw [happ]; exact hst
    · intro x hx
      simp only at hx
      split at hx
      · rename_i h; subst h; exact ⟨t, by simp, rfl, hn⟩
      · exact (hm1 x hx).left
    · intro x hx hs'
      simp only
      rcases hsrc x hs' with h | h
      · rcases hm2 x hx h with h3 | h3
        · left; rw [h3]; simp
        · exact Or.inr h3
      · left; simp [h]
  · refine ⟨p, σ, hs.classId e c hc, hs.classSize c (hok.el e c hc).2.1, by rw [if_neg hk], hp, rfl, ?_⟩
    refine ⟨hg, hpr, ?_, fun x hx => (hm1 x hx).left, ?_, hprev⟩
    · rw [happ]; exact hst
    · intro x hx hs'
      rcases hsrc x hs' with h | h
      · exact hm2 x hx h
      · right
        subst h
        intro e' he'
        rw [hc] at he'
        by_contra hne
        apply hk
        have h1 := (hok.el x c hc).1
        have h2 := (hok.el e' c he').1
        unfold PState.size
        have : [x, e'].Subperm ((List.range σ.n).filter fun y => σ.cls y == some c) := by
          apply List.subperm_of_subset
          · simp [Ne.symm hne]
          · intro y hy
            simp only [List.mem_cons, List.not_mem_nil, or_false] at hy
            rcases hy with rfl | rfl
            · simp [h1, hc]
            · simp [h2, he']
        have := this.length_le
        rw [List.countP_eq_length_filter]
        exact lt_of_lt_of_le (by simp) this

/-- One transition. -/
theorem Loop.step {t : Tr V} {e : Nat} {p : Part} (hp : Part.Rep p σ) (hn : t.nextstate = e + 1) (he : e < n)
    (h : Loop n δ E K C0 done (t :: rest) σ q prev) (hsym : ∀ e e', E e e' → E e' e)
    (hE : ∀ a e e', e < n → e' < n → E e e' → Src (done ++ t :: rest) a e → Src (done ++ t :: rest) a e')
    (hsort : ((done ++ t :: rest).map (·.ilabel)).Pairwise (· ≤ ·)) :
    ∃ p' q' σ', Fst.splitArc (p, q, prev) t = .ok (p', q', t.ilabel) ∧ Part.Rep p' σ' ∧ q'.length + σ.nc = q.length + σ'.nc ∧
      Loop n δ E K C0 (done ++ [t]) rest σ' q' t.ilabel := by
  have hsub : Part.subU t.nextstate 1 = .ok e := by rw [hn]; simp [Part.subU]
  rw [List.map_append, List.map_cons, List.pairwise_append] at hsort
  obtain ⟨-, hs2, hs3⟩ := hsort
  have hle : ∀ u ∈ done, u.ilabel ≤ t.ilabel := fun u hu => hs3 _ (List.mem_map_of_mem hu) _ (by simp)
  have hge : ∀ u ∈ rest, t.ilabel ≤ u.ilabel := fun u hu => (List.pairwise_cons.1 hs2).1 _ (List.mem_map_of_mem hu)
  by_cases hpv : prev = t.ilabel
  · subst hpv
    obtain ⟨c, k, p', σ', h1, h2, h3, h4, h5, h6⟩ := Loop.visit (δ := δ) (C0 := C0) (done := done) (rest := rest) hp hn he h.good h.pairs
      (fun a ha hr => h.stable a ha (by
        intro u hu
        rcases List.mem_cons.1 hu with rfl | hu
        · exact Ne.symm ha
        · exact hr u hu)) h.mark h.marked hle
    refine ⟨p', q, σ', ?_, h4, by omega, h6⟩
    simp only [Fst.splitArc, hsub, ne_eq, not_true_eq_false, if_false, bind, Except.bind, h1, h2]
    split at h3
    · rename_i hk; rw [if_pos hk, h3]
    · rename_i hk; injection h3 with h3; rw [if_neg hk, h3]
  · obtain ⟨new, p1, σ1, f1, f2, f3⟩ := finStep hp q
    have hfin : (∀ e, σ.marked e = false) ∨ ∀ u ∈ t :: rest, u.ilabel ≠ prev := by
      by_cases hd : done = []
      · left
        intro x
        by_contra hx
        obtain ⟨u, hu, -⟩ := h.mark x (by simpa using hx)
        rw [hd] at hu; cases hu
      · right
        obtain ⟨u, hu⟩ := List.exists_mem_of_ne_nil _ hd
        obtain ⟨-, w, hw, hw2⟩ := h.last u hu
        have hwt := hle w hw
        intro u hu
        rcases List.mem_cons.1 hu with rfl | hu
        · exact fun h => hpv h.symm
        · have := hge u hu; omega
    obtain ⟨g1, g2, g3⟩ := h.fin f3 hsym hE hfin
    have hnew : ∀ x, ¬ Src done t.ilabel x := by
      rintro x ⟨u, hu, hu2, -⟩
      obtain ⟨hu3, w, hw, hw2⟩ := h.last u hu
      have := hle w hw
      omega
    obtain ⟨c, k, p', σ', h1, h2, h3, h4, h5, h6⟩ := Loop.visit (δ := δ) (C0 := C0) (done := done) (rest := rest) f2 hn he g1 g2
      (fun a ha hr => g3 a (by
        intro u hu
        rcases List.mem_cons.1 hu with rfl | hu
        · exact Ne.symm ha
        · exact hr u hu)) (fun x hx => by rw [f3.unmarked] at hx; cases hx) (fun x _ hx => absurd hx (hnew x)) hle
    refine ⟨p', _, σ', ?_, h4, by have := f3.len; omega, h6⟩
    simp only [Fst.splitArc, hsub, ne_eq, hpv, not_false_eq_true, if_true, bind, Except.bind, f1, h1, h2]
    split at h3
    · rename_i hk; rw [if_pos hk, h3]
    · rename_i hk; injection h3 with h3; rw [if_neg hk, h3]

theorem Pairs.weaken {δ : Nat → Label → Nat → Prop} (h : Pairs n δ σ q C0) (hn : ∀ a e e' s s', e < n → e' < n → σ.cls e = σ.cls e' → δ e a s → δ e' a s' → (C0 s ↔ C0 s')) :
    Pairs n δ σ q (fun _ => False) := by
  intro a e e' s s' he he' hc hs hs'
  rcases h a e e' s s' he he' hc hs hs' with h1 | h1 | h1
  · exact Or.inl h1
  · exact Or.inr (Or.inl h1)
  · exact absurd (hn a e e' s s' he he' hc hs hs') h1

/-- The reversed FST: its transitions from `s + 1` are those of `δ` into `s`, in the order of their labels. -/
structure RevOf (n : Nat) (δ : Nat → Label → Nat → Prop) (r : Fst V) : Prop where
  num : r.numStates = n + 1
  sorted : ∀ s, s < n → ((r.trsOf (s + 1)).map (·.ilabel)).Pairwise (· ≤ ·)
  of_mem : ∀ s, s < n → ∀ t ∈ r.trsOf (s + 1), ∃ e, e < n ∧ t.nextstate = e + 1 ∧ δ e t.ilabel s
  mem : ∀ e a s, δ e a s → e < n ∧ s < n ∧ ∃ t ∈ r.trsOf (s + 1), t.ilabel = a ∧ t.nextstate = e + 1

theorem classTrs_ok {r : Fst V} (hr : RevOf n δ r) : ∀ l : List Nat, (∀ s ∈ l, s < n) → ∃ its, Fst.classTrs r l = .ok its ∧
    (∀ i ∈ its, (i.map (·.ilabel)).Pairwise (· ≤ ·)) ∧ ∀ t, t ∈ its.flatten ↔ ∃ s ∈ l, t ∈ r.trsOf (s + 1) := by
  intro l
  induction l with
  | nil => intro _; exact ⟨[], rfl, by simp, by simp⟩
  | cons s l ih =>
    intro hl
    obtain ⟨its, h1, h2, h3⟩ := ih (fun x hx => hl x (by simp [hx]))
    have hs := hl s (by simp)
    have hg : r.getTrsR (s + 1) = .ok (r.trsOf (s + 1)) := by
      have : s + 1 < r.states.length := by have := hr.num; unfold Fst.numStates at this; omega
      simp [Fst.getTrsR, Fst.trsOf, List.getElem?_eq_getElem this]
    refine ⟨_, by simp only [Fst.classTrs, hg, h1, bind, Except.bind]; rfl, ?_, ?_⟩
    · intro i hi
      split at hi
      · rcases List.mem_cons.1 hi with rfl | hi
        · exact hr.sorted s hs
        · exact h2 i hi
      · exact h2 i hi
    · intro t
      split
      · rw [List.flatten_cons, List.mem_append, h3]
        simp
      · rename_i hz
        have : r.trsOf (s + 1) = [] := List.length_eq_zero_iff.1 (by omega)
        rw [h3]
        simp [this]

/-- One class of the queue. -/
theorem step_ok {r : Fst V} (hr : RevOf n δ r) {merge : List (List (Tr V)) → List (Tr V)} (hmg : HeapMerge merge)
    (hdet : ∀ e a s s', δ e a s → δ e a s' → s = s') (hsym : ∀ e e', E e e' → E e' e)
    (hE : ∀ C : Nat → Prop, (∀ s s', s < n → s' < n → E s s' → C s → C s') → ∀ a e e' s, e < n → e' < n → E e e' → δ e a s → C s → ∃ s', δ e' a s' ∧ C s')
    {p : Part} (hp : Part.Rep p σ) (hm : ∀ e, σ.marked e = false) {c : Nat} (hg : Good n E K σ (c :: q)) (hpr : Pairs n δ σ (c :: q) (fun _ => False)) :
    ∃ p' q' σ', Fst.hopcroftStep merge r p q c = .ok (p', q') ∧ Part.Rep p' σ' ∧ (∀ e, σ'.marked e = false) ∧ Good n E K σ' q' ∧
      Pairs n δ σ' q' (fun _ => False) ∧ q'.length + σ.nc = q.length + σ'.nc := by
  obtain ⟨l, hl1, hl2, hl3⟩ := hp.shows.iter c (hg.lt c (by simp))
  have hok := PState.ok_of_rep hp
  have hl4 : ∀ s, s ∈ l ↔ σ.cls s = some c := fun s => by rw [hl3]; simp [hm s]
  obtain ⟨its, hi1, hi2, hi3⟩ := classTrs_ok hr l (fun s hs => hg.num ▸ (hok.el s c ((hl4 s).1 hs)).1)
  obtain ⟨hm1, hm2⟩ := hmg its hi2
  obtain ⟨L, hL⟩ : ∃ L, L = merge its := ⟨_, rfl⟩
  rw [← hL] at hm1 hm2
  have hsrc : ∀ a e, Src L a e ↔ ∃ s, σ.cls s = some c ∧ δ e a s := by
    intro a e
    constructor
    · rintro ⟨t, ht, h1, h2⟩
      obtain ⟨s, hs, hst⟩ := (hi3 t).1 (hm1.mem_iff.1 ht)
      obtain ⟨e', h3, h4, h5⟩ := hr.of_mem s (hg.num ▸ (hok.el s c ((hl4 s).1 hs)).1) t hst
      have : e' = e := by omega
      subst this
      exact ⟨s, (hl4 s).1 hs, h1 ▸ h5⟩
    · rintro ⟨s, h1, h2⟩
      obtain ⟨-, -, t, h3, h4, h5⟩ := hr.mem e a s h2
      exact ⟨t, hm1.mem_iff.2 ((hi3 t).2 ⟨s, (hl4 s).2 h1, h3⟩), h4, h5⟩
  have hEL : ∀ a e e', e < n → e' < n → E e e' → Src L a e → Src L a e' := by
    intro a e e' he he' hee hs
    obtain ⟨s, h1, h2⟩ := (hsrc a e).1 hs
    obtain ⟨s', h3, h4⟩ := hE (fun s => σ.cls s = some c) (fun s s' hs hs' hss h => by rw [← hg.coarse s s' hs hs' hss]; exact h) a e e' s he he' hee h2 h1
    exact (hsrc a e').2 ⟨s', h4, h3⟩
  have hstart : Loop n δ E K (fun s => σ.cls s = some c) [] L σ q NO_LABEL := by
    refine ⟨⟨hg.num, hg.all, hg.ne, fun x hx => hg.lt x (by simp [hx]), hg.coarse, hg.key⟩, ?_, ?_, ?_, ?_, ?_⟩
    · intro a e e' s s' he he' hc hs hs'
      rcases hpr a e e' s s' he he' hc hs hs' with h1 | ⟨x, h1, h2⟩ | h1
      · exact Or.inl h1
      · rcases List.mem_cons.1 h1 with rfl | h1
        · by_cases h3 : σ.cls s = σ.cls s'
          · exact Or.inl h3
          · refine Or.inr (Or.inr ?_)
            show ¬ (σ.cls s = some x ↔ σ.cls s' = some x)
            rcases h2 with h2 | h2
            · rw [h2] at h3 ⊢
              simpa using fun h => h3 h.symm
            · rw [h2] at h3 ⊢
              simpa using h3
        · exact Or.inr (Or.inl ⟨x, h1, h2⟩)
      · exact absurd Iff.rfl h1
    · intro a _ hr e e' _ _ _
      constructor
      · rintro ⟨t, ht, h1, -⟩; exact absurd h1 (hr t ht)
      · rintro ⟨t, ht, h1, -⟩; exact absurd h1 (hr t ht)
    · intro e he; rw [hm] at he; cases he
    · rintro e _ ⟨t, ht, -⟩; cases ht
    · intro t ht; cases ht
  obtain ⟨⟨p1, q1, a1⟩, hf, σ1, rest, hr1, hp1, hq1, hlp⟩ := foldlM_R_induct
    (fun done (b : Part × List Nat × Label) => ∃ σ1 rest, L = done ++ rest ∧ Part.Rep b.1 σ1 ∧ b.2.1.length + σ.nc = q.length + σ1.nc ∧
      Loop n δ E K (fun s => σ.cls s = some c) done rest σ1 b.2.1 b.2.2)
    Fst.splitArc L [] (p, q, NO_LABEL) ⟨σ, L, rfl, hp, rfl, hstart⟩ (by
      rintro d x ⟨p0, q0, a0⟩ ⟨rest, hrest⟩ ⟨σ1, rest', h1, h2, h3, h4⟩
      simp only [List.nil_append] at hrest
      have hr' : rest' = x :: rest := by
        rw [h1] at hrest; exact List.append_cancel_left hrest
      subst hr'
      simp only at h2 h3 h4
      obtain ⟨s, hs, hst⟩ := (hi3 x).1 (hm1.mem_iff.1 (by rw [h1]; simp))
      obtain ⟨e, h5, h6, h7⟩ := hr.of_mem s (hg.num ▸ (hok.el s c ((hl4 s).1 hs)).1) x hst
      obtain ⟨p', q', σ', g1, g2, g3, g4⟩ := Loop.step h2 h6 h5 h4 hsym (by rw [← h1]; exact hEL) (by rw [← h1]; exact hm2)
      exact ⟨_, g1, σ', rest, by rw [h1]; simp, g2, by simp only; omega, g4⟩)
  simp only [List.nil_append] at hr1 hp1 hq1 hlp
  have hrn : rest = [] := by
    have := congrArg List.length hr1
    rw [List.length_append] at this
    exact List.length_eq_zero_iff.1 (by omega)
  subst hrn
  obtain ⟨new, p2, σ2, f1, f2, f3⟩ := finStep hp1 q1
  obtain ⟨g1, g2, g3⟩ := hlp.fin f3 hsym (by simpa using hEL) (Or.inr (by simp))
  refine ⟨p2, new.reverse ++ q1, σ2, ?_, f2, f3.unmarked, g1, ?_, by have := f3.len; omega⟩
  · simp only [Fst.hopcroftStep, hl1, hi1, R.andThen_ok, ← hL, hf, f1, bind, Except.bind]
  · refine g2.weaken ?_
    intro a e e' s s' he he' hc hs hs'
    have := g3 a (by simp) e e' he he' hc
    rw [List.append_nil, hsrc, hsrc] at this
    constructor
    · intro h
      obtain ⟨s2, h1, h2⟩ := this.1 ⟨s, h, hs⟩
      rw [hdet _ _ _ _ hs' h2]; exact h1
    · intro h
      obtain ⟨s2, h1, h2⟩ := this.2 ⟨s', h, hs'⟩
      rw [hdet _ _ _ _ hs h2]; exact h1

theorem nc_le {p : Part} (hp : Part.Rep p σ) (hn : ∀ x, x < σ.nc → ∃ e, σ.cls e = some x) : σ.nc ≤ σ.n := by
  have hok := PState.ok_of_rep hp
  choose! φ hφ using hn
  have : ((List.range σ.nc).map φ).Nodup := by
    rw [List.nodup_map_iff_inj_on List.nodup_range]
    intro x hx y hy hxy
    have h1 := hφ x (List.mem_range.1 hx)
    have h2 := hφ y (List.mem_range.1 hy)
    rw [hxy, h2] at h1
    exact ((Option.some.inj h1)).symm
  have := Part.nodup_length_le this (n := σ.n) (by
    intro e he
    obtain ⟨x, hx, rfl⟩ := List.mem_map.1 he
    exact (hok.el _ _ (hφ x (List.mem_range.1 hx))).1)
  simpa using this

/-- The whole loop ends, with a partition whose classes have successors in the same classes. -/
theorem loop_ok {r : Fst V} (hr : RevOf n δ r) {merge : List (List (Tr V)) → List (Tr V)} (hmg : HeapMerge merge)
    (hdet : ∀ e a s s', δ e a s → δ e a s' → s = s') (hsym : ∀ e e', E e e' → E e' e)
    (hE : ∀ C : Nat → Prop, (∀ s s', s < n → s' < n → E s s' → C s → C s') → ∀ a e e' s, e < n → e' < n → E e e' → δ e a s → C s → ∃ s', δ e' a s' ∧ C s') :
    ∀ (k : Nat) {σ : PState} {q : List Nat} {p : Part}, Part.Rep p σ → (∀ e, σ.marked e = false) → Good n E K σ q → Pairs n δ σ q (fun _ => False) →
      q.length + (n - σ.nc) < k →
      ∃ p' σ', Fst.hopcroft merge r k p q = some (.ok p') ∧ Part.Rep p' σ' ∧ (∀ e, σ'.marked e = false) ∧ Good n E K σ' [] ∧
        Pairs n δ σ' [] (fun _ => False) := by
  intro k
  induction k with
  | zero => intro σ q p _ _ _ _ h; omega
  | succ k ih =>
    intro σ q p hp hm hg hpr hk
    cases q with
    | nil => exact ⟨p, σ, rfl, hp, hm, hg, hpr⟩
    | cons c q =>
      obtain ⟨p', q', σ', h1, h2, h3, h4, h5, h6⟩ := step_ok hr hmg hdet hsym hE hp hm hg hpr
      have n1 := nc_le hp hg.ne
      have n2 := nc_le h2 h4.ne
      rw [hg.num] at n1
      rw [h4.num] at n2
      simp only [List.length_cons] at hk
      obtain ⟨p2, σ2, g1, g2⟩ := ih h2 h3 h4 h5 (by omega)
      refine ⟨p2, σ2, ?_, g2⟩
      simp only [Fst.hopcroft, h1]
      exact g1

end Hop
end Verif
