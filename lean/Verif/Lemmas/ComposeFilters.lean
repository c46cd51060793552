import Verif.Lemmas.ComposeSum

/-! # The filters of the library meet the law -/

namespace Verif
universe u
variable {W : Type u}

section
variable [MonoidWithZero W] [DecidableEq W]

theorem vanish_eps {sel : Tr W → Label} {f : Fst W} {s} (h : ∀ t ∈ f.trsOf s, sel t ≠ EPS) : Vanishes sel f true s := by
  intro n
  cases n with
  | zero => rfl
  | succ n =>
    have : clsTrs sel f true s = 0 := by
      refine Multiset.eq_zero_of_forall_notMem fun t ht => ?_
      have := Multiset.mem_filter.1 ht
      exact h t (Multiset.mem_coe.1 this.1) (by simpa using this.2)
    simp [pathsC, this, nonzero]

theorem vanish_label {sel : Tr W → Label} {f : Fst W} {s} (h : ∀ t ∈ f.trsOf s, sel t = EPS) (hf : ∀ w, f.finOf s = some w → w = 0) : Vanishes sel f false s := by
  intro n
  cases n with
  | zero =>
    rw [nonzero_eq_zero]
    intro p hp
    cases hw : f.finOf s with
    | none => simp [pathsC, hw, finPath] at hp
    | some w => simp [pathsC, hw, finPath] at hp; subst hp; exact hf w hw
  | succ n =>
    have : clsTrs sel f false s = 0 := by
      refine Multiset.eq_zero_of_forall_notMem fun t ht => ?_
      have := Multiset.mem_filter.1 ht
      exact absurd (h t (Multiset.mem_coe.1 this.1)) (by simpa using this.2)
    simp [pathsC, this, nonzero]

/-- The two answers about a state mean what they say. -/
theorem epsInfo_spec (f : Fst W) (hc : f.AllCounters) (input : Bool) (s : StateId) (hs : s < f.numStates) :
    ∃ al no, epsInfo f input s = .ok (al, no) ∧ (no = true → Vanishes (sideLabel input) f true s) ∧ (al = true → Vanishes (sideLabel input) f false s) := by
  have g : f.states[s]? = some f.states[s] := List.getElem?_eq_getElem hs
  have ct := (Fst.countersOk_iff _).1 (hc s _ g)
  have hx : ∃ ne, (if input then f.numIEpsR s else f.numOEpsR s) = .ok ne ∧ ne = Fst.epsCount (sideLabel input) (f.trsOf s) := by
    cases input with
    | true => exact ⟨_, by simp [Fst.numIEpsR, g]; rfl, by rw [ct.1]; simp [Fst.trsOf, g, sideLabel_true]⟩
    | false => exact ⟨_, by simp [Fst.numOEpsR, g]; rfl, by rw [ct.2]; simp [Fst.trsOf, g, sideLabel_false]⟩
  obtain ⟨ne, h1, h2⟩ := hx
  have hn : f.numTrsR s = .ok (f.trsOf s).length := by simp [Fst.numTrsR, g, Fst.trsOf]
  have hfn : f.isFinalR s = .ok (match f.finOf s with | some w => !isZeroW w | none => false) := by simp [Fst.isFinalR, g, Fst.finOf]; rfl
  refine ⟨_, _, by simp only [epsInfo, hn, h1, hfn]; rfl, ?_, ?_⟩
  · intro h0
    rw [decide_eq_true_eq, h2, Fst.epsCount_eq_zero] at h0
    exact vanish_eps h0
  · intro h0
    rw [Bool.and_eq_true, decide_eq_true_eq, h2] at h0
    obtain ⟨ha, hb⟩ := h0
    refine vanish_label ?_ ?_
    · have := (List.length_filter_eq_length_iff (p := fun t => decide (sideLabel input t = EPS)) (l := f.trsOf s)).1 ha.symm
      exact fun t ht => by simpa using this t ht
    · intro w hw
      rw [hw] at hb
      simpa [isZeroW] using hb

variable {A B : Fst W}

omit [MonoidWithZero W] [DecidableEq W] in
theorem cls_label1 (hc : Joinable A B) {s e} {a : Tr W} (ha : a ∈ clsTrs Tr.olabel A e s) : a.olabel ≠ NO_LABEL ∧ (a.olabel = EPS ↔ e = true) := by
  have h := Multiset.mem_filter.1 ha
  refine ⟨hc.noLabel1 _ _ (Multiset.mem_coe.1 h.1), ?_⟩
  rw [← h.2]; simp

omit [MonoidWithZero W] [DecidableEq W] in
theorem cls_label2 (hc : Joinable A B) {s e} {a : Tr W} (ha : a ∈ clsTrs Tr.ilabel B e s) : a.ilabel ≠ NO_LABEL ∧ (a.ilabel = EPS ↔ e = true) := by
  have h := Multiset.mem_filter.1 ha
  refine ⟨hc.noLabel2 _ _ (Multiset.mem_coe.1 h.1), ?_⟩
  rw [← h.2]; simp

theorem eps_ne_no : (EPS : Nat) ≠ NO_LABEL := by decide

/-- In state 1 the second FST has begun to read ε, so the first must not, until a label is matched. -/
theorem seqFilter_law (hc : Joinable A B) (h1 : A.AllCounters) :
    FilterLaw A B seqFilter (fun fs e1 _ => decide (fs = 0) || !e1) (· ≤ 1) where
  start := ⟨by simp [seqFilter], by simp [seqFilter]⟩
  step s1 s2 fs hs1 hs2 hv := by
    obtain ⟨al, no, he, hno, hal⟩ := epsInfo_spec A h1 false s1 hs1
    rw [sideLabel_false] at hno hal
    refine ⟨seqFilterTr al no fs, by simp [seqFilter, he], if fs ≠ 0 then none else some 0, if al then none else if no then some 0 else some 1, none, 0,
      fun e1 => !e1, fun _ => decide (fs = 0), ?_⟩
    constructor
    · intro a ha
      simp [seqFilterTr, loop2, (cls_label1 hc ha).1]
    · intro b hb
      simp [seqFilterTr, loop1]
    · intro a ha b hb
      simp [seqFilterTr, (cls_label1 hc ha).1, (cls_label2 hc hb).1, (cls_label1 hc ha).2.2 rfl, eps_ne_no]
    · intro a ha b hb
      have := (cls_label1 hc ha).2
      simp [seqFilterTr, (cls_label1 hc ha).1, (cls_label2 hc hb).1]
      simpa using this
    · simp
    · simp
    · intro f hf
      cases al with
      | true => simp at hf
      | false =>
        cases no with
        | true =>
          simp at hf; subst hf
          refine ⟨by simp, fun e1 e2 => ?_⟩
          cases e1
          · right; rfl
          · left; exact hno rfl
        | false => simp at hf; subst hf; simp
    · intro hn e1 he1
      cases al with
      | true =>
        cases e1 with
        | true => simp at he1
        | false => exact hal rfl
      | false => cases no <;> simp at hn
    · intro f hf
      by_cases h0 : fs = 0
      · simp [h0] at hf; subst hf; simp [h0]
      · simp [h0] at hf
    · intro hn e2 h2
      by_cases h0 : fs = 0
      · simp [h0] at hn
      · simp [h0] at h2
    · by_cases h0 : fs = 0 <;> simp [h0]
    · simp
    · simp
    · simp

/-- The mirror image. -/
theorem altFilter_law (hc : Joinable A B) (h2 : B.AllCounters) :
    FilterLaw A B altFilter (fun fs _ e2 => decide (fs ≠ 1) || !e2) (· ≤ 1) where
  start := ⟨by simp [altFilter], by simp [altFilter]⟩
  step s1 s2 fs hs1 hs2 hv := by
    obtain ⟨al, no, he, hno, hal⟩ := epsInfo_spec B h2 true s2 hs2
    rw [sideLabel_true] at hno hal
    refine ⟨altFilterTr al no fs, by simp [altFilter, he], if al then none else if no then some 0 else some 1, if fs = 1 then none else some 0, none, 0,
      fun _ => decide (fs ≠ 1), fun e2 => !e2, ?_⟩
    constructor
    · intro a ha
      simp [altFilterTr, loop2]
    · intro b hb
      simp [altFilterTr, loop1, (cls_label2 hc hb).1]
    · intro a ha b hb
      simp [altFilterTr, (cls_label1 hc ha).1, (cls_label2 hc hb).1, (cls_label1 hc ha).2.2 rfl, eps_ne_no]
    · intro a ha b hb
      have := (cls_label1 hc ha).2
      simp [altFilterTr, (cls_label1 hc ha).1, (cls_label2 hc hb).1]
      simpa using this
    · simp
    · simp
    · intro f hf
      by_cases h0 : fs = 1
      · simp [h0] at hf
      · simp [h0] at hf; subst hf; simp [h0]
    · intro hn e2 h2
      by_cases h0 : fs = 1
      · simp [h0] at h2
      · simp [h0] at hn
    · intro f hf
      cases al with
      | true => simp at hf
      | false =>
        cases no with
        | true =>
          simp at hf; subst hf
          refine ⟨by simp, fun e1 e2 => ?_⟩
          cases e2
          · right; rfl
          · left; exact hno rfl
        | false => simp at hf; subst hf; simp
    · intro hn e1 he1
      cases al with
      | true =>
        cases e1 with
        | true => simp at he1
        | false => exact hal rfl
      | false => cases no <;> simp at hn
    · by_cases h0 : fs = 1 <;> simp [h0]
    · simp
    · simp
    · simp

/-- The pairs that `MatchComposeFilter` still has to let through in each of its three states. -/
def matchOk (fs : Nat) (e1 e2 : Bool) : Bool := if fs = 0 then true else if fs = 1 then !e2 else !e1

theorem matchFilter_law (hc : Joinable A B) (h1 : A.AllCounters) (h2 : B.AllCounters) :
    FilterLaw A B matchFilter matchOk (· ≤ 2) where
  start := ⟨by simp [matchFilter], by simp [matchFilter, matchOk]⟩
  step s1 s2 fs hs1 hs2 hv := by
    obtain ⟨al1, no1, he1, hno1, hal1⟩ := epsInfo_spec A h1 false s1 hs1
    obtain ⟨al2, no2, he2, hno2, hal2⟩ := epsInfo_spec B h2 true s2 hs2
    rw [sideLabel_false] at hno1 hal1
    rw [sideLabel_true] at hno2 hal2
    refine ⟨matchFilterTr al1 no1 al2 no2 fs, by simp [matchFilter, he1, he2],
      if fs = 0 then (if no2 then some 0 else if al2 then none else some 1) else if fs = 1 then some 1 else none,
      if fs = 0 then (if no1 then some 0 else if al1 then none else some 2) else if fs = 2 then some 2 else none,
      if fs = 0 then some 0 else none, 0,
      fun e1 => decide (fs ≠ 1) && !e1, fun e2 => decide (fs ≠ 2) && !e2, ?_⟩
    have hf3 : fs = 0 ∨ fs = 1 ∨ fs = 2 := by omega
    constructor
    · intro a ha
      simp [matchFilterTr, loop2]
    · intro b hb
      simp [matchFilterTr, loop1, (cls_label2 hc hb).1]
    · intro a ha b hb
      simp [matchFilterTr, (cls_label1 hc ha).1, (cls_label2 hc hb).1, (cls_label1 hc ha).2.2 rfl, eps_ne_no]
    · intro a ha b hb
      have := (cls_label1 hc ha).2
      have h' : a.olabel ≠ EPS := by simpa using this
      simp [matchFilterTr, (cls_label1 hc ha).1, (cls_label2 hc hb).1, h']
    · simp [matchOk]
    · intro f hf
      by_cases h0 : fs = 0
      · simp [h0] at hf; subst hf; simp [matchOk]
      · simp [h0] at hf
    · intro f hf
      rcases hf3 with rfl | rfl | rfl
      · simp only [if_true] at hf
        cases no1 with
        | true =>
          simp at hf; subst hf
          refine ⟨by simp, fun e1 e2 => ?_⟩
          cases e1
          · right; rfl
          · left; exact hno1 rfl
        | false =>
          cases al1 with
          | true => simp at hf
          | false => simp at hf; subst hf; simp [matchOk]
      · simp at hf
      · simp at hf; subst hf; simp [matchOk]
    · intro hn e1 h
      rcases hf3 with rfl | rfl | rfl
      · cases no1 <;> cases al1 <;> simp at hn
        cases e1 with
        | true => simp at h
        | false => exact hal1 rfl
      · simp at h
      · simp at hn
    · intro f hf
      rcases hf3 with rfl | rfl | rfl
      · simp only [if_true] at hf
        cases no2 with
        | true =>
          simp at hf; subst hf
          refine ⟨by simp, fun e1 e2 => ?_⟩
          cases e2
          · right; rfl
          · left; exact hno2 rfl
        | false =>
          cases al2 with
          | true => simp at hf
          | false => simp at hf; subst hf; simp [matchOk]
      · simp at hf; subst hf; simp [matchOk]
      · simp at hf
    · intro hn e1 h
      rcases hf3 with rfl | rfl | rfl
      · cases no2 <;> cases al2 <;> simp at hn
        cases e1 with
        | true => simp at h
        | false => exact hal2 rfl
      · simp at hn
      · simp at h
    · rcases hf3 with rfl | rfl | rfl <;> simp [matchOk]
    · rcases hf3 with rfl | rfl | rfl <;> simp [matchOk]
    · rcases hf3 with rfl | rfl | rfl <;> simp [matchOk]
    · rcases hf3 with rfl | rfl | rfl <;> simp [matchOk]

/-! ### Filters that know nothing of ε -/

/-- The FST has no transition with an ε on the side of the other FST. -/
def NoEps (sel : Tr W → Label) (f : Fst W) : Prop := ∀ s, ∀ t ∈ f.trsOf s, sel t ≠ EPS

omit [MonoidWithZero W] [DecidableEq W] in
theorem NoEps.cls {sel : Tr W → Label} {f : Fst W} (h : NoEps sel f) {s} {t : Tr W} (ht : t ∈ clsTrs sel f true s) : False := by
  have := Multiset.mem_filter.1 ht
  exact h s t (Multiset.mem_coe.1 this.1) (by simpa using this.2)

theorem nullFilter_law (hc : Joinable A B) (h1 : NoEps Tr.olabel A) (h2 : NoEps Tr.ilabel B) :
    FilterLaw A B nullFilter (fun _ _ _ => true) (fun _ => True) where
  start := ⟨trivial, fun _ _ => rfl⟩
  step s1 s2 fs hs1 hs2 hv := by
    refine ⟨_, rfl, some (), some (), some (), (), fun e => !e, fun e => !e, ?_⟩
    constructor
    · exact fun a ha => (h1.cls ha).elim
    · exact fun a ha => (h2.cls ha).elim
    · exact fun a ha => (h1.cls ha).elim
    · intro a ha b hb
      simp [(cls_label1 hc ha).1, (cls_label2 hc hb).1]
    · simp
    · simp
    · intro f _
      refine ⟨trivial, fun e1 _ => ?_⟩
      cases e1
      · right; rfl
      · left; exact vanish_eps (h1 s1)
    · simp
    · intro f _
      refine ⟨trivial, fun _ e2 => ?_⟩
      cases e2
      · right; rfl
      · left; exact vanish_eps (h2 s2)
    · simp
    · rfl
    · rfl
    · rfl
    · rfl

theorem oneSided_law {F : ComposeFilter Unit W} (hF : ∀ s1 s2, ∃ flt, F.filter A B s1 s2 () = .ok flt ∧ (∀ a b, a.olabel ≠ EPS ∨ b.ilabel ≠ EPS → flt a b = some ()))
    (h : NoEps Tr.olabel A ∨ NoEps Tr.ilabel B) :
    FilterLaw A B F (fun _ _ _ => true) (fun _ => True) where
  start := ⟨trivial, fun _ _ => rfl⟩
  step s1 s2 fs hs1 hs2 hv := by
    obtain ⟨flt, h1, h2⟩ := hF s1 s2
    have hA : ∀ a ∈ clsTrs Tr.olabel A true s1, flt a (loop2 s2) = some () := fun a _ => h2 _ _ (.inr (by simp [loop2, NO_LABEL]))
    have hB : ∀ b ∈ clsTrs Tr.ilabel B true s2, flt (loop1 s1) b = some () := fun a _ => h2 _ _ (.inl (by simp [loop1, NO_LABEL]))
    have hM : ∀ a ∈ clsTrs Tr.olabel A false s1, ∀ b ∈ clsTrs Tr.ilabel B false s2, flt a b = some () := fun a ha b _ =>
      h2 _ _ (.inl (by simpa [clsTrs] using (Multiset.mem_filter.1 ha).2))
    rcases h with h | h
    · refine ⟨flt, h1, some (), some (), none, (), fun e => !e, fun _ => true, ?_⟩
      constructor
      · exact hA
      · exact hB
      · exact fun a ha => (h.cls ha).elim
      · exact hM
      · simp
      · simp
      · intro f _
        refine ⟨trivial, fun e1 _ => ?_⟩
        cases e1
        · right; rfl
        · left; exact vanish_eps (h s1)
      · simp
      · simp
      · simp
      · rfl
      · rfl
      · rfl
      · rfl
    · refine ⟨flt, h1, some (), some (), none, (), fun _ => true, fun e => !e, ?_⟩
      constructor
      · exact hA
      · exact hB
      · exact fun _ _ b hb => (h.cls hb).elim
      · exact hM
      · simp
      · simp
      · simp
      · simp
      · intro f _
        refine ⟨trivial, fun _ e2 => ?_⟩
        cases e2
        · right; rfl
        · left; exact vanish_eps (h s2)
      · simp
      · rfl
      · rfl
      · rfl
      · rfl

theorem trivialFilter_law (h : NoEps Tr.olabel A ∨ NoEps Tr.ilabel B) : FilterLaw A B trivialFilter (fun _ _ _ => true) (fun _ => True) :=
  oneSided_law (fun _ _ => ⟨_, rfl, fun _ _ _ => rfl⟩) h

theorem noMatchFilter_law (h : NoEps Tr.olabel A ∨ NoEps Tr.ilabel B) : FilterLaw A B noMatchFilter (fun _ _ _ => true) (fun _ => True) :=
  oneSided_law (fun _ _ => ⟨_, rfl, fun a b hab => by simp only [if_pos hab]⟩) h

end
end Verif
