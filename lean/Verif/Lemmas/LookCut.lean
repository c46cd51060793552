import Verif.Lemmas.LookPush

/-!
# Filters that look ahead follow the filter they wrap
-/

namespace Verif
universe u
variable {FS : Type}

section
variable {W : Type u} [CommMonoidWithZero W] [Add W] [DecidableEq W] {A B : Fst W} {F : ComposeFilter FS W} {ok : FS → Bool → Bool → Bool} {Valid : FS → Prop}

/-- The look ahead fails nowhere. -/
def LookTotal (c : LaCfg) (A B : Fst W) : Prop := ∀ s1 s2, s1 < A.numStates → s2 < B.numStates → ∃ r, c.look A B s1 s2 = .ok r

/-- What is cut off leads nowhere. -/
def LookCuts (c : LaCfg) (A B : Fst W) (F : ComposeFilter FS W) (ok : FS → Bool → Bool → Bool) (Valid : FS → Prop) : Prop :=
  ∀ t : CTup FS, t.Ok A B Valid → ∀ flt, F.filter A B t.s1 t.s2 t.fs = .ok flt → ∀ a b, (a, b) ∈ pairsU A B t.s1 t.s2 → ∀ fs, flt a b = some fs →
    c.looks (if c.out then a.olabel else b.ilabel) = true → c.look A B a.nextstate b.nextstate = .ok none → Dead A B ok ⟨fs, a.nextstate, b.nextstate⟩

theorem filter_next (hj : Joinable A B) (hF : FilterLaw A B F ok Valid) {t : CTup FS} (ht : t.Ok A B Valid) {flt} (hf : F.filter A B t.s1 t.s2 t.fs = .ok flt)
    {a b : Tr W} (hp : (a, b) ∈ pairsU A B t.s1 t.s2) {fs} (h : flt a b = some fs) : (⟨fs, a.nextstate, b.nextstate⟩ : CTup FS).Ok A B Valid := by
  have := tag_next hF hj ht (addTr a b fs, (if a.olabel = NO_LABEL then 0 else 1), (if b.ilabel = NO_LABEL then 0 else 1)) (by
    unfold composeTag
    rw [hf]
    exact (Multiset.mem_filterMap _ _).2 ⟨(a, b), hp, by rw [h]; rfl⟩)
  exact this

theorem lookFilter_follows {c : LaCfg} (hj : Joinable A B) (hF : FilterLaw A B F ok Valid) (hT : LookTotal c A B) (hC : LookCuts c A B F ok Valid) :
    Follows A B F (lookFilter c A B F) ok Valid id (fun _ => 1) (fun t => t.Ok A B Valid) where
  start := ⟨rfl, rfl, fun s1 s2 h1 h2 => ⟨hj.wf1.start_lt _ h1, hj.wf2.start_lt _ h2, hF.start.1⟩⟩
  lt t ht := ht
  step t ht := by
    obtain ⟨flt, hf, -⟩ := hF.step t.s1 t.s2 t.fs ht.1 ht.2.1 ht.2.2
    refine ⟨flt, _, hf, by simp only [lookFilter, hf]; rfl, fun a b hp => ⟨fun hn => by simp [lookFilterTr, hn], fun fs hs => ?_⟩⟩
    have hok := filter_next hj hF ht hf hp hs
    by_cases hl : c.looks (if c.out then a.olabel else b.ilabel) = true
    · obtain ⟨r, hr⟩ := hT _ _ hok.1 hok.2.1
      dsimp only at hr
      cases r with
      | none => exact .inl ⟨by simp only [lookFilterTr, hs, hl, if_true, hr], hC t ht flt hf a b hp fs hs hl hr⟩
      | some d => exact .inr ⟨fs, a.weight, b.weight, by simp only [lookFilterTr, hs, hl, if_true, hr], rfl, by rw [one_mul, mul_one], hok⟩
    · exact .inr ⟨fs, a.weight, b.weight, by simp only [lookFilterTr, hs, hl]; rfl, rfl, by rw [one_mul, mul_one], hok⟩
  final t ht w1 w2 _ _ := ⟨w1, w2, rfl, one_mul _⟩

theorem CTup.ok_finite (hv : {f | Valid f}.Finite) : {t : CTup FS | t.Ok A B Valid}.Finite := by
  have : {t : CTup FS | t.Ok A B Valid} ⊆ (fun x : FS × Nat × Nat => (⟨x.1, x.2.1, x.2.2⟩ : CTup FS)) '' ({f | Valid f} ×ˢ (Set.Iio A.numStates ×ˢ Set.Iio B.numStates)) := by
    rintro t ⟨h1, h2, h3⟩
    exact ⟨(t.fs, t.s1, t.s2), ⟨h3, h1, h2⟩, rfl⟩
  exact (Set.Finite.image _ (hv.prod ((Set.finite_Iio _).prod (Set.finite_Iio _)))).subset this

end

section
variable {W : Type} [CommMonoidWithZero W] [Add W] [DecidableEq W] {A B : Fst W} {F : ComposeFilter FS W} {ok : FS → Bool → Bool → Bool} {Valid : FS → Prop}

/-- A weight that can be pushed: `quantize` leaves it alone and one can divide by it. -/
structure Pushable (div quant : W → W → R W) (delta : W) (w : W) : Prop where
  ne : w ≠ 0
  quant : quant w delta = .ok w
  div : ∀ a, ∃ q, div a w = .ok q ∧ w * q = a

/-- The weights that are pushed on tuples of these states. -/
def PushedAt (c : LaCfg) (A B : Fst W) (s1 s2 : StateId) (w : W) : Prop :=
  w = 1 ∨ c.flags.weight = true ∧ ∃ d, c.look A B s1 s2 = .ok (some d) ∧ d.weight = w

theorem pushFilter_follows {c : LaCfg} {div quant : W → W → R W} {delta : W} (hj : Joinable A B) (hF : FilterLaw A B F ok Valid) (hT : LookTotal c A B)
    (hC : LookCuts c A B F ok Valid) (h1 : Pushable div quant delta 1)
    (hw : c.flags.weight = true → ∀ s1 s2 d, s1 < A.numStates → s2 < B.numStates → c.look A B s1 s2 = .ok (some d) → Pushable div quant delta d.weight) :
    Follows A B F (pushFilter div quant delta c A B F) ok Valid Prod.fst Prod.snd
      (fun t => (⟨t.fs.1, t.s1, t.s2⟩ : CTup FS).Ok A B Valid ∧ PushedAt c A B t.s1 t.s2 t.fs.2) where
  start := ⟨rfl, rfl, fun s1 s2 h1 h2 => ⟨⟨hj.wf1.start_lt _ h1, hj.wf2.start_lt _ h2, hF.start.1⟩, .inl rfl⟩⟩
  lt t ht := ht.1
  step t := by
    rintro ⟨ht, hp⟩
    have hg : Pushable div quant delta t.fs.2 := by
      rcases hp with e | ⟨hfl, d, hd, e⟩
      · rw [e]; exact h1
      · rw [← e]; exact hw hfl _ _ d ht.1 ht.2.1 hd
    have hone : c.flags.weight = false → t.fs.2 = 1 := by
      intro h0
      rcases hp with e | ⟨hfl, -⟩
      · exact e
      · rw [h0] at hfl; cases hfl
    obtain ⟨flt, hf, -⟩ := hF.step t.s1 t.s2 t.fs.1 ht.1 ht.2.1 ht.2.2
    refine ⟨flt, _, hf, by simp only [pushFilter, hf]; rfl, fun a b hpair => ⟨fun hn => by simp [pushFilterTr, lookFilterTr, hn], fun fs hs => ?_⟩⟩
    have hok := filter_next hj hF (t := ⟨t.fs.1, t.s1, t.s2⟩) ht hf hpair hs
    -- what remains once the weight to push is known
    have go : ∀ d : Option (LaData W), lookFilterTr c A B flt a b = .ok (some (fs, d)) →
        (∀ d', d = some d' → c.look A B a.nextstate b.nextstate = .ok (some d')) →
        ∃ fs' w1 w2, pushFilterTr div quant delta c A B flt t.fs.2 a b = .ok (some (fs', w1, w2)) ∧ fs'.1 = fs ∧
          t.fs.2 * (w1 * w2) = a.weight * b.weight * fs'.2 ∧ (⟨fs'.1, a.nextstate, b.nextstate⟩ : CTup FS).Ok A B Valid ∧ PushedAt c A B a.nextstate b.nextstate fs'.2 := by
      intro d hd hlk
      by_cases hfl : c.flags.weight = true
      · obtain ⟨lw, hlw⟩ : ∃ lw, lw = (match d with | some d => d.weight | none => (1 : W)) := ⟨_, rfl⟩
        have hP : Pushable div quant delta lw ∧ PushedAt c A B a.nextstate b.nextstate lw := by
          cases d with
          | none => subst hlw; exact ⟨h1, .inl rfl⟩
          | some d' => subst hlw; exact ⟨hw hfl _ _ d' hok.1 hok.2.1 (hlk d' rfl), .inr ⟨hfl, d', hlk d' rfl, rfl⟩⟩
        obtain ⟨q, hq1, hq2⟩ := hg.div (b.weight * lw)
        refine ⟨(fs, lw), a.weight, q, ?_, rfl, ?_, hok, hP.2⟩
        · simp only [pushFilterTr, hd, hfl, Bool.not_true, Bool.false_eq_true, if_false]
          cases d with
          | none => dsimp only at hlw; simp only [← hlw, if_neg hP.1.ne, hq1, hP.1.quant]
          | some d' => dsimp only at hlw; simp only [← hlw, if_neg hP.1.ne, hq1, hP.1.quant]
        · rw [mul_left_comm, hq2, mul_assoc]
      · have hfl' : c.flags.weight = false := by simpa using hfl
        refine ⟨(fs, 1), a.weight, b.weight, ?_, rfl, ?_, hok, .inl rfl⟩
        · simp [pushFilterTr, hd, hfl']
        · rw [hone hfl', one_mul, mul_one]
    by_cases hl : c.looks (if c.out then a.olabel else b.ilabel) = true
    · obtain ⟨r, hr⟩ := hT _ _ hok.1 hok.2.1
      dsimp only at hr
      cases r with
      | none => exact .inl ⟨by simp only [pushFilterTr, lookFilterTr, hs, hl, if_true, hr], hC _ ht flt hf a b hpair fs hs hl hr⟩
      | some d =>
        exact .inr (go (some d) (by simp only [lookFilterTr, hs, hl, if_true, hr]) (fun d' e => by rw [← e]; exact hr))
    · exact .inr (go none (by simp only [lookFilterTr, hs, hl]; rfl) (fun d' e => by cases e))
  final t := by
    rintro ⟨ht, hp⟩ w1 w2 _ _
    by_cases hfl : c.flags.weight = true
    · have hg : Pushable div quant delta t.fs.2 := by
        rcases hp with e | ⟨hfl, d, hd, e⟩
        · rw [e]; exact h1
        · rw [← e]; exact hw hfl _ _ d ht.1 ht.2.1 hd
      by_cases h0 : w1 = 0
      · exact ⟨w1, w2, by simp [pushFilter, h0], by rw [h0, zero_mul, mul_zero]⟩
      · obtain ⟨q, hq1, hq2⟩ := hg.div w1
        exact ⟨q, w2, by simp [pushFilter, h0, hfl, hq1], by rw [← mul_assoc, hq2]⟩
    · have h1 : t.fs.2 = 1 := by
        rcases hp with e | ⟨h, -⟩
        · exact e
        · exact absurd h hfl
      exact ⟨w1, w2, by simp [pushFilter, hfl], by rw [h1, one_mul]⟩

theorem pushed_finite (c : LaCfg) (hv : {f | Valid f}.Finite) :
    {t : CTup (FS × W) | (⟨t.fs.1, t.s1, t.s2⟩ : CTup FS).Ok A B Valid ∧ PushedAt c A B t.s1 t.s2 t.fs.2}.Finite := by
  have : {t : CTup (FS × W) | (⟨t.fs.1, t.s1, t.s2⟩ : CTup FS).Ok A B Valid ∧ PushedAt c A B t.s1 t.s2 t.fs.2} ⊆
      (fun x : CTup FS × Bool => (⟨(x.1.fs, if x.2 then (match c.look A B x.1.s1 x.1.s2 with | .ok (some d) => d.weight | _ => 1) else 1), x.1.s1, x.1.s2⟩ : CTup (FS × W))) ''
        ({t | t.Ok A B Valid} ×ˢ Set.univ) := by
    rintro ⟨⟨fs, w⟩, s1, s2⟩ ⟨h1, h2⟩
    rcases h2 with e | ⟨-, d, hd, e⟩
    · exact ⟨(⟨fs, s1, s2⟩, false), ⟨h1, trivial⟩, by simp only [Bool.false_eq_true, if_false]; rw [← e]⟩
    · refine ⟨(⟨fs, s1, s2⟩, true), ⟨h1, trivial⟩, ?_⟩
      dsimp only at hd e
      simp only [if_true, hd]
      rw [e]
  exact (Set.Finite.image _ ((CTup.ok_finite hv).prod Set.finite_univ)).subset this

end

/-! ### Cutting off -/

section
variable {W : Type u} [CommMonoidWithZero W] [Add W] [DecidableEq W] {A B : Fst W} {F : ComposeFilter FS W} {ok : FS → Bool → Bool → Bool} {Valid : FS → Prop}

theorem nz_le_zero {X Y : Multiset (PathT W)} (h : X ≤ Y) (h0 : nonzero Y = 0) : nonzero X = 0 := by
  rw [nonzero_eq_zero] at h0 ⊢
  exact fun p hp => h0 p (Multiset.mem_of_le h hp)

theorem sel_le (c : Bool) (X : Multiset (PathT W)) : sel c X ≤ X := by
  cases c
  · exact Multiset.zero_le _
  · exact le_refl _

theorem blocks_le (ok : Bool → Bool → Bool) (n m s1 s2) : blocks A B ok n m s1 s2 ≤ joinPaths (A.pathsFrom n s1) (B.pathsFrom m s2) := by
  rw [← blocks_all (ok := fun _ _ => true) (fun _ _ => rfl)]
  unfold blocks
  exact add_le_add (add_le_add (add_le_add (sel_le _ _) (sel_le _ _)) (sel_le _ _)) (sel_le _ _)

/-- Nothing can be joined from these states. -/
def NoJoin (A B : Fst W) (s1 s2 : StateId) : Prop := ∀ n m, nonzero (joinPaths (A.pathsFrom n s1) (B.pathsFrom m s2)) = 0

/-- A look ahead that is right about every pair of states cuts off nothing of use, with any filter. -/
theorem LookCuts.of_noJoin {c : LaCfg} (hj : Joinable A B) (hF : FilterLaw A B F ok Valid)
    (h : ∀ s1 s2, s1 < A.numStates → s2 < B.numStates → c.look A B s1 s2 = .ok none → NoJoin A B s1 s2) : LookCuts c A B F ok Valid := by
  intro t ht flt hf a b hp fs hs _ hl n m
  have hok := filter_next hj hF ht hf hp hs
  exact nz_le_zero (blocks_le _ _ _ _ _) (h _ _ hok.1 hok.2.1 hl n m)

/-- A look ahead on ε of the first FST that knows only of paths of the second FST that do not begin with ε, with `AltSequenceComposeFilter`. -/
theorem LookCuts.of_alt {c : LaCfg} (hj : Joinable A B) (h2 : B.AllCounters) (hout : c.out = true) (hne : c.flags.nonEpsilons = false)
    (h : ∀ s1 s2, s1 < A.numStates → s2 < B.numStates → c.look A B s1 s2 = .ok none →
      ∀ n m, nonzero (joinPaths (A.pathsFrom n s1) (pathsC Tr.ilabel B false m s2)) = 0) :
    LookCuts c A B altFilter (fun fs _ e2 => decide (fs ≠ 1) || !e2) (· ≤ 1) := by
  intro t ht flt hf a b hp fs hs hlk hl n m
  have hok := filter_next hj (altFilter_law hj h2) ht hf hp hs
  have hn := h _ _ hok.1 hok.2.1 hl n m
  dsimp only at hn
  rw [paths_cls Tr.olabel A, join_add_left] at hn
  have hbl : ∀ e1, nonzero (block A B e1 false n m a.nextstate b.nextstate) = 0 := by
    intro e1; cases e1
    · exact nz_le_zero (Multiset.le_add_left _ _) hn
    · exact nz_le_zero (Multiset.le_add_right _ _) hn
  simp only [hout, if_true, LaCfg.looks, hne] at hlk
  have ha0 : a.olabel = EPS := by
    by_contra h0; rw [if_neg h0] at hlk; cases hlk
  obtain ⟨al, no, he, hno, -⟩ := epsInfo_spec B h2 true t.s2 ht.2.1
  rw [sideLabel_true] at hno
  have ef : flt = altFilterTr al no t.fs := by
    simp only [altFilter, he] at hf
    injection hf with hf
    exact hf.symm
  rw [ef] at hs
  -- the pair is an ε of the first FST alone
  have hb : b.ilabel = NO_LABEL ∧ b.nextstate = t.s2 := by
    simp only [pairsU, Multiset.mem_add, Multiset.mem_map, Multiset.mem_bind] at hp
    rcases hp with ((⟨b', hb', e⟩ | ⟨a', ha', e⟩) | ⟨a', ha', b', hb', e⟩) | ⟨a', ha', b', hb', e⟩ <;> injection e with e1 e2 <;> subst e1 e2
    · exact absurd ha0 (by simp [loop1, NO_LABEL])
    · exact ⟨rfl, rfl⟩
    · simp [altFilterTr, (cls_label1 hj ha').1, (cls_label2 hj hb').1, ha0, eps_ne_no] at hs
    · exact absurd ha0 (by simpa [clsTrs] using (Multiset.mem_filter.1 ha').2)
  simp only [altFilterTr, hb.1, if_true] at hs
  unfold blocks
  simp only [nonzero_add]
  have e : ∀ e1, nonzero (sel (decide (fs ≠ 1) || !true) (block A B e1 true n m a.nextstate b.nextstate)) = 0 := by
    intro e1
    cases al
    · cases no
      · simp only [Bool.false_eq_true, if_false, Option.some.injEq] at hs
        subst hs
        rfl
      · refine nz_le_zero (sel_le _ _) (join_vanish_right ?_ _)
        rw [hb.2]; exact hno rfl m
    · simp at hs
  simp only [e, nz_sel_zero fun _ => hbl _, add_zero]

/-- A look ahead on ε of the second FST that knows only of paths of the first FST that do not begin with ε, with `SequenceComposeFilter`. -/
theorem LookCuts.of_seq {c : LaCfg} (hj : Joinable A B) (h1 : A.AllCounters) (hout : c.out = false) (hne : c.flags.nonEpsilons = false)
    (h : ∀ s1 s2, s1 < A.numStates → s2 < B.numStates → c.look A B s1 s2 = .ok none →
      ∀ n m, nonzero (joinPaths (pathsC Tr.olabel A false n s1) (B.pathsFrom m s2)) = 0) :
    LookCuts c A B seqFilter (fun fs e1 _ => decide (fs = 0) || !e1) (· ≤ 1) := by
  intro t ht flt hf a b hp fs hs hlk hl n m
  have hok := filter_next hj (seqFilter_law hj h1) ht hf hp hs
  have hn := h _ _ hok.1 hok.2.1 hl n m
  dsimp only at hn
  rw [paths_cls Tr.ilabel B, join_add_right] at hn
  have hbl : ∀ e2, nonzero (block A B false e2 n m a.nextstate b.nextstate) = 0 := by
    intro e2; cases e2
    · exact nz_le_zero (Multiset.le_add_left _ _) hn
    · exact nz_le_zero (Multiset.le_add_right _ _) hn
  simp only [hout, Bool.false_eq_true, if_false, LaCfg.looks, hne] at hlk
  have hb0 : b.ilabel = EPS := by
    by_contra h0; rw [if_neg h0] at hlk; cases hlk
  obtain ⟨al, no, he, hno, -⟩ := epsInfo_spec A h1 false t.s1 ht.1
  rw [sideLabel_false] at hno
  have ef : flt = seqFilterTr al no t.fs := by
    simp only [seqFilter, he] at hf
    injection hf with hf
    exact hf.symm
  rw [ef] at hs
  -- the pair is an ε of the second FST alone
  have ha : a.olabel = NO_LABEL ∧ a.nextstate = t.s1 := by
    simp only [pairsU, Multiset.mem_add, Multiset.mem_map, Multiset.mem_bind] at hp
    rcases hp with ((⟨b', hb', e⟩ | ⟨a', ha', e⟩) | ⟨a', ha', b', hb', e⟩) | ⟨a', ha', b', hb', e⟩ <;> injection e with e1 e2 <;> subst e1 e2
    · exact ⟨rfl, rfl⟩
    · exact absurd hb0 (by simp [loop2, NO_LABEL])
    · simp [seqFilterTr, (cls_label1 hj ha').1, (cls_label2 hj hb').1, (cls_label1 hj ha').2.2 rfl, eps_ne_no] at hs
    · have := Multiset.mem_of_mem_filter hb'
      exact absurd hb0 (by simpa [clsTrs] using (Multiset.mem_filter.1 this).2)
  simp only [seqFilterTr, ha.1, if_true] at hs
  unfold blocks
  simp only [nonzero_add]
  have e : ∀ e2, nonzero (sel (decide (fs = 0) || !true) (block A B true e2 n m a.nextstate b.nextstate)) = 0 := by
    intro e2
    cases al
    · cases no
      · simp only [Bool.false_eq_true, if_false, Option.some.injEq] at hs
        subst hs
        rfl
      · refine nz_le_zero (sel_le _ _) (join_vanish_left ?_ _)
        rw [ha.2]; exact hno rfl n
    · simp at hs
  simp only [e, nz_sel_zero fun _ => hbl _, add_zero]

end
end Verif
