import Verif.Lemmas.Encode
import Verif.Props.C21
import Verif.Lemmas.Embed

/-! # C22: `encode` and `decode` -/

namespace Verif
set_option linter.unusedSectionVars false
universe u

section
variable {W : Type u} [Zero W] [One W] [DecidableEq W]

theorem forall₂_mem_right {α β : Type*} {r : α → β → Prop} {a : List α} {b : List β} (h : List.Forall₂ r a b) {y} (hy : y ∈ b) :
    ∃ x ∈ a, r x y := by
  induction h with
  | nil => cases hy
  | cons hxy _ ih =>
    rcases List.mem_cons.1 hy with rfl | hy
    · exact ⟨_, List.mem_cons_self, hxy⟩
    · obtain ⟨x, hx, h⟩ := ih hy
      exact ⟨x, List.mem_cons_of_mem _ hx, h⟩

theorem Encoded.tr {ty : EncodeType} {T : EncTable W} {f g : Fst W} (h : Encoded ty T f g) {s} {t : Tr W} (ht : t ∈ g.trsOf s) :
    ∃ x, T.Code t.ilabel x ∧ (ty.labels = true → t.olabel = t.ilabel) ∧ (ty.weights = true → t.weight = 1) := by
  have key : ∀ {a : Tr W}, EncTr ty T a t → ∃ x, T.Code t.ilabel x ∧ (ty.labels = true → t.olabel = t.ilabel) ∧
      (ty.weights = true → t.weight = 1) := by
    rintro a ⟨h1, h2, h3, -⟩
    refine ⟨_, h1, fun hl => ?_, fun hw => ?_⟩
    · rw [h2, if_pos hl]
    · rw [h3, if_pos hw]
  by_cases hw : ty.weights = true
  · by_cases hs : s < f.numStates
    · obtain ⟨-, ts, e, h1, h2, h3⟩ := h.weights hw s hs
      rw [h1, List.mem_append] at ht
      rcases ht with ht | ht
      · obtain ⟨a, -, ha⟩ := forall₂_mem_right h2 ht
        exact key ha
      · cases hf : f.finOf s with
        | none => rw [hf] at h3; rw [show e = [] from h3] at ht; cases ht
        | some w =>
          rw [hf] at h3
          obtain ⟨l, hl, he⟩ := h3
          rw [he, List.mem_singleton] at ht
          subst ht
          exact ⟨_, hl, fun hl => if_pos hl, fun _ => rfl⟩
    · by_cases hs' : s = f.numStates
      · rw [hs', (h.super hw).1] at ht; cases ht
      · rw [Fst.trsOf_of_ge (by rw [h.num, if_pos hw]; omega)] at ht; cases ht
  · obtain ⟨h1, -⟩ := h.labels (by simpa using hw) s
    obtain ⟨a, -, ha⟩ := forall₂_mem_right h1 ht
    exact key ha

theorem Encoded.get {ty : EncodeType} {T : EncTable W} {f g : Fst W} (h : Encoded ty T f g) {s i : Nat} {t : Tr W}
    (ht : (f.trsOf s)[i]? = some t) : ∃ t', (g.trsOf s)[i]? = some t' ∧ EncTr ty T t t' := by
  obtain ⟨hi, rfl⟩ := List.getElem?_eq_some_iff.1 ht
  have hs : s < f.numStates := by
    by_contra hc
    rw [Fst.trsOf_of_ge (by omega)] at hi
    simp at hi
  by_cases hw : ty.weights = true
  · obtain ⟨-, ts, e, h1, h2, -⟩ := h.weights hw s hs
    have hl : i < ts.length := by rw [← h2.length_eq]; exact hi
    refine ⟨ts[i], ?_, List.Forall₂.get h2 hi hl⟩
    rw [h1, List.getElem?_append_left hl, List.getElem?_eq_getElem hl]
  · obtain ⟨h1, -⟩ := h.labels (by simpa using hw) s
    have hl : i < (g.trsOf s).length := by rw [← h1.length_eq]; exact hi
    exact ⟨_, List.getElem?_eq_getElem hl, List.Forall₂.get h1 hi hl⟩

/-- C22, what `encode` guarantees for every FST with a start state: it succeeds; if labels are encoded the result is an acceptor; if
weights are encoded all its weights are one; no encoded transition has an ε input label; and two transitions receive the same input label
exactly when the encoded parts of them (input label; output label if labels are encoded; weight if weights are encoded) agree. -/
theorem C22_encode (f : Fst W) (hs : f.start ≠ none) (ty : EncodeType) : ∃ T g, f.encode ty = .ok (T, g) ∧
    (ty.labels = true → ∀ s, ∀ t ∈ g.trsOf s, t.ilabel = t.olabel) ∧
    (ty.weights = true → (∀ s, ∀ t ∈ g.trsOf s, t.weight = 1) ∧ ∀ s w, g.finOf s = some w → w = 1) ∧
    (∀ s, ∀ t ∈ g.trsOf s, t.ilabel ≠ EPS) ∧
    (∀ (s i s' i' : Nat) (t u : Tr W), (f.trsOf s)[i]? = some t → (f.trsOf s')[i']? = some u → ∃ t' u', (g.trsOf s)[i]? = some t' ∧
      (g.trsOf s')[i']? = some u' ∧ (t'.ilabel = u'.ilabel ↔ t.ilabel = u.ilabel ∧ (ty.labels = true → t.olabel = u.olabel) ∧
        (ty.weights = true → t.weight = u.weight))) := by
  obtain ⟨T, g, hg, h⟩ := encode_spec f hs ty
  refine ⟨T, g, hg, ?_, ?_, ?_, ?_⟩
  · intro hl s t ht
    obtain ⟨x, -, h2, -⟩ := h.tr ht
    exact (h2 hl).symm
  · intro hw
    refine ⟨fun s t ht => ?_, fun s w hf => ?_⟩
    · obtain ⟨x, -, -, h3⟩ := h.tr ht
      exact h3 hw
    · by_cases hs : s < f.numStates
      · rw [(h.weights hw s hs).1] at hf; cases hf
      · by_cases hs' : s = f.numStates
        · rw [hs', (h.super hw).2] at hf; cases hf; rfl
        · rw [Fst.finOf_of_ge (by rw [h.num, if_pos hw]; omega)] at hf; cases hf
  · intro s t ht
    obtain ⟨x, h1, -⟩ := h.tr ht
    have := h1.1
    omega
  · intro s i s' i' t u ht hu
    obtain ⟨t', ht', a⟩ := h.get ht
    obtain ⟨u', hu', b⟩ := h.get hu
    refine ⟨t', u', ht', hu', ?_⟩
    rw [a.1.inj h.ok b.1]
    unfold toTuple
    rw [FinalTr.mk.injEq]
    cases ty.labels <;> cases ty.weights <;> simp

/-! ## Decoding -/

theorem decode_code {T : EncTable W} {l x} (h : T.Code l x) : T.decode l = .ok x := by
  unfold EncTable.decode
  have : l ≠ 0 := by have := h.1; omega
  rw [if_neg this, h.2]

theorem decodeTr_enc {ty : EncodeType} {T : EncTable W} {t t' : Tr W} (h : EncTr ty T t t') : decodeTr ty T t' = .ok t := by
  obtain ⟨h1, h2, h3, h4⟩ := h
  unfold decodeTr
  rw [decode_code h1]
  unfold toTuple
  simp only
  obtain ⟨a, b, c, d⟩ := t
  simp only at h1 h2 h3 h4
  rw [h2, h3, h4]
  cases ty.labels <;> cases ty.weights <;> simp

/-- The ε-transition that stands for a final weight after decoding. -/
def finTrs (n : StateId) : Option W → List (Tr W)
  | none => []
  | some w => [⟨EPS, EPS, w, n⟩]

theorem decodeTr_extra {ty : EncodeType} {T : EncTable W} {n o e} (hw : ty.weights = true) (h : EncExtra ty T n o e) :
    List.Forall₂ (fun t t' => decodeTr ty T t = .ok t') e (finTrs n o) := by
  cases o with
  | none => rw [show e = [] from h]; exact .nil
  | some w =>
    obtain ⟨l, hl, rfl⟩ := h
    refine .cons ?_ .nil
    unfold decodeTr
    rw [decode_code hl]
    unfold toTuple
    simp only [hw, if_true]
    cases ty.labels <;> rfl

theorem forall₂_fun {r : Tr W → R (Tr W)} {a b c : List (Tr W)} (h1 : List.Forall₂ (fun t t' => r t = .ok t') a b)
    (h2 : List.Forall₂ (fun t t' => r t = .ok t') a c) : b = c := by
  induction h1 generalizing c with
  | nil => cases h2; rfl
  | cons h _ ih =>
    cases h2 with
    | cons h' hc =>
      rw [h] at h'
      cases h'
      rw [ih hc]

/-- `tr_map` with the decoder on an encoded FST. -/
theorem decode_map {ty : EncodeType} {T : EncTable W} {f g : Fst W} (h : Encoded ty T f g) (hs : f.start ≠ none) :
    ∃ k, g.trMap (decodeMapper ty T) () = .ok ((), k) ∧ k.start = f.start ∧ k.numStates = g.numStates ∧
      (∀ s, k.finOf s = g.finOf s) ∧
      (ty.weights = false → ∀ s, k.trsOf s = f.trsOf s) ∧
      (ty.weights = true → ∀ s, s < f.numStates → k.trsOf s = f.trsOf s ++ finTrs f.numStates (f.finOf s)) := by
  obtain ⟨p, hp⟩ : ∃ p : Props → Props, decodeMapper ty T = Mapper.simple (decodeTr ty T) .ok p := ⟨_, rfl⟩
  rw [hp]
  obtain ⟨h1, h2⟩ := C50_simple (tr := decodeTr ty T) (fin := fun w => .ok w) (p := p) g (by rw [h.start]; exact hs)
  obtain ⟨k, hk⟩ := h1.2 ⟨fun s t ht => by
    obtain ⟨x, hx, -⟩ := h.tr ht
    unfold decodeTr
    rw [decode_code hx]
    exact ⟨_, rfl⟩, fun _ w _ => ⟨_, rfl⟩⟩
  obtain ⟨hm, -⟩ := h2 k hk
  refine ⟨k, hk, hm.start.trans h.start, hm.num, ?_, ?_, ?_⟩
  · intro s
    have := rel_ok (k := id) (hm.fin s)
    simpa using this
  · intro hw s
    refine forall₂_fun (hm.trs s) ?_
    have := (h.labels hw s).1
    exact (List.Forall₂.imp (fun _ _ => decodeTr_enc) this).flip
  · intro hw s hs
    obtain ⟨-, ts, e, e1, e2, e3⟩ := h.weights hw s hs
    refine forall₂_fun (hm.trs s) ?_
    rw [e1]
    exact List.rel_append (List.Forall₂.imp (fun _ _ => decodeTr_enc) e2).flip (decodeTr_extra hw e3)

end

section rt
variable {W : Type u} [Semiring W] [DecidableEq W]

namespace Fst

/-- Zero final weights removed: the state is no longer final. -/
def nonzeroFin (f : Fst W) (s : StateId) : Option W := match f.finOf s with
  | none => none
  | some w => if w = 0 then none else some w

theorem total_nonzero {f g : Fst W} (ht : ∀ s, g.trsOf s = f.trsOf s) (hf : ∀ s, g.finOf s = f.nonzeroFin s) :
    ∀ n s F, total (g.pathsFrom n s) F = total (f.pathsFrom n s) F := by
  intro n
  induction n with
  | zero =>
    intro s F
    rw [pathsFrom_zero, pathsFrom_zero, hf]
    unfold nonzeroFin
    cases f.finOf s with
    | none => rfl
    | some w =>
      simp only
      by_cases hw : w = 0
      · rw [if_pos hw, hw]; simp [total]
      · rw [if_neg hw]
  | succ n ih =>
    intro s F
    rw [total_succ, total_succ, ht]
    congr 1
    refine List.map_congr_left fun t _ => ?_
    rw [ih]

end Fst

open Fst in
/-- C22, round trip when weights are encoded (with or without labels): for every well-formed FST with a start state, decoding the
encoded FST succeeds. It has exactly the accepting paths of the original, with their labels and weights, if no final weight is zero; in
general it gives every pair of strings the same weight (only accepting paths that end in a zero final weight disappear). -/
theorem C22_round_trip_weights (f : Fst W) (hw : f.WF) (hs : f.start ≠ none) (ty : EncodeType) (hty : ty.weights = true) :
    ∃ T g h, f.encode ty = .ok (T, g) ∧ g.decode ty T = .ok h ∧
      ((∀ s, f.finOf s ≠ some 0) → ∀ n, h.accPaths n = f.accPaths n) ∧ (∀ n x y, h.weightOf n x y = f.weightOf n x y) ∧
      ∀ q, q < h.numStates → h.Accessible q ∧ h.Coaccessible q := by
  obtain ⟨T, g, hg, he⟩ := encode_spec f hs ty
  obtain ⟨k, hk, k1, k2, k3, -, k4⟩ := decode_map he hs
  have k4 := k4 hty
  have hkn : k.numStates = f.numStates + 1 := by rw [k2, he.num, if_pos hty]
  have hkt : k.trsOf f.numStates = [] := by
    have := (he.super hty).1
    have hm : List.Forall₂ (fun t t' => decodeTr ty T t = .ok t') (g.trsOf f.numStates) (k.trsOf f.numStates) := by
      have h2 := (C50_simple (tr := decodeTr ty T) (fin := fun w => .ok w) (p := (decodeMapper ty T).props) g
        (by rw [he.start]; exact hs)).2 k hk
      exact h2.1.trs _
    rw [this] at hm
    exact List.forall₂_nil_left_iff.1 hm
  have hkt' : ∀ s, f.numStates ≤ s → k.trsOf s = [] := by
    intro s hs
    by_cases e : s = f.numStates
    · rw [e]; exact hkt
    · exact trsOf_of_ge (by omega)
  have hkf : ∀ s, k.finOf s = if s = f.numStates then some 1 else none := by
    intro s
    rw [k3]
    by_cases e : s = f.numStates
    · rw [if_pos e, e, (he.super hty).2]
    · rw [if_neg e]
      by_cases h : s < f.numStates
      · exact (he.weights hty s h).1
      · exact finOf_of_ge (by rw [he.num, if_pos hty]; omega)
  have hfin : ∀ {s o t}, t ∈ finTrs s o → ∃ w : W, o = some w ∧ t = ⟨EPS, EPS, w, s⟩ := by
    intro s o t ht
    cases o with
    | none => cases ht
    | some w => exact ⟨w, rfl, by simpa [finTrs] using ht⟩
  have hkw : k.WF := by
    constructor
    · intro i hi; rw [hkn]; have := hw.start_lt i (k1 ▸ hi); omega
    · intro s t ht
      rw [hkn]
      by_cases h : s < f.numStates
      · rw [k4 s h, List.mem_append] at ht
        rcases ht with ht | ht
        · have := hw.next_lt s t ht; omega
        · obtain ⟨w, -, rfl⟩ := hfin ht
          exact Nat.lt_succ_self _
      · rw [hkt' s (by omega)] at ht; cases ht
  obtain ⟨i, hi⟩ : ∃ i, f.start = some i := Option.ne_none_iff_exists'.1 hs
  have Rr := Scc.sccVisit_spec hkw (k1.trans hi) (fun _ => true)
  have hdead : ∀ s, k.deadEnds (k.sccVisit fun _ => true).coaccess s = decide (s = f.numStates) := by
    intro s
    unfold deadEnds
    rw [hkf]
    by_cases e : s = f.numStates
    · subst e
      rw [hkt]
      simp
    · simp [e]
  have hdead' : k.deadEnds (k.sccVisit fun _ => true).coaccess = fun s => decide (s = f.numStates) := funext hdead
  obtain ⟨m, m1, m2, m3, m4, -, m6⟩ := rmFinal_loop k hkw (k.deadEnds (k.sccVisit fun _ => true).coaccess)
  rw [hdead'] at m1 m4 m6
  obtain ⟨D, hD⟩ : ∃ D : StateId → Bool, D = fun s => decide (s = f.numStates) := ⟨_, rfl⟩
  rw [← hD] at m1 m4 m6
  have m6 := m6 (by
    intro q t hq ht
    rw [hD] at hq
    simp only [decide_eq_true_eq] at hq
    rw [hq, hkt] at ht; cases ht)
  have hold : ∀ s, ∀ t ∈ f.trsOf s, toDeadEnd D t = false := by
    intro s t ht
    unfold toDeadEnd
    have := hw.next_lt s t ht
    have : D t.nextstate = false := by rw [hD]; simp; omega
    rw [this]; rfl
  have hnew : ∀ w : W, toDeadEnd D (⟨EPS, EPS, w, f.numStates⟩ : Tr W) = true := by
    intro w; unfold toDeadEnd; rw [hD]; simp
  have hpos : ∀ s, (f.trsOf s ++ finTrs f.numStates (f.finOf s)).filter (fun t => !toDeadEnd D t) = f.trsOf s := by
    intro s
    rw [List.filter_append]
    have h1 : (f.trsOf s).filter (fun t => !toDeadEnd D t) = f.trsOf s := by
      rw [List.filter_eq_self]
      intro t ht
      rw [hold s t ht]; rfl
    have h2 : (finTrs f.numStates (f.finOf s)).filter (fun t => !toDeadEnd D t) = [] := by
      rw [List.filter_eq_nil_iff]
      intro t ht
      obtain ⟨w, -, rfl⟩ := hfin ht
      rw [hnew]; simp
    rw [h1, h2, List.append_nil]
  have hneg : ∀ s, (f.trsOf s ++ finTrs f.numStates (f.finOf s)).filter (toDeadEnd D) = finTrs f.numStates (f.finOf s) := by
    intro s
    rw [List.filter_append]
    have h1 : (f.trsOf s).filter (toDeadEnd D) = [] := by
      rw [List.filter_eq_nil_iff]
      intro t ht
      rw [hold s t ht]; simp
    have h2 : (finTrs f.numStates (f.finOf s)).filter (toDeadEnd D) = finTrs f.numStates (f.finOf s) := by
      rw [List.filter_eq_self]
      intro t ht
      obtain ⟨w, -, rfl⟩ := hfin ht
      exact hnew w
    rw [h1, h2, List.nil_append]
  have hmt : ∀ s, m.trsOf s = f.trsOf s := by
    intro s
    rw [m4]
    by_cases h : s < f.numStates
    · rw [k4 s h, hpos]
    · rw [hkt' s (by omega), trsOf_of_ge (f := f) (by omega)]; rfl
  have hmf : ∀ s, s < f.numStates → m.finOf s = f.nonzeroFin s := by
    intro s h
    rw [m6]
    unfold rmFin rmFinalWeight
    rw [k4 s h, hneg]
    have hks : k.finOf s = none := by rw [hkf, if_neg (by omega)]
    have hkn1 : k.finOf f.numStates = some 1 := by rw [hkf, if_pos rfl]
    rw [hks]
    unfold nonzeroFin
    cases hf : f.finOf s with
    | none => rfl
    | some w =>
      simp only [finTrs, List.cons_ne_nil, if_false, List.foldl_cons, List.foldl_nil, hkn1, Option.getD_none, Option.getD_some,
        zero_add, one_mul]
  have hmw : m.WF := ⟨fun i hi => by rw [m2]; exact hkw.start_lt i (m3 ▸ hi), fun s t ht => by
    rw [m2]; rw [m4] at ht; exact hkw.next_lt s t (List.mem_filter.1 ht).1⟩
  -- the superfinal state is not reached from the others any more
  obtain ⟨m', hm'⟩ : ∃ m' : Fst W, m' = m.delFinal f.numStates := ⟨_, rfl⟩
  have hm't : ∀ s, m'.trsOf s = f.trsOf s := by intro s; rw [hm']; simp [hmt]
  have hm'f : ∀ s, m'.finOf s = f.nonzeroFin s := by
    intro s
    rw [hm', Fst.delFinal_finOf]
    by_cases h : s < f.numStates
    · rw [if_neg (by omega), hmf s h]
    · unfold nonzeroFin
      rw [finOf_of_ge (f := f) (by omega)]
      by_cases e : s = f.numStates
      · rw [if_pos (by omega)]
      · simp only [e, if_false]
        exact finOf_of_ge (by rw [m2, hkn]; omega)
  have hmm : ∀ n s, s < f.numStates → m.pathsFrom n s = m'.pathsFrom n s := by
    intro n
    induction n with
    | zero => intro s h; rw [pathsFrom_zero, pathsFrom_zero, hmf s h, hm'f]
    | succ n ih =>
      intro s h
      rw [pathsFrom_succ, pathsFrom_succ, hmt, hm't]
      refine Multiset.bind_congr fun t ht => ?_
      rw [ih _ (hw.next_lt s t (by simpa using ht))]
  obtain ⟨h, ds, hh, -⟩ := C18_connect m hmw
  have hp : ∀ n, h.accPaths n = m'.pathsFrom n i := by
    intro n
    rw [C18_paths m h hmw hh, accPaths_some (m3.trans (k1.trans hi)), hmm n i (hw.start_lt i hi)]
  refine ⟨T, g, h, hg, ?_, ?_, ?_, C18_trim m h hmw hh⟩
  · unfold Fst.decode
    rw [hk]
    simp only
    unfold rmFinalEpsilon
    rw [if_neg (by rw [targetsOk_of_wf hkw]; simp)]
    simp only
    rw [hdead', ← hD, m1]
    exact hh
  · intro hz n
    rw [hp, accPaths_some hi]
    refine pathsFrom_congr hm't (fun s => ?_) n i
    rw [hm'f]
    unfold nonzeroFin
    cases hf : f.finOf s with
    | none => rfl
    | some w => exact if_neg (fun e => hz s (by rw [hf, e]))
  · intro n x y
    rw [weightOf_eq_total, weightOf_eq_total, hp, accPaths_some hi, total_nonzero hm't hm'f]

end rt

section
variable {W : Type u} [CommSemiring W] [DecidableEq W]

open Fst in
/-- C22, round trip when only labels are encoded: decoding gives the result of `rm_final_epsilon` on an FST with the same states,
transitions, final weights and start state as the original. Hence (see `C21_rm_final_epsilon_partial`) the total weight of every pair of
strings is kept, over commutative semirings in which sums of non-zero weights are non-zero. Missing: other semirings, where
`rm_final_epsilon` itself changes weights. -/
theorem C22_round_trip_labels_partial (f : Fst W) (hw : f.WF) (hs : f.start ≠ none) :
    ∃ T, ∃ g k : Fst W, f.encode .encodeLabels = .ok (T, g) ∧ (k.start = f.start ∧ k.numStates = f.numStates ∧ (∀ s, k.trsOf s = f.trsOf s) ∧
      ∀ s, k.finOf s = f.finOf s) ∧ g.decode .encodeLabels T = k.rmFinalEpsilon ∧
    ((∀ a b : W, a + b = 0 → a = 0) → ∃ h, g.decode .encodeLabels T = .ok h ∧
      ∃ A B : Nat → Multiset (PathT W), A 0 = 0 ∧ (∀ n, f.accPaths n = A n + B n) ∧
      ∀ n x y, h.weightOf n x y = (((B n + A (n + 1)).filter fun p => p.1 = x ∧ p.2.1 = y).map fun p => p.2.2).sum) := by
  obtain ⟨T, g, hg, he⟩ := encode_spec f hs .encodeLabels
  obtain ⟨k, hk, k1, k2, k3, k4, -⟩ := decode_map he hs
  have hkn : k.numStates = f.numStates := by rw [k2, he.num]; rfl
  have hkt := k4 rfl
  have hkf : ∀ s, k.finOf s = f.finOf s := fun s => by rw [k3, (he.labels rfl s).2]
  have hdec : g.decode .encodeLabels T = k.rmFinalEpsilon := by
    unfold Fst.decode
    rw [hk]
  refine ⟨T, g, k, hg, ⟨k1, hkn, hkt, hkf⟩, hdec, fun hzs => ?_⟩
  have hkw : k.WF := ⟨fun i hi => by rw [hkn]; exact hw.start_lt i (k1 ▸ hi), fun s t ht => by
    rw [hkn]; exact hw.next_lt s t (hkt s ▸ ht)⟩
  obtain ⟨h, h1, ⟨A, B, h2, h3, h4⟩, -⟩ := C21_rm_final_epsilon_partial k hkw hzs
  refine ⟨h, hdec.trans h1, A, B, h2, fun n => ?_, h4⟩
  rw [← h3]
  exact (accPaths_congr (f := f) (g := k) k1 hkt hkf n).symm

end

/-! ## Flags -/

section
variable {W : Type u} [Zero W] [One W] [DecidableEq W]

/-- `g` is `f` with a new last state `f.numStates`, the only final one, to which there is an edge from each final state of `f`. -/
structure WithSuper (f g : Fst W) : Prop where
  start : g.start = f.start
  num : g.numStates = f.numStates + 1
  lt : ∀ s, ∀ t ∈ f.trsOf s, t.nextstate < f.numStates
  next : ∀ s, s < f.numStates → ∃ e, (g.trsOf s).map (·.nextstate) = (f.trsOf s).map (·.nextstate) ++ e ∧
    ((f.finOf s = none ∧ e = []) ∨ ((f.finOf s).isSome = true ∧ e = [f.numStates]))
  last : g.trsOf f.numStates = []
  fin : ∀ s, g.IsFinal s ↔ s = f.numStates

namespace WithSuper
open Fst
variable {f g : Fst W}

theorem edge (h : WithSuper f g) (a b) : g.Edge a b ↔ f.Edge a b ∨ (b = f.numStates ∧ f.IsFinal a) := by
  have e : ∀ (k : Fst W) (a b), k.Edge a b ↔ b ∈ (k.trsOf a).map (·.nextstate) := by
    intro k a b
    unfold Edge
    simp
  by_cases ha : a < f.numStates
  · obtain ⟨l, h1, h2⟩ := h.next a ha
    rw [e, e, h1, List.mem_append]
    unfold IsFinal
    rcases h2 with ⟨h2, rfl⟩ | ⟨h2, rfl⟩
    · simp [h2]
    · simp [h2]
  · have hg : g.trsOf a = [] := by
      by_cases e : a = f.numStates
      · rw [e]; exact h.last
      · exact trsOf_of_ge (by rw [h.num]; omega)
    rw [e, e, hg, trsOf_of_ge (f := f) (by omega)]
    unfold IsFinal
    rw [finOf_of_ge (f := f) (by omega)]
    simp

theorem reach (h : WithSuper f g) {a b} (hb : b < f.numStates) : g.Reach a b ↔ f.Reach a b := by
  constructor
  · intro hr
    induction hr with
    | refl => exact .refl
    | tail _ hbc ih =>
      rcases (h.edge _ _).1 hbc with he | ⟨rfl, -⟩
      · have hlt : ∀ {x y}, f.Edge x y → x < f.numStates := by
          rintro x y ⟨t, ht, -⟩
          by_contra hc
          rw [trsOf_of_ge (by omega)] at ht; cases ht
        exact (ih (hlt he)).tail he
      · omega
  · intro hr
    exact Relation.ReflTransGen.mono (fun x y hxy => (h.edge x y).2 (.inl hxy)) _ _ hr

theorem onCycle (h : WithSuper f g) (a) : g.OnCycle a ↔ f.OnCycle a := by
  constructor
  · intro hc
    have ha : a < f.numStates := by
      obtain ⟨b, hab, -⟩ := Relation.TransGen.head'_iff.1 hc
      obtain ⟨t, ht, -⟩ := hab
      by_contra hn
      have : g.trsOf a = [] := by
        by_cases e : a = f.numStates
        · rw [e]; exact h.last
        · exact trsOf_of_ge (by rw [h.num]; omega)
      rw [this] at ht; cases ht
    obtain ⟨b, hab, hba⟩ := Relation.TransGen.tail'_iff.1 hc
    rcases (h.edge _ _).1 hba with he | ⟨rfl, -⟩
    · have hb : b < f.numStates := by
        obtain ⟨t, ht, -⟩ := he
        by_contra hn
        rw [trsOf_of_ge (by omega)] at ht; cases ht
      exact Relation.TransGen.tail' ((h.reach hb).1 hab) he
    · omega
  · intro hc
    exact Relation.TransGen.mono (fun x y hxy => (h.edge x y).2 (.inl hxy)) _ _ hc

theorem coacc (h : WithSuper f g) {a} (ha : a < f.numStates) : g.Coaccessible a ↔ f.Coaccessible a := by
  constructor
  · rintro ⟨q, hr, hq⟩
    rw [h.fin] at hq
    subst hq
    rcases Relation.ReflTransGen.cases_tail hr with e | ⟨b, hab, hb⟩
    · omega
    · rcases (h.edge _ _).1 hb with ⟨t, ht, hn⟩ | ⟨-, hf⟩
      · have := h.lt b t ht; omega
      · have hb : b < f.numStates := by
          by_contra hn
          unfold IsFinal at hf
          rw [finOf_of_ge (by omega)] at hf; cases hf
        exact ⟨b, (h.reach hb).1 hab, hf⟩
  · rintro ⟨q, hr, hq⟩
    have hqn : q < f.numStates := by
      by_contra hn
      unfold IsFinal at hq
      rw [finOf_of_ge (by omega)] at hq; cases hq
    exact ⟨f.numStates, ((h.reach hqn).2 hr).tail ((h.edge _ _).2 (.inr ⟨rfl, hq⟩)), (h.fin _).2 rfl⟩

theorem linear (h : WithSuper f g) (hl : g.IsLinear) : f.IsLinear := by
  intro _
  obtain ⟨hst, hs⟩ := hl (by rw [h.num]; omega)
  refine ⟨h.start ▸ hst, fun s hsn => ?_⟩
  have h1 := hs s (by rw [h.num]; omega)
  rw [if_neg (by rw [h.num]; omega)] at h1
  obtain ⟨-, t, ht, htn⟩ := h1
  obtain ⟨e, h2, h3⟩ := h.next s hsn
  rw [ht] at h2
  unfold IsFinal
  rcases h3 with ⟨h3, rfl⟩ | ⟨h3, rfl⟩
  · simp only [List.map_cons, List.map_nil, List.append_nil] at h2
    cases hf : f.trsOf s with
    | nil => rw [hf] at h2; simp at h2
    | cons a l =>
      rw [hf] at h2
      simp only [List.map_cons, List.cons.injEq] at h2
      have hll : l = [] := by simpa using h2.2.symm
      subst hll
      have : a.nextstate < f.numStates := h.lt s a (by rw [hf]; simp)
      rw [if_neg (by omega)]
      exact ⟨by simp [h3], a, rfl, by omega⟩
  · cases hf : f.trsOf s with
    | cons a l => rw [hf] at h2; simp at h2
    | nil =>
      rw [hf] at h2
      simp only [List.map_cons, List.map_nil, List.nil_append, List.cons.injEq, and_true] at h2
      rw [if_pos (by omega)]
      exact ⟨h3, rfl⟩

/-- The flags of the graph that `encode` keeps. -/
theorem holds (h : WithSuper f g) (b) (hb : Props.addSuperFinalMask b = true) (hgo : graphOnly b = true) (hf : f.Holds b) : g.Holds b := by
  have e2 : g.OnCycle = f.OnCycle := funext fun a => propext (h.onCycle a)
  cases b <;> simp only [graphOnly, Bool.false_eq_true] at hgo
  case topSorted => exact absurd hb (by decide)
  case accessible => exact absurd hb (by decide)
  case isString => exact absurd hb (by decide)
  case cyclic => simp only [Holds, e2] at hf ⊢; exact hf
  case acyclic => simp only [Holds, e2] at hf ⊢; exact hf
  case initialCyclic => simp only [Holds, e2, h.start] at hf ⊢; exact hf
  case initialAcyclic => simp only [Holds, e2, h.start] at hf ⊢; exact hf
  case notTopSorted =>
    intro hc
    have hc' : ∀ a b, g.Edge a b → a < b := (topSorted_iff g).1 hc
    exact hf ((topSorted_iff f).2 fun a b hab => hc' a b ((h.edge a b).2 (.inl hab)))
  case notAccessible =>
    intro hc
    apply hf
    intro s hs
    obtain ⟨i, hi, hr⟩ := hc s (by rw [h.num]; omega)
    exact ⟨i, h.start ▸ hi, (h.reach hs).1 hr⟩
  case coaccessible =>
    intro s hs
    by_cases hn : s < f.numStates
    · exact (h.coacc hn).2 (hf s hn)
    · have : s = f.numStates := by rw [h.num] at hs; omega
      subst this
      exact ⟨_, .refl, (h.fin _).2 rfl⟩
  case notCoaccessible =>
    intro hc
    exact hf fun s hs => (h.coacc hs).1 (hc s (by rw [h.num]; omega))
  case notString => exact fun hl => hf (h.linear hl)

end WithSuper

open Fst in
theorem Fst.holds_weightGraph {f g : Fst W} (h : ∀ s, (g.trsOf s).map (fun t => (t.weight, t.nextstate)) = (f.trsOf s).map fun t => (t.weight, t.nextstate))
    (hf : ∀ s, g.finOf s = f.finOf s) (hn : g.numStates = f.numStates) (hs : g.start = f.start) (b) (hb : labelFree b = true) :
    g.Holds b ↔ f.Holds b := by
  have hsg : SameGraph f g := ⟨fun s => by
    have := congrArg (List.map Prod.snd) (h s)
    rwa [List.map_map, List.map_map] at this, fun s => by rw [hf], hn, hs⟩
  by_cases hgo : graphOnly b = true
  · exact hsg.holds b hgo
  have hm : ∀ (P : W → StateId → Prop) s, (∃ t ∈ g.trsOf s, P t.weight t.nextstate) ↔ ∃ t ∈ f.trsOf s, P t.weight t.nextstate := by
    intro P s
    have e : ∀ l : List (Tr W), (∃ t ∈ l, P t.weight t.nextstate) ↔ ∃ x ∈ l.map (fun t => (t.weight, t.nextstate)), P x.1 x.2 := by
      intro l; simp
    rw [e, e, h]
  have h1 : g.HasWeightedCycle ↔ f.HasWeightedCycle := by
    unfold HasWeightedCycle
    refine exists_congr fun s => ?_
    have e : g.Reach = f.Reach := by unfold Reach; rw [hsg.edge]
    rw [e]
    exact hm (fun w n => ¬ TrivialW w ∧ f.Reach n s) s
  have h2 : g.Unweighted ↔ f.Unweighted := by
    unfold Unweighted
    simp only [hf]
    refine and_congr_left fun _ => forall_congr' fun s => ?_
    have := not_congr (hm (fun w _ => ¬ TrivialW w) s)
    push Not at this
    exact this
  cases b <;> simp only [labelFree, graphOnly, Bool.false_eq_true, not_true_eq_false] at hb hgo
  case weighted => exact not_congr h2
  case unweighted => exact h2
  case weightedCycles => exact h1
  case unweightedCycles => exact not_congr h1

theorem forall₂_map {α β γ : Type*} {r : α → β → Prop} {a : List α} {b : List β} (h : List.Forall₂ r a b) (p : α → γ) (q : β → γ)
    (hr : ∀ x y, r x y → q y = p x) : b.map q = a.map p := by
  induction h with
  | nil => rfl
  | cons hxy _ ih => rw [List.map_cons, List.map_cons, hr _ _ hxy, ih]

open Fst in
/-- C51 for `encode`: on every well-formed FST with a start state flags stay true. -/
theorem C22_encode_flags (f : Fst W) (hw : f.WF) (hs : f.start ≠ none) (tf : f.Truthful) (ty : EncodeType) (T g)
    (hg : f.encode ty = .ok (T, g)) : g.Truthful := by
  obtain ⟨T', g', hg', h⟩ := encode_spec f hs ty
  rw [hg] at hg'; cases hg'
  intro b hb
  rw [h.props] at hb
  unfold encodeMapper at hb
  simp only [Props.and_apply, Bool.and_eq_true] at hb
  obtain ⟨hfb, hm1, hm2⟩ := hb
  have hfh := tf b hfb
  by_cases hwt : ty.weights = true
  · rw [if_pos hwt] at hm2
    simp only [Props.and_apply, Bool.and_eq_true] at hm2
    obtain ⟨⟨hi, hwi⟩, hsf⟩ := hm2
    have ws : WithSuper f g := by
      refine ⟨h.start, by rw [h.num, if_pos hwt], hw.next_lt, fun s hs => ?_, (h.super hwt).1, fun s => ?_⟩
      · obtain ⟨-, ts, e, h1, h2, h3⟩ := h.weights hwt s hs
        refine ⟨e.map (·.nextstate), ?_, ?_⟩
        · rw [h1, List.map_append, forall₂_map h2 (·.nextstate) (·.nextstate) (fun _ _ hx => hx.2.2.2)]
        · cases hf : f.finOf s with
          | none => rw [hf] at h3; rw [show e = [] from h3]; exact .inl ⟨rfl, rfl⟩
          | some w =>
            rw [hf] at h3
            obtain ⟨l, -, rfl⟩ := h3
            exact .inr ⟨rfl, rfl⟩
      · unfold IsFinal
        constructor
        · intro hf
          by_contra hn
          by_cases hlt : s < f.numStates
          · rw [(h.weights hwt s hlt).1] at hf; cases hf
          · rw [finOf_of_ge (by rw [h.num, if_pos hwt]; omega)] at hf; cases hf
        · rintro rfl; rw [(h.super hwt).2]; rfl
    by_cases hgo : graphOnly b = true
    · exact ws.holds b hsf hgo hfh
    · have hlab : ty.labels = false := by
        by_contra hl
        rw [if_pos (by simpa using hl)] at hm1
        revert hgo hi hwi hsf hm1
        cases b <;> simp [graphOnly, Props.and, Props.of, Props.iLabelInvariantMask, Props.oLabelInvariantMask, Props.weightInvariantMask]
      have hpre : ∀ s, s < f.numStates → (f.trsOf s).map (·.olabel) <+: (g.trsOf s).map (·.olabel) := by
        intro s hs
        obtain ⟨-, ts, e, h1, h2, -⟩ := h.weights hwt s hs
        rw [h1, List.map_append, forall₂_map h2 (·.olabel) (·.olabel) (fun x y hx => by rw [hx.2.1, if_neg (by rw [hlab]; simp)])]
        exact List.prefix_append _ _
      have hb3 : b = .notODeterministic ∨ b = .oEpsilons ∨ b = .notOLabelSorted := by
        revert hgo hi hwi hsf
        cases b <;> simp [graphOnly, Props.of, Props.iLabelInvariantMask, Props.weightInvariantMask, Props.addSuperFinalMask]
      rcases hb3 with rfl | rfl | rfl
      · intro hc
        exact hfh ((forall_lt_of_nil (P := fun l => (l.map (·.olabel)).Nodup) (by simp) f).2 fun s hs =>
          (hc s).sublist (hpre s hs).sublist)
      · obtain ⟨s, t, ht, h0⟩ := hfh
        have hs : s < f.numStates := by
          by_contra hn
          rw [trsOf_of_ge (by omega)] at ht; cases ht
        have := (hpre s hs).subset (List.mem_map.2 ⟨t, ht, h0⟩)
        obtain ⟨t', ht', h0'⟩ := List.mem_map.1 this
        exact ⟨s, t', ht', h0'⟩
      · intro hc
        exact hfh ((forall_lt_of_nil (P := fun l => (l.map (·.olabel)).Pairwise (· ≤ ·)) (by simp) f).2 fun s hs =>
          (hc s).sublist (hpre s hs).sublist)
  · have hty : ty = .encodeLabels := by cases ty <;> simp [EncodeType.weights] at hwt ⊢
    subst hty
    have hm1 : (Props.iLabelInvariantMask.and Props.oLabelInvariantMask) b = true := hm1
    have hlf : labelFree b = true := by
      revert hm1
      cases b <;> simp [labelFree, Props.and, Props.of, Props.iLabelInvariantMask, Props.oLabelInvariantMask]
    refine (holds_weightGraph (fun s => ?_) (fun s => (h.labels rfl s).2) (by rw [h.num]; rfl) h.start b hlf).2 hfh
    exact forall₂_map (h.labels rfl s).1 _ _ fun x y hx => by
      rw [hx.2.2.1, hx.2.2.2]; rfl

variable [Add W] [Mul W]

open Fst in
theorem rmFinalEpsilon_flags (f g : Fst W) (hw : f.WF) (tf : f.Truthful) (hg : f.rmFinalEpsilon = .ok g) : g.Truthful := by
  obtain ⟨k, h1, h2, h3, h4, h5, -⟩ := rmFinal_loop f hw (f.deadEnds (f.sccVisit fun _ => true).coaccess)
  have hkw : k.WF := ⟨fun i hi => by rw [h2]; exact hw.start_lt i (h3 ▸ hi), fun s t ht => by
    rw [h2]; rw [h4] at ht; exact hw.next_lt s t (List.mem_filter.1 ht).1⟩
  unfold rmFinalEpsilon at hg
  rw [if_neg (by rw [targetsOk_of_wf hw]; simp)] at hg
  simp only at hg
  rw [h1] at hg
  exact C18_flags k g hkw (h5 tf) hg

open Fst in
/-- C51 for `decode`: on every well-formed FST, with any table, flags stay true. -/
theorem C22_decode_flags (f : Fst W) (hw : f.WF) (tf : f.Truthful) (ty : EncodeType) (T g)
    (hg : f.decode ty T = .ok g) : g.Truthful := by
  unfold Fst.decode at hg
  cases hk : f.trMap (decodeMapper ty T) () with
  | error e => rw [hk] at hg; cases hg
  | ok r =>
    obtain ⟨_, k⟩ := r
    rw [hk] at hg
    simp only at hg
    by_cases hs : f.start = none
    · rw [simple_no_start f hs] at hk
      simp only [Except.ok.injEq, Prod.mk.injEq] at hk
      rw [← hk.2] at hg
      exact rmFinalEpsilon_flags f g hw tf hg
    · obtain ⟨hm, hp⟩ := (C50_simple (tr := decodeTr ty T) (fin := fun w => .ok w) (p := (decodeMapper ty T).props) f hs).2 k hk
      have hdec : ∀ {t t' : Tr W}, decodeTr ty T t = .ok t' → t'.nextstate = t.nextstate ∧ (ty.labels = false → t'.olabel = t.olabel) ∧
          (ty.weights = false → t'.weight = t.weight) := by
        intro t t' h
        unfold decodeTr at h
        cases hd : T.decode t.ilabel with
        | error e => rw [hd] at h; cases h
        | ok x =>
          rw [hd] at h
          cases h
          exact ⟨rfl, fun hl => by simp [hl], fun hl => by simp [hl]⟩
      have hfin : ∀ s, k.finOf s = f.finOf s := fun s => by simpa using rel_ok (k := id) (hm.fin s)
      have sg : SameGraph f k := ⟨fun s => forall₂_map (hm.trs s) _ _ fun x y hx => (hdec hx).1, fun s => by rw [hfin], hm.num, hm.start⟩
      refine rmFinalEpsilon_flags k g (sg.wf hw) (fun b hb => ?_) hg
      rw [hp] at hb
      unfold decodeMapper at hb
      simp only [Mapper.simple, Props.and_apply, Bool.and_eq_true] at hb
      obtain ⟨hfb, hm1, hm2⟩ := hb
      have hfh := tf b hfb
      by_cases hwt : ty.weights = true
      · rw [if_pos hwt] at hm2
        simp only [Props.and_apply, Bool.and_eq_true] at hm2
        obtain ⟨⟨hi, hwi⟩, -⟩ := hm2
        by_cases hgo : graphOnly b = true
        · exact (sg.holds b hgo).2 hfh
        · have hlab : ty.labels = false := by
            by_contra hl
            rw [if_pos (by simpa using hl)] at hm1
            revert hgo hi hwi hm1
            cases b <;> simp [graphOnly, Props.and, Props.of, Props.iLabelInvariantMask, Props.oLabelInvariantMask, Props.weightInvariantMask]
          refine (holds_outOnly (fun s => forall₂_map (hm.trs s) _ _ fun x y hx => (hdec hx).2.1 hlab) b ?_).2 hfh
          revert hgo hi hwi
          cases b <;> simp [graphOnly, outOnly, Props.of, Props.iLabelInvariantMask, Props.weightInvariantMask]
      · have hty : ty = .encodeLabels := by cases ty <;> simp [EncodeType.weights] at hwt ⊢
        subst hty
        have hm1 : (Props.iLabelInvariantMask.and Props.oLabelInvariantMask) b = true := hm1
        have hlf : labelFree b = true := by
          revert hm1
          cases b <;> simp [labelFree, Props.and, Props.of, Props.iLabelInvariantMask, Props.oLabelInvariantMask]
        refine (holds_weightGraph (fun s => ?_) hfin hm.num hm.start b hlf).2 hfh
        exact forall₂_map (hm.trs s) _ _ fun x y hx => by rw [(hdec hx).1, (hdec hx).2.2 rfl]

end

/-! ## Defects and instances -/

/-- Defect: `encode` does nothing to an FST without a start state: with labels encoded the result is not an acceptor. -/
theorem C22_encode_no_start : ∃ f g : Fst Nat, ∃ T, f.WF ∧ f.encode .encodeLabels = .ok (T, g) ∧ ¬ ∀ s, ∀ t ∈ g.trsOf s, t.ilabel = t.olabel :=
  ⟨(Fst.new.addStates 1).addTr 0 ⟨1, 2, 1, 0⟩, _, _, Fst.wf_of_wfB (by decide), rfl, fun h => absurd (h 0 ⟨1, 2, 1, 0⟩ (by decide)) (by decide)⟩

/-- Defect: decoding an ε input label underflows instead of returning an error. -/
theorem C22_decode_epsilon_panics : ∃ f : Fst Nat, f.WF ∧ f.decode .encodeLabels EncTable.new = .error .panic :=
  ⟨((Fst.new.addStates 1).setStart 0).addTr 0 ⟨0, 0, 1, 0⟩, Fst.wf_of_wfB (by decide), rfl⟩

/-- A cyclic FST with repeated and ε labels and two final states. -/
def exEnc : Fst Nat :=
  (((((((Fst.new.addStates 2).setStart 0).setFinal 0 3).setFinal 1 5).addTr 0 ⟨1, 2, 7, 1⟩).addTr 0 ⟨1, 2, 4, 1⟩).addTr 1 ⟨1, 3, 7, 0⟩).addTr 1
    ⟨1, 2, 7, 1⟩
example : exEnc.WF ∧ exEnc.start ≠ none ∧ (∀ s, s < 2 → exEnc.finOf s ≠ some 0) := ⟨Fst.wf_of_wfB (by decide), by decide, by decide⟩
example : (exEnc.encode .encodeWeightsAndLabels).toOption.map (fun r => (r.2.trsOf 0, r.2.trsOf 1)) =
    some ([⟨1, 1, 1, 1⟩, ⟨2, 2, 1, 1⟩, ⟨3, 3, 1, 2⟩], [⟨4, 4, 1, 0⟩, ⟨1, 1, 1, 1⟩, ⟨5, 5, 1, 2⟩]) := by decide
example : (exEnc.encode .encodeLabels).toOption.map (fun r => (r.2.trsOf 0, r.2.finOf 0)) =
    some ([⟨1, 1, 7, 1⟩, ⟨1, 1, 4, 1⟩], some 3) := by decide
example : ((exEnc.encode .encodeWeights).toOption.bind fun r => (r.2.decode .encodeWeights r.1).toOption.map fun h =>
    (h.trsOf 0, h.trsOf 1, h.finOf 0, h.finOf 1)) = some (exEnc.trsOf 0, exEnc.trsOf 1, some 3, some 5) := by decide

end Verif
