import Verif.Lemmas.Convert
import Verif.Lemmas.Reweigh
import Verif.Lemmas.Path
import Verif.Lemmas.MergedLang
import Verif.Lemmas.GallicSemiring
import Verif.Props.C10

/-!
# C60: `weight_convert` changes the weights and keeps the paths

`toGallic` moves the output labels of a transducer into its weights; `fromGallic` moves them back. A final weight with a label becomes a
transition to a new state.
-/

namespace Verif
set_option linter.unusedSectionVars false
universe u v
variable {W : Type u} {V : Type v}

section convert
variable [Zero V] [One V] [DecidableEq V]

/-- `g` is `f` converted: state by state the results of the converter, placed as its `MapFinalAction` says. -/
structure Converted (c : Converter W V) (f : Fst W) (g : Fst V) (rows : List (List (Tr V) × Option (FinalTr V))) : Prop where
  start : g.start = f.start
  num : g.numStates = f.numStates + if usesSuper c.action rows then 1 else 0
  state : ∀ s, s < f.numStates → ∃ ts t, rows[s]? = some (ts, t) ∧ ConvTrs c (f.trsOf s) ts ∧ ConvFin c (f.finOf s) t ∧
    (g.trsOf s, g.finOf s) = placed c.action f.numStates ts t
  len : rows.length = f.numStates
  super : usesSuper c.action rows = true → g.trsOf f.numStates = [] ∧ g.finOf f.numStates = some 1
  counters : g.AllCounters
  flags : ∀ b, g.props b = true → c.props f.props b = true ∨ g.Holds b

/-- C60: on an FST with a start state, `weight_convert` succeeds when all calls of the converter do and none returns labels it may
not; then its result has, state by state, what the converter returned. A stored flag of the result comes from the converter
or is true. -/
theorem C60_convert (f : Fst W) (c : Converter W V) (hs : f.start ≠ none) :
    ((∃ g, f.weightConvert c = .ok g) ↔
      ∀ s, s < f.numStates → ∃ ts t, ConvTrs c (f.trsOf s) ts ∧ ConvFin c (f.finOf s) t ∧ placeable c.action t) ∧
    ∀ g, f.weightConvert c = .ok g → ∃ rows, Converted c f g rows := by
  cases hi : f.start with
  | none => exact absurd hi hs
  | some i =>
    obtain ⟨h1, h2⟩ := convLoop_ok (convInv_init c f hi) f.numStates (le_refl _)
    have hc : ∀ g, f.weightConvert c = .ok g → ∃ o sf rows, ConvInv c f f.numStates rows o sf ∧
        g = o.setPropsMask ((c.props f.props).or o.props) Props.allMask := by
      intro g hg
      unfold Fst.weightConvert at hg
      simp only [hi] at hg
      split at hg
      · cases hg
      · rename_i o sf he
        obtain ⟨rows, inv⟩ := h1 o sf he
        cases hg
        exact ⟨o, sf, rows, inv, rfl⟩
    refine ⟨⟨?_, ?_⟩, ?_⟩
    · rintro ⟨g, hg⟩ s hlt
      obtain ⟨o, sf, rows, inv, -⟩ := hc g hg
      have hl : s < rows.length := by rw [inv.len]; exact hlt
      exact ⟨_, _, inv.calls s _ _ (List.getElem?_eq_getElem hl)⟩
    · intro h
      obtain ⟨o, sf, he⟩ := h2 h
      refine ⟨o.setPropsMask ((c.props f.props).or o.props) Props.allMask, ?_⟩
      unfold Fst.weightConvert
      simp only [hi]
      rw [he]
    · intro g hg
      obtain ⟨o, sf, rows, inv, rfl⟩ := hc g hg
      refine ⟨rows, inv.start, inv.num, fun s hlt => ?_, inv.len, inv.sup, Fst.allCounters_setPropsMask inv.counters _ _, ?_⟩
      · have hl : s < rows.length := by rw [inv.len]; exact hlt
        have hr := List.getElem?_eq_getElem hl
        exact ⟨_, _, hr, (inv.calls s _ _ hr).1, (inv.calls s _ _ hr).2.1, inv.low s _ _ hr⟩
      · intro b hb
        rw [Fst.setPropsMask_all] at hb
        simp only [Props.or_apply, Bool.or_eq_true] at hb
        exact hb.imp id fun h => inv.truthful b h

/-- C60, defect: without a start state the result is the empty FST, whatever states the input has. -/
theorem C60_no_start (f : Fst W) (c : Converter W V) (hs : f.start = none) : f.weightConvert c = .ok Fst.new := by
  unfold Fst.weightConvert; rw [hs]

theorem convTrs_map {k : Tr W → Tr V} {c : Converter W V} (hk : ∀ t, c.tr t = .ok (k t)) {ts ts'} (h : ConvTrs c ts ts') : ts' = ts.map k := by
  induction h with
  | nil => rfl
  | cons h _ ih => rw [hk] at h; cases h; rw [ih]; rfl

theorem convTrs_of_map {k : Tr W → Tr V} {c : Converter W V} : ∀ (ts : List (Tr W)), (∀ t ∈ ts, c.tr t = .ok (k t)) → ConvTrs c ts (ts.map k)
  | [], _ => .nil
  | t :: ts, h => .cons (h t (List.mem_cons_self ..)) (convTrs_of_map ts fun x hx => h x (List.mem_cons_of_mem _ hx))

theorem convTrs_eq_map {k : Tr W → Tr V} {c : Converter W V} {ts ts'} (hk : ∀ t ∈ ts, c.tr t = .ok (k t)) (h : ConvTrs c ts ts') : ts' = ts.map k := by
  induction h with
  | nil => rfl
  | cons h _ ih =>
    rw [hk _ (List.mem_cons_self ..)] at h; cases h
    rw [ih fun x hx => hk x (List.mem_cons_of_mem _ hx)]; rfl

/-- Converters that return no labels for final weights. -/
theorem converted_plain {f : Fst W} {c : Converter W V} {g : Fst V} {rows} (h : Converted c f g rows) (ha : c.action = .noSuperfinal)
    (k : Tr W → Tr V) (hk : ∀ s, ∀ t ∈ f.trsOf s, c.tr t = .ok (k t)) (kf : W → V) (hf : ∀ s w, f.finOf s = some w → c.fin ⟨EPS, EPS, w⟩ = .ok ⟨EPS, EPS, kf w⟩) :
    g.numStates = f.numStates ∧ (∀ s, g.trsOf s = (f.trsOf s).map k) ∧ ∀ s, g.finOf s = (f.finOf s).map kf := by
  have hn : g.numStates = f.numStates := by rw [h.num, ha]; rfl
  have key : ∀ s, g.trsOf s = (f.trsOf s).map k ∧ g.finOf s = (f.finOf s).map kf := by
    intro s
    by_cases hs : s < f.numStates
    · obtain ⟨ts, t, -, h1, h2, h3⟩ := h.state s hs
      rw [ha] at h3
      cases hfs : f.finOf s with
      | none =>
        rw [hfs] at h2
        cases h2
        simp only [placed, Prod.mk.injEq] at h3
        exact ⟨h3.1.trans (convTrs_eq_map (hk s) h1), h3.2⟩
      | some w =>
        rw [hfs] at h2
        cases h2 with
        | some h2 =>
          rw [hf s w hfs] at h2
          cases h2
          simp only [placed, Prod.mk.injEq] at h3
          exact ⟨h3.1.trans (convTrs_eq_map (hk s) h1), h3.2⟩
    · rw [Fst.trsOf_of_ge (by omega), Fst.finOf_of_ge (by omega), Fst.trsOf_of_ge (by omega), Fst.finOf_of_ge (by omega)]
      exact ⟨rfl, rfl⟩
  exact ⟨hn, fun s => (key s).1, fun s => (key s).2⟩

/-- C60, `SimpleWeightConverter`: succeeds, changes each weight and nothing else. -/
theorem C60_simple (f : Fst W) (k : W → V) (hs : f.start ≠ none) : ∃ g, f.weightConvert (simpleConverter k) = .ok g ∧ g.start = f.start ∧
    g.numStates = f.numStates ∧ (∀ s, g.trsOf s = (f.trsOf s).map fun t => ⟨t.ilabel, t.olabel, k t.weight, t.nextstate⟩) ∧
    (∀ s, g.finOf s = (f.finOf s).map k) := by
  obtain ⟨h1, h2⟩ := C60_convert f (simpleConverter k) hs
  obtain ⟨g, hg⟩ := h1.2 fun s _ => ⟨_, (f.finOf s).map fun w => ⟨EPS, EPS, k w⟩, convTrs_of_map _ fun t _ => rfl, by
    cases f.finOf s <;> constructor; rfl, fun _ x hx => by
    cases hw : f.finOf s <;> rw [hw] at hx <;> cases hx; rfl⟩
  obtain ⟨rows, h⟩ := h2 g hg
  obtain ⟨a, b, d⟩ := converted_plain h rfl (fun t => ⟨t.ilabel, t.olabel, k t.weight, t.nextstate⟩) (fun _ _ _ => rfl) k (fun _ _ _ => rfl)
  exact ⟨g, hg, h.start, a, b, d⟩

end convert

/-! ### To gallic weights -/

section toG
variable [Zero W] [One W] [DecidableEq W] [Zero V] [One V] [DecidableEq V]

theorem outStr_eq (l : Label) : outStr l = .labels (strip l) := by
  unfold outStr strip; split <;> rfl

/-- A transition with its output label in its weight. -/
def gallicTr (mk : StrW × W → V) (t : Tr W) : Tr V := ⟨t.ilabel, t.ilabel, mk (.labels (strip t.olabel), t.weight), t.nextstate⟩

/-- C60, `ToGallicConverter`: fails exactly when the input stores a final weight zero; else every output label is moved into the weight of
its transition. -/
theorem C60_to_gallic (f : Fst W) (mk : StrW × W → V) (hs : f.start ≠ none) :
    ((∃ g, f.weightConvert (toGallic mk) = .ok g) ↔ ∀ s, f.finOf s ≠ some 0) ∧
    ∀ g, f.weightConvert (toGallic mk) = .ok g → g.start = f.start ∧ g.numStates = f.numStates ∧
      (∀ s, g.trsOf s = (f.trsOf s).map (gallicTr mk)) ∧ (∀ s, g.finOf s = (f.finOf s).map fun w => mk (.labels [], w)) ∧
      g.AllCounters ∧ (f.Truthful → g.Truthful) := by
  obtain ⟨h1, h2⟩ := C60_convert f (toGallic mk) hs
  have hfwd : (∃ g, f.weightConvert (toGallic mk) = .ok g) → ∀ s, f.finOf s ≠ some 0 := by
    intro hg s h0
    obtain ⟨ts, t, -, h, -⟩ := h1.1 hg s (Fst.IsFinal.lt (by rw [Fst.IsFinal, h0]; rfl))
    rw [h0] at h
    cases h with
    | some h =>
      simp only [toGallic, if_true] at h
      cases h
  refine ⟨⟨hfwd, fun h => ?_⟩, fun g hg => ?_⟩
  · refine h1.2 fun s _ => ⟨_, (f.finOf s).map fun w => ⟨EPS, EPS, mk (.labels [], w)⟩, convTrs_of_map (k := gallicTr mk) _ fun t _ => by
      simp only [toGallic, outStr_eq]; rfl, ?_, fun _ x hx => by
      cases hw : f.finOf s <;> rw [hw] at hx <;> cases hx; rfl⟩
    cases hw : f.finOf s with
    | none => exact .none
    | some w =>
      refine .some ?_
      simp only [toGallic]
      rw [if_neg]
      rintro rfl
      exact h s hw
  · obtain ⟨rows, h⟩ := h2 g hg
    have hz := hfwd ⟨g, hg⟩
    obtain ⟨a, b, d⟩ := converted_plain h rfl (gallicTr mk) (fun _ t _ => by simp only [toGallic, outStr_eq]; rfl)
      (fun w => mk (.labels [], w)) (fun s w hw => by
        simp only [toGallic]
        rw [if_neg]
        rintro rfl
        exact hz s hw)
    refine ⟨h.start, a, b, d, h.counters, fun hf x hx => ?_⟩
    have sh : Fst.SameShape (f.project .projectInput) g := by
      have r := Fst.project_relab f .projectInput
      refine ⟨fun s => ?_, fun s => ?_, by rw [a, r.num], by rw [h.start, r.start]⟩
      · rw [b, r.trs, List.map_map, List.map_map]
        rfl
      · rw [d, r.fin]; simp
    rcases h.flags x hx with h | h
    · simp only [toGallic, Props.and_apply, Bool.and_eq_true] at h
      refine (sh.holds x ?_).2 (C11_flags f .projectInput hf x ?_)
      · have := h.2
        cases x <;> first | rfl | (revert this; decide)
      · rw [show (f.project .projectInput).props = Props.project f.props .projectInput from Fst.setPropsMask_all _ _]; exact h.1.2
    · exact h

/-- C60: the paths of the result of `ToGallicConverter`, for any gallic weights in which strings concatenate and weights multiply. -/
theorem C60_to_gallic_paths [Mul V] [Mul W] {f : Fst W} {mk : StrW × W → V} {g : Fst V} (hg : f.weightConvert (toGallic mk) = .ok g)
    (hm : ∀ l m a b, mk (.labels l, a) * mk (.labels m, b) = mk (.labels (l ++ m), a * b)) (n : Nat) :
    g.accPaths n = (f.accPaths n).map fun p => (p.1, p.1, mk (.labels p.2.1, p.2.2)) := by
  cases hi : f.start with
  | none =>
    rw [C60_no_start f _ hi] at hg
    cases hg
    rw [Fst.accPaths_none hi, Fst.accPaths_none (by rfl)]
    rfl
  | some i =>
    obtain ⟨h1, -, h3, h4, -⟩ := (C60_to_gallic f mk (by simp [hi])).2 g hg
    rw [Fst.accPaths_some hi, Fst.accPaths_some (h1.trans hi)]
    suffices ∀ n s, g.pathsFrom n s = (f.pathsFrom n s).map fun p => (p.1, p.1, mk (.labels p.2.1, p.2.2)) from this n i
    intro n
    induction n with
    | zero =>
      intro s
      simp only [Fst.pathsFrom, h4]
      cases f.finOf s <;> rfl
    | succ n ih =>
      intro s
      simp only [Fst.pathsFrom, h3, Multiset.map_bind, ← Multiset.map_coe, Multiset.bind_map]
      refine Multiset.bind_congr fun t _ => ?_
      show ((g.pathsFrom n t.nextstate).map _) = _
      rw [ih, Multiset.map_map, Multiset.map_map]
      refine Multiset.map_congr rfl fun p _ => ?_
      simp only [Function.comp, PathT.cat, Tr.asPath, gallicTr, hm]

end toG

/-! ### From gallic weights -/

section from_
variable [Zero W] [One W] [DecidableEq W]

/-- What `extract` makes of a weight that it can take apart. -/
def readW (extract : V → R (W × Label)) (v : V) : W × Label :=
  match extract v with
  | .ok r => r
  | .error _ => (0, EPS)

/-- A transition with its output label moved out of the weight. -/
def plainTr (extract : V → R (W × Label)) (t : Tr V) : Tr W := ⟨t.ilabel, (readW extract t.weight).2, (readW extract t.weight).1, t.nextstate⟩

/-- Can each weight of `h` be taken apart, and is `h` an acceptor? -/
structure Extractable (extract : V → R (W × Label)) (h : Fst V) : Prop where
  tr : ∀ s, ∀ t ∈ h.trsOf s, extract t.weight = .ok (readW extract t.weight) ∧ t.ilabel = t.olabel
  fin : ∀ s v, h.finOf s = some v → extract v = .ok (readW extract v)

/-- The transition added to a state with final weight `v`. -/
def superTr (extract : V → R (W × Label)) (lab : Label) (n : StateId) : Option V → List (Tr W)
  | none => []
  | some v => if (readW extract v).2 = EPS then [] else [⟨lab, (readW extract v).2, (readW extract v).1, n⟩]

/-- The final weight left to a state with final weight `v`. -/
def leftFin (extract : V → R (W × Label)) : Option V → Option W
  | none => none
  | some v => if (readW extract v).2 = EPS then some (readW extract v).1 else none

/-- `g` is `h` with labels moved out of the weights. -/
structure Extracted (extract : V → R (W × Label)) (lab : Label) (h : Fst V) (g : Fst W) : Prop where
  start : g.start = h.start
  num : g.numStates = h.numStates ∨ g.numStates = h.numStates + 1
  used : g.numStates = h.numStates + 1 ↔ ∃ s v, h.finOf s = some v ∧ (readW extract v).2 ≠ EPS
  trs : ∀ s, s < h.numStates → g.trsOf s = (h.trsOf s).map (plainTr extract) ++ superTr extract lab h.numStates (h.finOf s)
  fin : ∀ s, s < h.numStates → g.finOf s = leftFin extract (h.finOf s)
  super : g.numStates = h.numStates + 1 → g.trsOf h.numStates = [] ∧ g.finOf h.numStates = some 1
  counters : g.AllCounters

theorem fromGallic_fin_ok {extract : V → R (W × Label)} {lab : Label} {v : V} (h : extract v = .ok (readW extract v)) :
    (fromGallic extract lab).fin ⟨EPS, EPS, v⟩ = .ok (if (readW extract v).2 = EPS then ⟨EPS, EPS, (readW extract v).1⟩
      else ⟨lab, (readW extract v).2, (readW extract v).1⟩) := by
  simp only [fromGallic, h]
  rw [if_neg (by simp)]
  by_cases he : (readW extract v).2 = EPS
  · rw [if_neg (by tauto), if_pos he, he]
  · rw [if_pos (by simpa using he), if_neg he]

/-- C60, `FromGallicConverter`: succeeds exactly when every weight carries at most one label and the FST is an acceptor; the labels are moved
into the transitions, those of final weights into transitions to one new state. -/
theorem C60_from_gallic (h : Fst V) (extract : V → R (W × Label)) (lab : Label) (hs : h.start ≠ none) :
    ((∃ g, h.weightConvert (fromGallic extract lab) = .ok g) ↔ Extractable extract h) ∧
    ∀ g, h.weightConvert (fromGallic extract lab) = .ok g → Extracted extract lab h g ∧
      ∀ b, g.props b = true → (fromGallic extract lab).props h.props b = true ∨ g.Holds b := by
  obtain ⟨h1, h2⟩ := C60_convert h (fromGallic extract lab) hs
  have hread : ∀ v r, extract v = .ok r → extract v = .ok (readW extract v) := by
    intro v r hr
    rw [readW, hr]
  have htr : ∀ t : Tr V, ∀ t', (fromGallic extract lab).tr t = .ok t' → (extract t.weight = .ok (readW extract t.weight) ∧ t.ilabel = t.olabel) := by
    intro t t' ht
    simp only [fromGallic] at ht
    cases he : extract t.weight with
    | error e => rw [he] at ht; cases ht
    | ok r =>
      rw [he] at ht
      simp only at ht
      split at ht
      · cases ht
      · rename_i hl
        exact ⟨by rw [← he]; exact hread _ _ he, by simpa using hl⟩
  have htr' : ∀ t : Tr V, (extract t.weight = .ok (readW extract t.weight) ∧ t.ilabel = t.olabel) →
      (fromGallic extract lab).tr t = .ok (plainTr extract t) := by
    rintro t ⟨e, hl⟩
    simp only [fromGallic, e]
    rw [if_neg (by simp [hl])]
    rfl
  have hfwd : (∃ g, h.weightConvert (fromGallic extract lab) = .ok g) → Extractable extract h := by
    intro hg
    refine ⟨fun s t ht => ?_, fun s v hv => ?_⟩
    · obtain ⟨ts, _, hc, -, -⟩ := h1.1 hg s (Fst.lt_of_mem_trsOf ht)
      obtain ⟨t', -, ht'⟩ : ∃ t', t' ∈ ts ∧ (fromGallic extract lab).tr t = .ok t' := by
        revert ht hc
        generalize h.trsOf s = l
        intro ht hc
        induction hc with
        | nil => cases ht
        | cons a _ ih =>
          rcases List.mem_cons.1 ht with rfl | ht
          · exact ⟨_, List.mem_cons_self .., a⟩
          · obtain ⟨t', b, c⟩ := ih ht
            exact ⟨t', List.mem_cons_of_mem _ b, c⟩
      exact htr t t' ht'
    · obtain ⟨_, t, -, hf, -⟩ := h1.1 hg s (Fst.IsFinal.lt (by rw [Fst.IsFinal, hv]; rfl))
      rw [hv] at hf
      cases hf with
      | some hf =>
        simp only [fromGallic] at hf
        cases he : extract v with
        | error e => rw [he] at hf; cases hf
        | ok r => rw [← he]; exact hread _ _ he
  refine ⟨⟨hfwd, fun hx => h1.2 fun s _ => ⟨_, (h.finOf s).map fun v => (if (readW extract v).2 = EPS then ⟨EPS, EPS, (readW extract v).1⟩
      else ⟨lab, (readW extract v).2, (readW extract v).1⟩), convTrs_of_map (k := plainTr extract) _ fun t ht => htr' t (hx.tr s t ht), ?_,
      fun ha => by cases ha⟩⟩, fun g hg => ?_⟩
  · cases hv : h.finOf s with
    | none => exact .none
    | some v => exact .some (fromGallic_fin_ok (hx.fin s v hv))
  · have hx := hfwd ⟨g, hg⟩
    obtain ⟨rows, hc⟩ := h2 g hg
    have hrow : ∀ s, s < h.numStates → ∃ t, rows[s]? = some ((h.trsOf s).map (plainTr extract), t) ∧
        t = (h.finOf s).map (fun v => (if (readW extract v).2 = EPS then ⟨EPS, EPS, (readW extract v).1⟩
          else ⟨lab, (readW extract v).2, (readW extract v).1⟩)) ∧
        (g.trsOf s, g.finOf s) = placed .allowSuperfinal h.numStates ((h.trsOf s).map (plainTr extract)) t := by
      intro s hlt
      obtain ⟨ts, t, e1, e2, e3, e4⟩ := hc.state s hlt
      have : ts = (h.trsOf s).map (plainTr extract) := convTrs_eq_map (fun t ht => htr' t (hx.tr s t ht)) e2
      subst this
      refine ⟨t, e1, ?_, e4⟩
      cases hv : h.finOf s with
      | none => rw [hv] at e3; cases e3; rfl
      | some v =>
        rw [hv] at e3
        cases e3 with
        | some e3 =>
          rw [fromGallic_fin_ok (hx.fin s v hv)] at e3
          cases e3
          rfl
    have hplaced : ∀ s, s < h.numStates → g.trsOf s = (h.trsOf s).map (plainTr extract) ++ superTr extract lab h.numStates (h.finOf s) ∧
        g.finOf s = leftFin extract (h.finOf s) := by
      intro s hlt
      obtain ⟨t, -, e2, e3⟩ := hrow s hlt
      subst e2
      cases hv : h.finOf s with
      | none =>
        rw [hv] at e3
        simp only [placed, Option.map_none, Prod.mk.injEq] at e3
        simpa [superTr, leftFin] using e3
      | some v =>
        rw [hv] at e3
        simp only [placed, Option.map_some] at e3
        by_cases he : (readW extract v).2 = EPS
        · simp only [if_pos he] at e3
          rw [if_neg (by simp)] at e3
          simp only [Prod.mk.injEq] at e3
          simp [superTr, leftFin, he, e3]
        · simp only [if_neg he] at e3
          rw [if_pos (Or.inr he)] at e3
          simp only [Prod.mk.injEq] at e3
          simp [superTr, leftFin, he, e3]
    have hused : usesSuper (fromGallic extract lab).action rows = true ↔ ∃ s v, h.finOf s = some v ∧ (readW extract v).2 ≠ EPS := by
      show (rows.any fun r => r.2.any FinalTr.labelled) = true ↔ _
      rw [List.any_eq_true]
      constructor
      · rintro ⟨r, hr, hl⟩
        obtain ⟨s, hlt, rfl⟩ := List.getElem_of_mem hr
        obtain ⟨t, e1, e2, -⟩ := hrow s (by rw [← hc.len]; exact hlt)
        rw [List.getElem?_eq_getElem hlt] at e1
        have e1' := Option.some.inj e1
        rw [e1', Option.any_eq_true] at hl
        obtain ⟨x, hx1, hx2⟩ := hl
        have this : t = some x := hx1
        rw [e2] at this
        cases hv : h.finOf s with
        | none => rw [hv] at this; cases this
        | some v =>
          rw [hv] at this
          simp only [Option.map_some, Option.some.injEq] at this
          refine ⟨s, v, hv, fun he => ?_⟩
          rw [if_pos he] at this
          rw [← this] at hx2
          exact absurd hx2 (by simp [FinalTr.labelled])
      · rintro ⟨s, v, hv, he⟩
        have hlt := Fst.IsFinal.lt (f := h) (q := s) (by rw [Fst.IsFinal, hv]; rfl)
        obtain ⟨t, e1, e2, -⟩ := hrow s hlt
        refine ⟨_, List.mem_of_getElem? e1, ?_⟩
        rw [e2, hv, Option.map_some, if_neg he]
        simp [FinalTr.labelled, he]
    refine ⟨⟨hc.start, ?_, ?_, fun s hlt => (hplaced s hlt).1, fun s hlt => (hplaced s hlt).2, ?_, hc.counters⟩, hc.flags⟩
    · rw [hc.num]; split <;> simp
    · rw [hc.num, ← hused]
      split <;> simp_all
    · intro hn
      refine hc.super ?_
      rw [hc.num] at hn
      by_contra hb
      rw [if_neg hb] at hn
      omega

theorem Extracted.mem {extract : V → R (W × Label)} {lab : Label} {h : Fst V} {g : Fst W} (a : Extracted extract lab h g) {s} {t : Tr W}
    (ht : t ∈ g.trsOf s) : s < h.numStates ∧ ((∃ t' ∈ h.trsOf s, t = plainTr extract t') ∨ (t.nextstate = h.numStates ∧ h.IsFinal s ∧ g.numStates = h.numStates + 1)) := by
  have hlt : s < h.numStates := by
    have h1 := Fst.lt_of_mem_trsOf ht
    by_contra hn
    rcases a.num with h2 | h2
    · omega
    · have : s = h.numStates := by omega
      subst this
      rw [(a.super h2).1] at ht
      cases ht
  refine ⟨hlt, ?_⟩
  rw [a.trs s hlt, List.mem_append, List.mem_map] at ht
  rcases ht with ⟨t', h1, h2⟩ | ht
  · exact Or.inl ⟨t', h1, h2.symm⟩
  · right
    cases hv : h.finOf s with
    | none => rw [hv] at ht; cases ht
    | some v =>
      rw [hv] at ht
      simp only [superTr] at ht
      split at ht
      · cases ht
      · rename_i hl
        rw [List.mem_singleton] at ht
        exact ⟨by rw [ht], by simp [Fst.IsFinal, hv], a.used.2 ⟨s, v, hv, hl⟩⟩

theorem Extracted.old {extract : V → R (W × Label)} {lab : Label} {h : Fst V} {g : Fst W} (a : Extracted extract lab h g) {s} {t : Tr V}
    (ht : t ∈ h.trsOf s) : plainTr extract t ∈ g.trsOf s := by
  rw [a.trs s (Fst.lt_of_mem_trsOf ht), List.mem_append]
  exact Or.inl (List.mem_map.2 ⟨t, ht, rfl⟩)

/-- C60: the flags of the result of `FromGallicConverter` are true. -/
theorem C60_from_gallic_flags {h : Fst V} [Zero V] [One V] {extract : V → R (W × Label)} {lab : Label} {g : Fst W} (hw : h.WF) (ht : h.Truthful)
    (hg : h.weightConvert (fromGallic extract lab) = .ok g) : g.Truthful := by
  by_cases hs : h.start = none
  · rw [C60_no_start h _ hs] at hg
    cases hg
    exact Fst.truthful_new
  obtain ⟨a, hfl⟩ := (C60_from_gallic h extract lab hs).2 g hg
  intro b hb
  rcases hfl b hb with hb | hb
  swap
  · exact hb
  have hE1 : ∀ s q, h.Edge s q → g.Edge s q := by
    rintro s q ⟨t, h1, h2⟩
    exact ⟨_, a.old h1, h2⟩
  have hE2 : ∀ s q, g.Edge s q → (h.Edge s q ∧ q < h.numStates) ∨ q = h.numStates := by
    rintro s q ⟨t, h1, h2⟩
    rcases (a.mem h1).2 with ⟨t', h3, h4⟩ | ⟨h3, -⟩
    · left
      have h5 : t'.nextstate = q := by rw [← h2, h4]; rfl
      exact ⟨⟨t', h3, h5⟩, by rw [← h5]; exact hw.next_lt s t' h3⟩
    · right; rw [← h2]; exact h3
  have hdead : ∀ q, ¬ g.Edge h.numStates q := by
    rintro q ⟨t, h1, -⟩
    exact absurd (a.mem h1).1 (by omega)
  have hT : ∀ s q, Relation.TransGen g.Edge s q → q ≠ h.numStates → Relation.TransGen h.Edge s q := by
    intro s q hsq
    induction hsq with
    | single e => intro hq; exact .single ((hE2 _ _ e).resolve_right hq).1
    | tail _ e ih =>
      intro hq
      refine .tail (ih ?_) ((hE2 _ _ e).resolve_right hq).1
      rintro rfl
      exact hdead _ e
  have hC : ∀ s, g.OnCycle s ↔ h.OnCycle s := by
    intro s
    constructor
    · intro hc
      refine hT s s hc ?_
      rintro rfl
      obtain ⟨q, hq, -⟩ := Relation.TransGen.head'_iff.1 hc
      exact hdead q hq
    · intro hc; exact Relation.TransGen.mono hE1 _ _ hc
  have hR1 : ∀ s q, h.Reach s q → g.Reach s q := fun s q r => Relation.ReflTransGen.mono hE1 _ _ r
  have hR2 : ∀ s q, g.Reach s q → q ≠ h.numStates → h.Reach s q := by
    intro s q r hq
    rcases Relation.reflTransGen_iff_eq_or_transGen.1 r with rfl | r
    · exact .refl
    · exact (hT s q r hq).to_reflTransGen
  have hnn : h.numStates ≤ g.numStates := by rcases a.num with e | e <;> omega
  have hb' := hb
  simp only [fromGallic, Props.and_apply, Bool.and_eq_true] at hb'
  obtain ⟨⟨⟨h1, h2⟩, h3⟩, h4⟩ := hb'
  have hh := ht b h1
  have sub : ∀ s, s < h.numStates → List.Sublist ((h.trsOf s).map (·.ilabel)) ((g.trsOf s).map (·.ilabel)) := by
    intro s hlt
    rw [a.trs s hlt, List.map_append, List.map_map]
    exact List.sublist_append_left _ _
  have coacc : ∀ s, s < h.numStates → (g.Coaccessible s ↔ h.Coaccessible s) := by
    intro s hlt
    constructor
    · rintro ⟨q, r, hq⟩
      by_cases hqn : q = h.numStates
      · subst hqn
        rcases Relation.ReflTransGen.cases_tail r with e | ⟨p, r', ⟨t, ht1, ht2⟩⟩
        · omega
        · rcases (a.mem ht1).2 with ⟨t', ht3, ht4⟩ | ⟨-, hfin, -⟩
          · have := hw.next_lt p t' ht3
            rw [ht4] at ht2
            simp only [plainTr] at ht2
            omega
          · exact ⟨p, hR2 s p r' (by have := (a.mem ht1).1; omega), hfin⟩
      · have hqlt : q < h.numStates := by
          have := Fst.IsFinal.lt hq
          rcases a.num with e | e <;> omega
        refine ⟨q, hR2 s q r hqn, ?_⟩
        rw [Fst.IsFinal, a.fin q hqlt] at hq
        rw [Fst.IsFinal]
        cases hv : h.finOf q with
        | none => rw [hv] at hq; exact hq
        | some v => rfl
    · rintro ⟨q, r, hq⟩
      have hqlt := Fst.IsFinal.lt hq
      cases hv : h.finOf q with
      | none => simp [Fst.IsFinal, hv] at hq
      | some v =>
        by_cases he : (readW extract v).2 = EPS
        · refine ⟨q, hR1 s q r, ?_⟩
          rw [Fst.IsFinal, a.fin q hqlt, hv]
          simp [leftFin, he]
        · have hused := a.used.2 ⟨q, v, hv, he⟩
          refine ⟨h.numStates, (hR1 s q r).tail ⟨⟨lab, (readW extract v).2, (readW extract v).1, h.numStates⟩, ?_, rfl⟩, ?_⟩
          · rw [a.trs q hqlt, hv]
            simp [superTr, he]
          · rw [Fst.IsFinal, (a.super hused).2]; rfl
  cases b <;> first | (exact absurd h2 (by decide)) | (exact absurd h3 (by decide)) | (exact absurd h4 (by decide)) | skip
  case notIDeterministic =>
    refine fun hd => hh fun s => ?_
    by_cases hlt : s < h.numStates
    · exact (hd s).sublist (sub s hlt)
    · rw [Fst.trsOf_of_ge (by omega)]; simp
  case iEpsilons =>
    obtain ⟨s, t, ht1, ht2⟩ := hh
    exact ⟨s, _, a.old ht1, ht2⟩
  case notILabelSorted =>
    refine fun hd => hh fun s => ?_
    by_cases hlt : s < h.numStates
    · exact (hd s).sublist (sub s hlt)
    · rw [Fst.trsOf_of_ge (by omega)]; simp
  case cyclic =>
    obtain ⟨s, hs'⟩ := hh
    exact ⟨s, (hC s).2 hs'⟩
  case acyclic =>
    rintro ⟨s, hs'⟩
    exact hh ⟨s, (hC s).1 hs'⟩
  case initialCyclic =>
    obtain ⟨i, hi, hs'⟩ := hh
    exact ⟨i, a.start.trans hi, (hC i).2 hs'⟩
  case initialAcyclic =>
    rintro ⟨i, hi, hs'⟩
    exact hh ⟨i, a.start.symm.trans hi, (hC i).1 hs'⟩
  case notTopSorted =>
    exact fun hd => hh fun s t ht1 => hd s _ (a.old ht1)
  case notAccessible =>
    refine fun hd => hh fun s hlt => ?_
    obtain ⟨i, hi, r⟩ := hd s (by omega)
    exact ⟨i, a.start.symm.trans hi, hR2 i s r (by omega)⟩
  case coaccessible =>
    intro s hlt
    by_cases hsn : s < h.numStates
    · exact (coacc s hsn).2 (hh s hsn)
    · have hg1 : g.numStates = h.numStates + 1 := by rcases a.num with e | e <;> omega
      have : s = h.numStates := by omega
      subst this
      exact ⟨_, .refl, by rw [Fst.IsFinal, (a.super hg1).2]; rfl⟩
  case notCoaccessible =>
    exact fun hd => hh fun s hlt => (coacc s hlt).1 (hd s (by omega))
  case notString =>
    refine fun hl => hh fun hpos => ?_
    obtain ⟨l1, l2⟩ := hl (by omega)
    refine ⟨a.start.symm.trans l1, fun s hlt => ?_⟩
    have hgs := l2 s (by omega)
    by_cases hsup : g.numStates = h.numStates + 1
    · rw [if_neg (by omega)] at hgs
      obtain ⟨hnf, t, e1, e2⟩ := hgs
      have htm : t ∈ g.trsOf s := by rw [e1]; exact List.mem_singleton_self _
      split
      · rename_i hlast
        rcases (a.mem htm).2 with ⟨t', h5, h6⟩ | ⟨-, hfin, -⟩
        · have := hw.next_lt s t' h5
          rw [h6] at e2
          simp only [plainTr] at e2
          omega
        · refine ⟨hfin, ?_⟩
          have h5 := a.trs s hlt
          rw [e1] at h5
          cases hv : h.finOf s with
          | none => simp [Fst.IsFinal, hv] at hfin
          | some v =>
            rw [hv] at h5
            simp only [superTr] at h5
            have hfg := a.fin s hlt
            rw [hv] at hfg
            by_cases he : (readW extract v).2 = EPS
            · simp only [leftFin, if_pos he] at hfg
              exact absurd (by rw [Fst.IsFinal, hfg]; rfl) hnf
            · rw [if_neg he] at h5
              cases hl : h.trsOf s with
              | nil => rfl
              | cons x xs => rw [hl] at h5; simp at h5
      · rename_i hlast
        have hnotfin : ¬ h.IsFinal s := by
          intro hfin
          cases hv : h.finOf s with
          | none => simp [Fst.IsFinal, hv] at hfin
          | some v =>
            have h5 := a.trs s hlt
            rw [e1, hv] at h5
            simp only [superTr] at h5
            have hfg := a.fin s hlt
            rw [hv] at hfg
            by_cases he : (readW extract v).2 = EPS
            · simp only [leftFin, if_pos he] at hfg
              exact hnf (by rw [Fst.IsFinal, hfg]; rfl)
            · rw [if_neg he] at h5
              cases hl : h.trsOf s with
              | nil =>
                rw [hl] at h5
                simp only [List.map_nil, List.nil_append, List.cons.injEq, and_true] at h5
                rw [h5] at e2
                simp only at e2
                omega
              | cons x xs => rw [hl] at h5; simp at h5
        refine ⟨hnotfin, ?_⟩
        have h5 := a.trs s hlt
        rw [e1, show h.finOf s = none by cases hv : h.finOf s with
          | none => rfl
          | some v => exact absurd (by simp [Fst.IsFinal, hv]) hnotfin] at h5
        simp only [superTr, List.append_nil] at h5
        cases hl : h.trsOf s with
        | nil => rw [hl] at h5; cases h5
        | cons x xs =>
          rw [hl] at h5
          simp only [List.map_cons, List.cons.injEq] at h5
          refine ⟨x, ?_, ?_⟩
          · rw [List.map_eq_nil_iff.1 h5.2.symm]
          · rw [← e2, h5.1]; rfl
    · have hnum : g.numStates = h.numStates := a.num.resolve_right hsup
      have hun : ∀ s v, h.finOf s = some v → (readW extract v).2 = EPS := by
        intro s v hv
        by_contra he
        exact hsup (a.used.2 ⟨s, v, hv, he⟩)
      have hf : g.IsFinal s ↔ h.IsFinal s := by
        rw [Fst.IsFinal, Fst.IsFinal, a.fin s hlt]
        cases hv : h.finOf s with
        | none => simp [leftFin]
        | some v => simp [leftFin, hun s v hv]
      have htr : g.trsOf s = (h.trsOf s).map (plainTr extract) := by
        rw [a.trs s hlt]
        cases hv : h.finOf s with
        | none => simp [superTr]
        | some v => simp [superTr, hun s v hv]
      rw [hnum, hf, htr] at hgs
      split
      · rename_i hlast
        rw [if_pos hlast] at hgs
        exact ⟨hgs.1, List.map_eq_nil_iff.1 hgs.2⟩
      · rename_i hlast
        rw [if_neg hlast] at hgs
        obtain ⟨h5, t, h6, h7⟩ := hgs
        refine ⟨h5, ?_⟩
        cases hl : h.trsOf s with
        | nil => rw [hl] at h6; cases h6
        | cons x xs =>
          rw [hl] at h6
          simp only [List.map_cons, List.cons.injEq] at h6
          refine ⟨x, ?_, ?_⟩
          · rw [List.map_eq_nil_iff.1 h6.2]
          · rw [← h7, ← h6.1]; rfl

end from_

section fromPaths
variable [Zero W] [MulOneClass W] [DecidableEq W]

/-- The accepting paths of `n` transitions from `s`, by whether the final weight carries a label. -/
def legF (extract : V → R (W × Label)) (h : Fst V) (lab : Bool) : Nat → StateId → Multiset (PathT W)
  | 0, s => match h.finOf s with
    | none => 0
    | some v => if decide ((readW extract v).2 ≠ EPS) = lab then {([], strip (readW extract v).2, (readW extract v).1)} else 0
  | n + 1, s => (h.trsOf s : Multiset (Tr V)).bind fun t => (legF extract h lab n t.nextstate).map fun p => (plainTr extract t).asPath.cat p

theorem Extracted.legs {extract : V → R (W × Label)} {h : Fst V} {g : Fst W} (a : Extracted extract EPS h g) (hw : h.WF) :
    ∀ m s, s < h.numStates → g.pathsFrom m s = legF extract h false m s + if m = 0 then 0 else legF extract h true (m - 1) s := by
  intro m
  induction m with
  | zero =>
    intro s hlt
    simp only [Fst.pathsFrom, a.fin s hlt, legF, if_true, add_zero]
    cases hv : h.finOf s with
    | none => rfl
    | some v =>
      by_cases he : (readW extract v).2 = EPS
      · simp [leftFin, he, strip]
      · simp [leftFin, he]
  | succ m ih =>
    intro s hlt
    simp only [Fst.pathsFrom, a.trs s hlt, Nat.add_sub_cancel, Nat.add_one_ne_zero, if_false]
    rw [← Multiset.coe_add, Multiset.add_bind, ← Multiset.map_coe, Multiset.bind_map]
    have e1 : (Multiset.bind (h.trsOf s : Multiset (Tr V)) fun t => (g.pathsFrom m (plainTr extract t).nextstate).map fun p => (plainTr extract t).asPath.cat p) =
        Multiset.bind (h.trsOf s : Multiset (Tr V)) (fun t => (legF extract h false m t.nextstate).map fun p => (plainTr extract t).asPath.cat p) +
        Multiset.bind (h.trsOf s : Multiset (Tr V)) (fun t => (if m = 0 then 0 else legF extract h true (m - 1) t.nextstate).map fun p => (plainTr extract t).asPath.cat p) := by
      rw [← Multiset.bind_add]
      refine Multiset.bind_congr fun t ht => ?_
      rw [← Multiset.map_add]
      congr 1
      exact ih _ (hw.next_lt s t (Multiset.mem_coe.1 ht))
    rw [e1, add_assoc]
    congr 1
    have e2 : (Multiset.bind (superTr extract EPS h.numStates (h.finOf s) : Multiset (Tr W)) fun t => (g.pathsFrom m t.nextstate).map fun p => t.asPath.cat p) =
        if m = 0 then legF extract h true 0 s else 0 := by
      cases hv : h.finOf s with
      | none => simp [superTr, legF, hv]
      | some v =>
        by_cases he : (readW extract v).2 = EPS
        · simp [superTr, legF, hv, he]
        · obtain ⟨s1, s2⟩ := a.super (a.used.2 ⟨s, v, hv, he⟩)
          simp only [superTr, if_neg he, Multiset.coe_singleton, Multiset.singleton_bind]
          cases m with
          | zero => simp [Fst.pathsFrom, s2, legF, hv, he, PathT.cat, Tr.asPath, strip]
          | succ m => simp [Fst.pathsFrom, s1]
    rw [e2]
    cases m with
    | zero => simp
    | succ m => simp [legF]

theorem legF_paths [Mul V] {extract : V → R (W × Label)} {h : Fst V} {mk : List Label → W → V}
    (hm : ∀ l m a b, mk l a * mk m b = mk (l ++ m) (a * b))
    (htr : ∀ s, ∀ t ∈ h.trsOf s, t.weight = mk (strip (readW extract t.weight).2) (readW extract t.weight).1 ∧ t.ilabel = t.olabel)
    (hfin : ∀ s v, h.finOf s = some v → v = mk (strip (readW extract v).2) (readW extract v).1) :
    ∀ n s, (legF extract h false n s + legF extract h true n s).map (fun p => (p.1, p.1, mk p.2.1 p.2.2)) = h.pathsFrom n s := by
  intro n
  induction n with
  | zero =>
    intro s
    simp only [legF, Fst.pathsFrom]
    cases hv : h.finOf s with
    | none => rfl
    | some v =>
      have := hfin s v hv
      by_cases he : (readW extract v).2 = EPS
      · have e : strip (readW extract v).2 = [] := by rw [he]; rfl
        rw [e] at this
        simp [he, strip, ← this]
      · simp only [ne_eq, he, not_false_eq_true, decide_true, Bool.true_eq_false, if_false, if_true, zero_add, Multiset.map_singleton]
        rw [← this]
  | succ n ih =>
    intro s
    simp only [legF, Fst.pathsFrom]
    rw [← Multiset.bind_add, Multiset.map_bind]
    refine Multiset.bind_congr fun t ht => ?_
    obtain ⟨e1, e2⟩ := htr s t (Multiset.mem_coe.1 ht)
    rw [← Multiset.map_add, ← ih t.nextstate, Multiset.map_map, Multiset.map_map]
    refine Multiset.map_congr rfl fun p _ => ?_
    simp only [Function.comp, PathT.cat, Tr.asPath, plainTr, Prod.mk.injEq, true_and]
    rw [← e2, e1, hm]
    refine ⟨rfl, ?_⟩
    rw [← e1]

/-- C60: the paths of the result of `FromGallicConverter` with superfinal label ε. They are grouped by the number `n` of
transitions of the path they come from and the number `k ≤ 1` of added transitions; read back into gallic weights, those with `n` are the paths
of `n` transitions of the input, one for one. -/
theorem C60_from_gallic_paths [Mul V] {h : Fst V} {extract : V → R (W × Label)} {g : Fst W} (hw : h.WF)
    (hg : h.weightConvert (fromGallic extract EPS) = .ok g) {mk : List Label → W → V} (hm : ∀ l m a b, mk l a * mk m b = mk (l ++ m) (a * b))
    (hex : ∀ v w l, extract v = .ok (w, l) → ((∃ s, ∃ t ∈ h.trsOf s, t.weight = v) ∨ (∃ s, h.finOf s = some v)) → v = mk (strip l) w) :
    ∃ part : Nat → Nat → Multiset (PathT W), (∀ m, g.accPaths m = ∑ n ∈ Finset.range (m + 1), part n (m - n)) ∧ (∀ n k, 2 ≤ k → part n k = 0) ∧
      ∀ n, (part n 0 + part n 1).map (fun p => (p.1, p.1, mk p.2.1 p.2.2)) = h.accPaths n := by
  cases hi : h.start with
  | none =>
    rw [C60_no_start h _ hi] at hg
    cases hg
    exact ⟨fun _ _ => 0, fun m => by rw [Fst.accPaths_none (by rfl)]; simp, fun _ _ _ => rfl, fun n => by rw [Fst.accPaths_none hi]; rfl⟩
  | some i =>
    obtain ⟨h1, h2⟩ := C60_from_gallic h extract EPS (by simp [hi])
    obtain ⟨a, -⟩ := h2 g hg
    have hx := h1.1 ⟨g, hg⟩
    refine ⟨fun n k => match k with | 0 => legF extract h false n i | 1 => legF extract h true n i | _ => 0, fun m => ?_, ?_, fun n => ?_⟩
    · rw [Fst.accPaths_some (a.start.trans hi), a.legs hw m i (hw.start_lt i hi)]
      cases m with
      | zero => simp
      | succ m =>
        rw [Finset.sum_range_succ, Finset.sum_range_succ, Finset.sum_eq_zero, Nat.sub_self, Nat.add_sub_cancel_left, zero_add, add_comm]
        · simp
        · intro n hn
          have hn := Finset.mem_range.1 hn
          obtain ⟨k, hk⟩ : ∃ k, m + 1 - n = k + 2 := ⟨m - 1 - n, by omega⟩
          simp only [hk]
    · intro n k hk
      match k, hk with
      | k + 2, _ => rfl
    · rw [Fst.accPaths_some hi]
      refine legF_paths hm (fun s t ht => ⟨hex _ _ _ (hx.tr s t ht).1 (Or.inl ⟨s, t, ht, rfl⟩), (hx.tr s t ht).2⟩)
        (fun s v hv => hex _ _ _ (hx.fin s v hv) (Or.inr ⟨s, hv⟩)) n i

end fromPaths

/-! ### The gallic weights -/

/-- A string with a weight as a proper gallic weight. -/
def GW.single {W : Type u} [Semiring W] (l : List Label) (w : W) : GW W := ⟨[(.labels l, w)], by simp [GGood, GProper]⟩

theorem GW.single_mul {W : Type u} [Semiring W] (l m : List Label) (a b : W) : GW.single l a * GW.single m b = GW.single (l ++ m) (a * b) := by
  have := GW.mul_ok (GW.single l a) (GW.single m b)
  have h2 : (gallicOps (semiOps W anyFlags)).times (GW.single l a).1 (GW.single m b).1 = .ok [(.labels (l ++ m), a * b)] := rfl
  rw [h2] at this
  exact Subtype.ext (Except.ok.inj this).symm

/-- `into` for proper gallic weights; the converter never passes an infinite string. -/
def GW.mk' {W : Type u} [Semiring W] (p : StrW × W) : GW W :=
  match p.1 with
  | .labels l => GW.single l p.2
  | .inf => 0

/-- C60: the gallic weights of the library meet the hypotheses of `C60_to_gallic_paths` and `C60_from_gallic_paths`: pairs with
componentwise products, and the union weights. What the extraction functions return determines the weight, except for a pair that
holds the label 0 and for the union weight zero. -/
theorem C60_gallic_weights :
    (∀ (W : Type u) [MonoidWithZero W], (∀ (l m : List Label) (a b : W), ((.labels l, a) : StrW × W) * (.labels m, b) = (.labels (l ++ m), a * b)) ∧
      ∀ (v : StrW × W) w l, extractPair v = .ok (w, l) → v.1 ≠ .labels [0] → v = (.labels (strip l), w)) ∧
    (∀ (W : Type u) [Semiring W], (∀ (l m : List Label) (a b : W), GW.single l a * GW.single m b = GW.single (l ++ m) (a * b)) ∧
      ∀ (v : GW W) w l, extractUnion v.1 = .ok (w, l) → v ≠ 0 → (∀ a ∈ v.1, a.1 ≠ .labels [0]) → v = GW.single (strip l) w) := by
  have hp : ∀ (W : Type u) (v : StrW × W) w l, extractPair v = .ok (w, l) → v.1 ≠ .labels [0] → v = (.labels (strip l), w) := by
    rintro W ⟨s, a⟩ w l h h0
    match s, h0, h with
    | .labels [], _, h => cases h; rfl
    | .labels [x], h0, h =>
      cases h
      have : l ≠ 0 := fun e => h0 (by rw [e])
      simp [strip, this]
  refine ⟨fun W _ => ⟨fun _ _ _ _ => rfl, hp W⟩, fun W _ => ⟨GW.single_mul, ?_⟩⟩
  rintro ⟨v, hv⟩ w l h hz h0
  cases v with
  | nil => exact absurd rfl hz
  | cons x v =>
    cases v with
    | nil =>
      have := hp W x w l h (h0 x (List.mem_singleton_self _))
      exact Subtype.ext (show [x] = _ by rw [this]; rfl)
    | cons y v => cases h

/-- Converting to gallic weights and back: the labels are in the weights in between. -/
example : ∃ g : Fst (StrW × Nat), exTwoTape.weightConvert (toGallic id) = .ok g ∧ g.accPaths 2 = {([1], [1], (.labels [5, 4], 42)), ([1], [1], (.labels [4], 21))} ∧
    ∃ f, g.weightConvert (fromGallic extractPair EPS) = .ok f ∧ f.accPaths 2 = exTwoTape.accPaths 2 := by
  refine ⟨_, rfl, by decide, _, rfl, by decide⟩

/-- An acceptor over gallic weights with a label in its final weight. -/
def exGallicFin : Fst (StrW × Nat) := ((Fst.new.addStates 1).setStart 0).setFinal 0 (.labels [7], 3)
example : ∃ f, exGallicFin.weightConvert (fromGallic extractPair EPS) = .ok f ∧ f.numStates = 2 ∧ f.accPaths 1 = {([], [7], 3)} ∧ f.accPaths 0 = 0 := by
  refine ⟨_, rfl, by decide, by decide, by decide⟩

/-- A string of two labels cannot be moved out of a final weight: a panic; on a transition it is an error. -/
theorem C60_from_gallic_panics : (((Fst.new.addStates 1).setStart 0).setFinal 0 (.labels [7, 8], 3) : Fst (StrW × Nat)).weightConvert (fromGallic extractPair EPS) = .error .panic ∧
    ((((Fst.new.addStates 1).setStart 0).addTr 0 ⟨1, 1, (.labels [7, 8], 3), 0⟩) : Fst (StrW × Nat)).weightConvert (fromGallic extractPair EPS) = .error .err :=
  ⟨rfl, rfl⟩

/-- Defect: a stored final weight zero, which the other algorithms accept, is refused. -/
theorem C60_zero_final_defect : ((((Fst.new.addStates 1).setStart 0).setFinal 0 0) : Fst Nat).WF ∧
    ((((Fst.new.addStates 1).setStart 0).setFinal 0 0) : Fst Nat).weightConvert (toGallic (W := Nat) (V := StrW × Nat) id) = .error .err := by
  refine ⟨⟨by decide, ?_⟩, rfl⟩
  intro s t ht
  have : (((Fst.new.addStates 1).setStart 0).setFinal 0 0 : Fst Nat).trsOf s = [] := by
    cases s <;> rfl
  rw [this] at ht; cases ht

/-- Defect: `SimpleWeightConverter` keeps the flags about weights, but one semiring's one is another's zero or an ordinary weight. The tropical weight 1 is not
trivial, the probability 1 is. -/
theorem C60_simple_flags_defect : ∃ (f : Fst (TW Rat)) (g : Fst Rat), f.WF ∧ f.Truthful ∧
    f.weightConvert (simpleConverter fun w => match w with | .fin x => x | _ => 0) = .ok g ∧
    g.props .weighted = true ∧ g.props .unweighted = true ∧ ¬ g.Holds .weighted := by
  refine ⟨⟨[⟨some (.fin 1), [], 0, 0⟩], some 0, Props.of [.weighted]⟩, _, ⟨by decide, ?_⟩, ?_, rfl, by decide, by decide, ?_⟩
  · intro s t ht
    cases s <;> cases ht
  · intro b hb
    have : b = .weighted := by cases b <;> first | rfl | (revert hb; decide)
    subst this
    intro h
    rcases h.2 0 (.fin 1) rfl with h | h <;> exact absurd h (by decide)
  · intro h
    refine h ⟨fun s t ht => ?_, fun s w hw => ?_⟩
    · cases s <;> cases ht
    · cases s with
      | zero => cases hw; exact Or.inr rfl
      | succ s => cases hw

end Verif
