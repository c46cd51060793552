import Verif.Model.SymFst
import Verif.Props.C23
import Verif.Props.C08

/-! # Lemmas for `relabel_tables` and the strings of paths -/

namespace Verif
set_option linter.unusedSectionVars false
universe u
variable {W : Type u} [Zero W] [One W] [DecidableEq W]
open Fst

theorem tryEach_from (P : Nat → Fst W → Prop) (E : Fst W → Prop) (step : Fst W → Nat → Fst W × R Unit) (n : Nat)
    (hs : ∀ i g, i < n → P i g → (∃ g', step g i = (g', .ok ()) ∧ P (i + 1) g') ∨ (∃ g', step g i = (g', .error .err) ∧ E g')) :
    ∀ m a f, a + m = n → P a f →
      (∃ g, tryEach step (List.range' a m) f = (g, .ok ()) ∧ P n g) ∨ (∃ g, tryEach step (List.range' a m) f = (g, .error .err) ∧ E g)
  | 0, a, f, h, hP => Or.inl ⟨f, rfl, by rw [← h]; exact hP⟩
  | m + 1, a, f, h, hP => by
    rw [List.range'_succ]
    unfold tryEach
    rcases hs a f (by omega) hP with ⟨g, e, h1⟩ | ⟨g, e, h1⟩
    · rw [e]
      exact tryEach_from P E step n hs m (a + 1) g (by omega) h1
    · rw [e]
      exact Or.inr ⟨g, rfl, h1⟩

/-- A loop over `0..n` with early exit keeps an invariant or ends in an error. -/
theorem tryEach_cases (P : Nat → Fst W → Prop) (E : Fst W → Prop) (step : Fst W → Nat → Fst W × R Unit) (n : Nat) (f : Fst W)
    (h0 : P 0 f)
    (hs : ∀ i g, i < n → P i g → (∃ g', step g i = (g', .ok ()) ∧ P (i + 1) g') ∨ (∃ g', step g i = (g', .error .err) ∧ E g')) :
    (∃ g, tryEach step (List.range n) f = (g, .ok ()) ∧ P n g) ∨ (∃ g, tryEach step (List.range n) f = (g, .error .err) ∧ E g) := by
  rw [List.range_eq_range']
  exact tryEach_from P E step n hs n 0 f (by omega) h0

/-- Both labels of the transition have a new label. -/
def Mappable (mi mo : Label → Option Label) (t : Tr W) : Prop := (mi t.ilabel).isSome = true ∧ (mo t.olabel).isSome = true

/-- What every intermediate FST `g` of the loops has in common with the FST `f` before them. -/
structure Between (mi mo : Label → Option Label) (f g : Fst W) : Prop where
  trs : ∀ (s j : Nat), (g.trsOf s)[j]? = (f.trsOf s)[j]? ∨ (g.trsOf s)[j]? = ((f.trsOf s)[j]?).map (mapLabels mi mo)
  fin : ∀ s, g.finOf s = f.finOf s
  num : g.numStates = f.numStates
  start : g.start = f.start
  counters : f.AllCounters → g.AllCounters
  truthful : f.Truthful → g.Truthful

theorem relabelTablesTr_ok {f : Fst W} {s i : Nat} {t : Tr W} {mi mo : Label → Option Label} (h : (f.trsOf s)[i]? = some t)
    (hm : Mappable mi mo t) : ∃ g, relabelTablesTr mi mo f s i = (g, .ok ()) ∧
      (∀ q, g.trsOf q = if q = s then (f.trsOf s).set i (mapLabels mi mo t) else f.trsOf q) ∧ (∀ q, g.finOf q = f.finOf q) ∧
      g.numStates = f.numStates ∧ g.start = f.start ∧ (f.AllCounters → g.AllCounters) ∧ (f.Truthful → g.Truthful) := by
  have hmem := List.mem_of_getElem? h
  have hl : s < f.states.length := lt_of_mem_trsOf hmem
  obtain ⟨a, ha⟩ := Option.isSome_iff_exists.1 hm.1
  obtain ⟨b, hb⟩ := Option.isSome_iff_exists.1 hm.2
  have hi := (List.getElem?_eq_some_iff.1 h).1
  have e1 : f.setIlabelR s i a = (f.replaceTr s i { t with ilabel := a } (updEps t.ilabel a) id
      (Props.newLabels f.props t.ilabel t.olabel a t.olabel), .ok ()) := by
    simp only [setIlabelR, hl, if_true, h]
  have h2 : ((f.replaceTr s i { t with ilabel := a } (updEps t.ilabel a) id
      (Props.newLabels f.props t.ilabel t.olabel a t.olabel)).trsOf s)[i]? = some { t with ilabel := a } := by
    rw [replaceTr_trsOf, if_pos rfl, List.getElem?_set_self hi]
  have hn : (f.replaceTr s i { t with ilabel := a } (updEps t.ilabel a) id
      (Props.newLabels f.props t.ilabel t.olabel a t.olabel)).numStates = f.numStates := by simp
  have hfin : ∀ q, (f.replaceTr s i { t with ilabel := a } (updEps t.ilabel a) id
      (Props.newLabels f.props t.ilabel t.olabel a t.olabel)).finOf q = f.finOf q := by simp
  have htr : ∀ q, (f.replaceTr s i { t with ilabel := a } (updEps t.ilabel a) id
      (Props.newLabels f.props t.ilabel t.olabel a t.olabel)).trsOf q = if q = s then (f.trsOf s).set i { t with ilabel := a } else f.trsOf q :=
    fun q => by rw [replaceTr_trsOf]
  have hst : (f.replaceTr s i { t with ilabel := a } (updEps t.ilabel a) id
      (Props.newLabels f.props t.ilabel t.olabel a t.olabel)).start = f.start := by simp
  have hc : f.AllCounters → (f.replaceTr s i { t with ilabel := a } (updEps t.ilabel a) id
      (Props.newLabels f.props t.ilabel t.olabel a t.olabel)).AllCounters := fun hc => allCounters_replaceTr hc h (Or.inl rfl) (Or.inr ⟨rfl, rfl⟩)
  have ht : f.Truthful → (f.replaceTr s i { t with ilabel := a } (updEps t.ilabel a) id
      (Props.newLabels f.props t.ilabel t.olabel a t.olabel)).Truthful :=
    fun tf => truthful_replaceTr tf h (fun b hb => updOk_newLabels tf hmem _ _ b hb)
  unfold relabelTablesTr
  simp only [h, ha, hb, e1]
  generalize (f.replaceTr s i { t with ilabel := a } (updEps t.ilabel a) id
      (Props.newLabels f.props t.ilabel t.olabel a t.olabel)) = g at *
  have hl2 : s < g.states.length := by have := hn; unfold numStates at this; omega
  have hmem2 := List.mem_of_getElem? h2
  have e2 : g.setOlabelR s i b = (g.replaceTr s i { t with ilabel := a, olabel := b } id (updEps t.olabel b)
      (Props.newLabels g.props a t.olabel a b), .ok ()) := by
    simp only [setOlabelR, hl2, if_true, h2]
  refine ⟨_, e2, fun q => ?_, fun q => ?_, ?_, ?_, fun h' => ?_, fun h' => ?_⟩
  · rw [replaceTr_trsOf, htr, htr]
    by_cases hq : q = s
    · simp [hq, mapLabels, ha, hb]
    · simp [hq]
  · simp [hfin]
  · simp [hn]
  · simp [hst]
  · exact allCounters_replaceTr (hc h') h2 (Or.inr ⟨rfl, rfl⟩) (Or.inl rfl)
  · exact truthful_replaceTr (ht h') h2 (fun b hb => updOk_newLabels (ht h') hmem2 _ _ b hb)

theorem relabelTablesTr_err {f : Fst W} {s i : Nat} {t : Tr W} {mi mo : Label → Option Label} (h : (f.trsOf s)[i]? = some t)
    (hm : ¬ Mappable mi mo t) : relabelTablesTr mi mo f s i = (f, .error .err) := by
  unfold relabelTablesTr
  simp only [h]
  cases ha : mi t.ilabel with
  | none => rfl
  | some a =>
    cases hb : mo t.olabel with
    | none => rfl
    | some b => exact absurd ⟨by rw [ha]; rfl, by rw [hb]; rfl⟩ hm

theorem between_refl (mi mo : Label → Option Label) (f : Fst W) : Between mi mo f f :=
  ⟨fun _ _ => Or.inl rfl, fun _ => rfl, rfl, rfl, id, id⟩

/-- One state. `g` is the FST before the loop; state `s` of `g` is still as in `f`. -/
theorem relabelTablesSt_spec {mi mo : Label → Option Label} {f g : Fst W} (hg : Between mi mo f g) {s : Nat}
    (hgs : g.trsOf s = f.trsOf s) :
    (∃ g', relabelTablesSt mi mo g s = (g', .ok ()) ∧ Between mi mo f g' ∧
      (∀ q, g'.trsOf q = if q = s then (f.trsOf s).map (mapLabels mi mo) else g.trsOf q) ∧ ∀ t ∈ f.trsOf s, Mappable mi mo t) ∨
    (∃ g', relabelTablesSt mi mo g s = (g', .error .err) ∧ Between mi mo f g' ∧ ∃ t ∈ f.trsOf s, ¬ Mappable mi mo t) := by
  classical
  rcases tryEach_cases (fun i g' => Between mi mo f g' ∧ (∀ q, q ≠ s → g'.trsOf q = g.trsOf q) ∧
      (∀ j, (g'.trsOf s)[j]? = if j < i then ((f.trsOf s)[j]?).map (mapLabels mi mo) else (f.trsOf s)[j]?) ∧
      ∀ j t, j < i → (f.trsOf s)[j]? = some t → Mappable mi mo t)
    (fun g' => Between mi mo f g' ∧ ∃ t ∈ f.trsOf s, ¬ Mappable mi mo t)
    (fun f i => relabelTablesTr mi mo f s i) (g.trsOf s).length g
    ⟨hg, fun _ _ => rfl, fun j => by rw [if_neg (by omega), hgs], fun j t h => absurd h (by omega)⟩ (by
      rintro i g1 hi ⟨h1, h2, h3, h4⟩
      rw [hgs] at hi
      have hf := List.getElem?_eq_getElem hi
      have ht : (g1.trsOf s)[i]? = some (f.trsOf s)[i] := by rw [h3, if_neg (by omega), hf]
      by_cases hm : Mappable mi mo (f.trsOf s)[i]
      · obtain ⟨g', e, a, b, c, d, k1, k2⟩ := relabelTablesTr_ok ht hm
        have hi1 := (List.getElem?_eq_some_iff.1 ht).1
        have hset : ∀ j, (g'.trsOf s)[j]? = if j < i + 1 then ((f.trsOf s)[j]?).map (mapLabels mi mo) else (f.trsOf s)[j]? := by
          intro j
          rw [a, if_pos rfl, List.getElem?_set]
          by_cases hj : i = j
          · subst hj
            rw [if_pos rfl, if_pos hi1, if_pos (by omega), hf]; rfl
          · rw [if_neg hj, h3]
            by_cases hj' : j < i
            · rw [if_pos hj', if_pos (by omega)]
            · rw [if_neg hj', if_neg (by omega)]
        refine Or.inl ⟨g', e, ⟨fun q j => ?_, fun q => by rw [b, h1.fin], by rw [c, h1.num], by rw [d, h1.start],
          fun h => k1 (h1.counters h), fun h => k2 (h1.truthful h)⟩, fun q hq => by rw [a, if_neg hq, h2 q hq], hset, fun j t hj hjt => ?_⟩
        · by_cases hq : q = s
          · subst hq
            rw [hset]
            split
            · exact Or.inr rfl
            · exact Or.inl rfl
          · rw [a, if_neg hq]; exact h1.trs q j
        · by_cases hj' : j = i
          · subst hj'
            rw [hf] at hjt
            cases hjt
            exact hm
          · exact h4 j t (by omega) hjt
      · exact Or.inr ⟨g1, relabelTablesTr_err ht hm, h1, _, List.getElem_mem hi, hm⟩) with ⟨g', e, h1, h2, h3, h4⟩ | ⟨g', e, h1⟩
  · refine Or.inl ⟨g', e, h1, fun q => ?_, fun t ht => ?_⟩
    · by_cases hq : q = s
      · subst hq
        rw [if_pos rfl]
        apply List.ext_getElem?
        intro j
        rw [h3, List.getElem?_map, hgs]
        split
        · rfl
        · rw [List.getElem?_eq_none (by omega)]; rfl
      · rw [if_neg hq, h2 q hq]
    · obtain ⟨j, hj⟩ := List.mem_iff_getElem?.1 ht
      exact h4 j t (by rw [hgs]; exact (List.getElem?_eq_some_iff.1 hj).1) hj
  · exact Or.inr ⟨g', e, h1⟩

/-- Both loops. -/
theorem relabelTables_loop (mi mo : Label → Option Label) (f : Fst W) :
    (∃ g, tryEach (relabelTablesSt mi mo) (List.range f.numStates) f = (g, .ok ()) ∧ Between mi mo f g ∧
      Relab f g (mapLabels mi mo) ∧ ∀ s, ∀ t ∈ f.trsOf s, Mappable mi mo t) ∨
    (∃ g, tryEach (relabelTablesSt mi mo) (List.range f.numStates) f = (g, .error .err) ∧ Between mi mo f g ∧
      ∃ s, ∃ t ∈ f.trsOf s, ¬ Mappable mi mo t) := by
  rcases tryEach_cases (fun i g => Between mi mo f g ∧
      (∀ q, g.trsOf q = if q < i then (f.trsOf q).map (mapLabels mi mo) else f.trsOf q) ∧
      ∀ q, q < i → ∀ t ∈ f.trsOf q, Mappable mi mo t)
    (fun g => Between mi mo f g ∧ ∃ s, ∃ t ∈ f.trsOf s, ¬ Mappable mi mo t)
    (relabelTablesSt mi mo) f.numStates f
    ⟨between_refl mi mo f, fun _ => by simp, fun q h => absurd h (by omega)⟩ (by
      rintro i g hi ⟨h1, h2, h3⟩
      rcases relabelTablesSt_spec h1 (by rw [h2, if_neg (by omega)] : g.trsOf i = f.trsOf i) with ⟨g', e, k1, k2, k3⟩ | ⟨g', e, k1, k2⟩
      · refine Or.inl ⟨g', e, k1, fun q => ?_, fun q hq => ?_⟩
        · rw [k2]
          by_cases hq : q = i
          · subst hq; rw [if_pos rfl, if_pos (by omega)]
          · rw [if_neg hq, h2]
            by_cases hq' : q < i
            · rw [if_pos hq', if_pos (by omega)]
            · rw [if_neg hq', if_neg (by omega)]
        · by_cases hq' : q = i
          · subst hq'; exact k3
          · exact h3 q (by omega)
      · exact Or.inr ⟨g', e, k1, i, k2⟩) with ⟨g, e, h1, h2, h3⟩ | ⟨g, e, h1⟩
  · refine Or.inl ⟨g, e, h1, ⟨fun s => ?_, h1.fin, h1.num, h1.start, fun _ => rfl⟩, fun s t ht => ?_⟩
    · rw [h2]
      split
      · rfl
      · rename_i h; rw [trsOf_of_ge (by omega)]; rfl
    · exact h3 s (lt_of_mem_trsOf ht) t ht
  · exact Or.inr ⟨g, e, h1⟩

/-! ## Strings -/

/-- The labels on a path are labels of transitions, and not ε. -/
theorem labels_of_pathsFrom {V : Type u} [Mul V] (f : Fst V) : ∀ n s (p : PathT V), p ∈ f.pathsFrom n s →
    (∀ l ∈ p.1, l ≠ EPS ∧ ∃ q, ∃ t ∈ f.trsOf q, t.ilabel = l) ∧ (∀ l ∈ p.2.1, l ≠ EPS ∧ ∃ q, ∃ t ∈ f.trsOf q, t.olabel = l)
  | 0, s, p, h => by
    unfold pathsFrom at h
    cases hf : f.finOf s with
    | none => rw [hf] at h; simp at h
    | some w => rw [hf] at h; simp only [Multiset.mem_singleton] at h; subst h; simp
  | n + 1, s, p, h => by
    unfold pathsFrom at h
    rw [Multiset.mem_bind] at h
    obtain ⟨t, ht, h⟩ := h
    rw [Multiset.mem_coe] at ht
    rw [Multiset.mem_map] at h
    obtain ⟨p', hp, rfl⟩ := h
    obtain ⟨h1, h2⟩ := labels_of_pathsFrom f n _ p' hp
    have key : ∀ l a : Label, l ∈ strip a → l ≠ EPS ∧ a = l := by
      intro l a h
      unfold strip at h
      split at h
      · cases h
      · rename_i hne; rw [List.mem_singleton] at h; subst h; exact ⟨hne, rfl⟩
    constructor
    · intro l hl
      rcases List.mem_append.1 hl with h | h
      · exact ⟨(key l _ h).1, s, t, ht, (key l _ h).2⟩
      · exact h1 l h
    · intro l hl
      rcases List.mem_append.1 hl with h | h
      · exact ⟨(key l _ h).1, s, t, ht, (key l _ h).2⟩
      · exact h2 l h

theorem labels_of_accPaths {V : Type u} [Mul V] (f : Fst V) (n) (p : PathT V) (h : p ∈ f.accPaths n) :
    (∀ l ∈ p.1, l ≠ EPS ∧ ∃ q, ∃ t ∈ f.trsOf q, t.ilabel = l) ∧ (∀ l ∈ p.2.1, l ≠ EPS ∧ ∃ q, ∃ t ∈ f.trsOf q, t.olabel = l) := by
  unfold accPaths at h
  cases hs : f.start with
  | none => rw [hs] at h; simp at h
  | some s => rw [hs] at h; exact labels_of_pathsFrom f n s p h

/-- Replace every label of a string. -/
def mapString (m : Label → Option Label) (x : List Label) : List Label := x.flatMap fun l => strip ((m l).getD l)

section
variable {old new : SymTable} {e : String}

theorem newLabel_eps (hn : new.Ok) (ho0 : old.getSymbol EPS = some e) (hn0 : new.getSymbol EPS = some e) : newLabel old new EPS = some EPS := by
  unfold newLabel
  rw [ho0]
  exact (hn _ _).2 hn0

theorem newLabel_ne (ho : old.Ok) (hn : new.Ok) (ho0 : old.getSymbol EPS = some e) (hn0 : new.getSymbol EPS = some e) {l a : Label}
    (hl : l ≠ EPS) (h : newLabel old new l = some a) : a ≠ EPS ∧ new.getSymbol a = old.getSymbol l := by
  unfold newLabel at h
  cases hs : old.getSymbol l with
  | none => rw [hs] at h; cases h
  | some x =>
    rw [hs] at h
    have h1 : new.getSymbol a = some x := (hn _ _).1 h
    refine ⟨fun ha => ?_, h1⟩
    subst ha
    rw [hn0] at h1
    cases h1
    have h2 := (ho _ _).2 hs
    have h3 := (ho _ _).2 ho0
    rw [h2] at h3
    cases h3
    exact hl rfl

theorem symbolsOf_mapString (ho : old.Ok) (hn : new.Ok) (ho0 : old.getSymbol EPS = some e) (hn0 : new.getSymbol EPS = some e) :
    ∀ x : List Label, (∀ l ∈ x, l ≠ EPS ∧ (newLabel old new l).isSome = true) →
      symbolsOf new (mapString (newLabel old new) x) = symbolsOf old x ∧ ∃ xs, symbolsOf old x = .ok xs
  | [], _ => ⟨rfl, [], rfl⟩
  | l :: x, h => by
    obtain ⟨hl, hs⟩ := h l List.mem_cons_self
    obtain ⟨a, ha⟩ := Option.isSome_iff_exists.1 hs
    obtain ⟨hne, hsym⟩ := newLabel_ne ho hn ho0 hn0 hl ha
    obtain ⟨e1, xs, e2⟩ := symbolsOf_mapString ho hn ho0 hn0 x (fun l hl => h l (List.mem_cons_of_mem _ hl))
    have : mapString (newLabel old new) (l :: x) = a :: mapString (newLabel old new) x := by
      unfold mapString
      rw [List.flatMap_cons, ha]
      simp [strip, hne]
    have hx : ∃ y, old.getSymbol l = some y := by
      unfold newLabel at ha
      cases hy : old.getSymbol l with
      | none => rw [hy] at ha; cases ha
      | some y => exact ⟨y, rfl⟩
    obtain ⟨y, hy⟩ := hx
    rw [this]
    unfold symbolsOf
    rw [hsym, hy]
    simp only [e1, e2]
    exact ⟨trivial, _, rfl⟩
end

/-- The strings of a label list: the symbols of the labels, separated by spaces. -/
theorem symbolsOf_ok (t : SymTable) : ∀ (x : List Label) (xs : List String),
    symbolsOf t x = .ok xs ↔ List.Forall₂ (fun l s => t.getSymbol l = some s) x xs
  | [], xs => by
    unfold symbolsOf
    constructor
    · intro h; cases h; exact .nil
    · intro h; cases h; rfl
  | l :: x, xs => by
    unfold symbolsOf
    cases hs : t.getSymbol l with
    | none =>
      simp only
      constructor
      · intro h; cases h
      · intro h
        cases h with
        | cons h1 h2 => rw [hs] at h1; cases h1
    | some y =>
      simp only
      cases hx : symbolsOf t x with
      | error e =>
        simp only
        constructor
        · intro h; cases h
        · intro h
          cases h with
          | cons h1 h2 =>
            rw [(symbolsOf_ok t x _).2 h2] at hx; cases hx
      | ok ys =>
        simp only
        constructor
        · intro h
          cases h
          exact .cons hs ((symbolsOf_ok t x ys).1 hx)
        · intro h
          cases h with
          | cons h1 h2 =>
            rw [hs] at h1
            cases h1
            rw [(symbolsOf_ok t x _).2 h2] at hx
            cases hx
            rfl

theorem symbolsOf_err (t : SymTable) : ∀ x : List Label, (∃ l ∈ x, t.getSymbol l = none) → symbolsOf t x = .error .err
  | [], h => by obtain ⟨l, h, -⟩ := h; cases h
  | l :: x, h => by
    unfold symbolsOf
    cases hs : t.getSymbol l with
    | none => rfl
    | some y =>
      simp only
      obtain ⟨l', h1, h2⟩ := h
      rcases List.mem_cons.1 h1 with rfl | h1
      · rw [hs] at h2; cases h2
      · rw [symbolsOf_err t x ⟨l', h1, h2⟩]

theorem nexts_eq {V : Type u} [Mul V] (f : Fst V) (fuel : Nat) (i o : SymTable) : ∀ (k : Nat) (q : Fst.PathQueue V),
    StringPaths.nexts f fuel k ⟨i, o, q⟩ = ((f.nextPaths fuel k q).map Prod.fst).map fun l => l.map fun r => r.map fun p => ⟨p, i, o⟩
  | 0, q => rfl
  | k + 1, q => by
    unfold StringPaths.nexts StringPaths.next nextPaths
    cases h : f.nextPath fuel q with
    | none => rfl
    | some r =>
      obtain ⟨r, q'⟩ := r
      simp only [nexts_eq f fuel i o k q']
      cases h2 : f.nextPaths fuel k q' with
      | none => rfl
      | some r2 => rfl

end Verif
