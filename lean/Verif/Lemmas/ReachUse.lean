import Verif.Lemmas.ReachData
import Verif.Props.C12

/-!
# `LabelReachable`: relabelling and the search for transitions
-/

namespace Verif
universe u
variable {W : Type u}
open LabelReachable LabelReachableData

/-! ## Relabelling -/

/-- `D` has all entries of `d` and perhaps more. -/
structure LabelReachableData.Le (d D : LabelReachableData) : Prop where
  side : D.reachInput = d.reachInput
  fin : D.finalLabel = d.finalLabel
  sets : D.isets = d.isets ∧ D.nIsets = d.nIsets
  map : ∃ e, D.label2index = d.label2index ++ e

theorem LabelReachableData.Le.refl (d : LabelReachableData) : d.Le d := ⟨rfl, rfl, ⟨rfl, rfl⟩, [], by simp⟩
theorem LabelReachableData.Le.trans {a b c : LabelReachableData} (h : a.Le b) (k : b.Le c) : a.Le c := by
  obtain ⟨x, hx⟩ := h.map
  obtain ⟨y, hy⟩ := k.map
  exact ⟨k.side.trans h.side, k.fin.trans h.fin, ⟨k.sets.1.trans h.sets.1, k.sets.2.trans h.sets.2⟩, x ++ y, by rw [hy, hx, List.append_assoc]⟩

/-- The number of a label. -/
def LabelReachableData.look (d : LabelReachableData) (l : Label) : Label := if l = EPS then EPS else (d.label2index.get l).getD 0

theorem relabel_le (d : LabelReachableData) (l : Label) : d.Le (d.relabel l).1 := by
  unfold relabel
  split
  · exact .refl _
  · cases d.label2index.get l with
    | some x => exact .refl _
    | none => exact ⟨rfl, rfl, ⟨rfl, rfl⟩, _, rfl⟩

theorem relabel_look {d D : LabelReachableData} {l : Label} (h : (d.relabel l).1.Le D) : (d.relabel l).2 = D.look l ∧
    (l ≠ EPS → D.label2index.get l = some (D.look l)) := by
  obtain ⟨e, he⟩ := h.map
  unfold look
  unfold relabel at he ⊢
  by_cases hl : l = EPS
  · simp [hl]
  · rw [if_neg hl] at he ⊢
    rw [if_neg hl]
    cases hg : d.label2index.get l with
    | some x =>
      rw [hg] at he
      rw [he, ReachMap.get_append hg]
      simp
    | none =>
      rw [hg] at he
      simp only at he
      rw [he, ReachMap.get_append (ReachMap.get_snoc hg)]
      simp

section
variable [Zero W] [One W] [DecidableEq W]

theorem DInv.relabel {f : Fst W} {input : Bool} {d : LabelReachableData} (h : DInv f input d) {l : Label} (hl : l ≠ NO_LABEL) :
    DInv f input (d.relabel l).1 := by
  unfold LabelReachableData.relabel
  split
  · exact h
  · next he =>
    cases hg : d.label2index.get l with
    | some x => exact h
    | none =>
      have hnot : ∀ s, s < f.numStates → ¬ Goes f input s l := fun s hs hgo => by
        have := h.known s hs l he hgo
        rw [hg] at this; cases this
      have hget : ∀ k, k ≠ l → ReachMap.get (d.label2index ++ [(l, d.label2index.length + 1)]) k = d.label2index.get k := by
        intro k hk
        cases hgk : d.label2index.get k with
        | some x => exact ReachMap.get_append hgk
        | none =>
          rw [ReachMap.get_none] at hgk ⊢
          simp only [List.map_append, List.map_cons, List.map_nil, List.mem_append, List.mem_singleton, not_or]
          exact ⟨hgk, hk⟩
      refine ⟨h.side, h.nIsets, ?_, ?_, ?_, h.norm, ?_, ?_, ?_⟩
      · simp only [List.map_append, List.map_cons, List.map_nil]
        rw [List.nodup_append]
        refine ⟨h.keys, by simp, fun a ha b hb => ?_⟩
        rw [List.mem_singleton] at hb
        rintro rfl
        exact ReachMap.get_none.1 hg (hb ▸ ha)
      · simp only [List.map_append, List.map_cons, List.map_nil, List.mem_append, List.mem_singleton, not_or]
        exact ⟨h.noEps, fun e => he e.symm⟩
      · simp only [List.map_append, List.map_cons, List.map_nil, List.length_append, List.length_cons, List.length_nil]
        rw [List.range'_concat]
        have : d.label2index.length + 1 = 1 + 1 * d.label2index.length := by omega
        rw [this]
        exact h.vals.append_right _
      · intro s hs v
        rw [h.mem s hs v]
        constructor
        · rintro ⟨k, h1, h2, h3⟩
          exact ⟨k, h1, ReachMap.get_append h2, h3⟩
        · rintro ⟨k, h1, h2, h3⟩
          by_cases e : k = l
          · subst e; exact absurd h3 (hnot s hs)
          · exact ⟨k, h1, by rw [← hget k e]; exact h2, h3⟩
      · intro s hs k h1 h2
        by_cases e : k = l
        · subst e; exact absurd h2 (hnot s hs)
        · simp only; rw [hget k e]; exact h.known s hs k h1 h2
      · simp only
        rw [hget NO_LABEL (Ne.symm hl)]
        exact h.fin

/-- Different labels have different numbers. -/
theorem DInv.inj {f : Fst W} {input : Bool} {d : LabelReachableData} (h : DInv f input d) {l k x : Nat} (h1 : d.label2index.get l = some x)
    (h2 : d.label2index.get k = some x) : l = k := by
  have hnd : (d.label2index.map Prod.snd).Nodup := h.vals.nodup_iff.2 List.nodup_range'
  exact congrArg Prod.fst (List.inj_on_of_nodup_map hnd (ReachMap.get_mem h1) (ReachMap.get_mem h2) rfl)

theorem DInv.pos {f : Fst W} {input : Bool} {d : LabelReachableData} (h : DInv f input d) {l x : Nat} (h1 : d.label2index.get l = some x) :
    1 ≤ x := by
  have := List.mem_map_of_mem (f := Prod.snd) (ReachMap.get_mem h1)
  rw [h.vals.mem_iff, List.mem_range'_1] at this
  exact this.1

theorem DInv.mem_look {f : Fst W} {input : Bool} {d : LabelReachableData} (h : DInv f input d) {s : StateId} (hs : s < f.numStates) {l : Label}
    (hl : l ≠ EPS) (hl' : l ≠ NO_LABEL) {x : Nat} (hx : d.label2index.get l = some x) : (d.isets s).Mem x ↔ f.CanRead input s l := by
  rw [h.mem s hs]
  have : Goes f input s l ↔ f.CanRead input s l := by unfold Goes; rw [if_neg hl']
  rw [← this]
  constructor
  · rintro ⟨k, -, h2, h3⟩
    rw [h.inj hx h2]; exact h3
  · intro h3; exact ⟨l, hl, hx, h3⟩

theorem DInv.zero {f : Fst W} {input : Bool} {d : LabelReachableData} (h : DInv f input d) {s : StateId} (hs : s < f.numStates) : ¬ (d.isets s).Mem 0 := by
  rw [h.mem s hs]
  rintro ⟨k, -, h2, -⟩
  have := h.pos h2
  omega

theorem DInv.final {f : Fst W} {input : Bool} {d : LabelReachableData} (h : DInv f input d) {s : StateId} (hs : s < f.numStates) :
    (d.isets s).Mem d.finalLabel ↔ f.CanEnd input s := by
  rcases h.fin with h1 | ⟨h1, h2⟩
  · rw [h.mem s hs]
    have hG : Goes f input s NO_LABEL ↔ f.CanEnd input s := by unfold Goes; rw [if_pos rfl]
    rw [← hG]
    constructor
    · rintro ⟨k, -, h2, h3⟩
      rw [h.inj h1 h2]; exact h3
    · intro h3; exact ⟨NO_LABEL, by decide, h1, h3⟩
  · exact ⟨fun h' => absurd h' (h2 s hs), fun h' => absurd h' (h1 s hs)⟩

/-- The relabelling of a transition with the numbers of `D`. -/
def relook (input : Bool) (D : LabelReachableData) (t : Tr W) : Tr W :=
  if input then { t with ilabel := D.look t.ilabel } else { t with olabel := D.look t.olabel }

/-- The map given to `relabelTr`. -/
def lookMap (on : Bool) (D : LabelReachableData) : Label → Option Label := if on then fun l => some (D.look l) else fun _ => none

theorem mapLabels_look (input : Bool) (D : LabelReachableData) : (mapLabels (lookMap input D) (lookMap (!input) D) : Tr W → Tr W) = relook input D := by
  funext t
  cases input <;> rfl

/-- Every label seen has a number. -/
def Seen (input : Bool) (D : LabelReachableData) (t : Tr W) : Prop := t.labelOn input ≠ EPS → D.label2index.get (t.labelOn input) = some (D.look (t.labelOn input))

theorem relabelFstTr_spec (input : Bool) (a : LabelReachableData × Fst W) (s i : Nat) : a.1.Le (relabelFstTr input a s i).1 ∧
    (∀ D, (relabelFstTr input a s i).1.Le D → (relabelFstTr input a s i).2 = relabelTr (lookMap input D) (lookMap (!input) D) a.2 s i ∧
      ∀ t, (a.2.trsOf s)[i]? = some t → Seen input D t) ∧
    (∀ {P : LabelReachableData → Prop} {ok : Label → Prop}, (∀ d l, ok l → P d → P (d.relabel l).1) → P a.1 → (∀ t, (a.2.trsOf s)[i]? = some t → ok (t.labelOn input)) → P (relabelFstTr input a s i).1) := by
  unfold relabelFstTr relabelTr
  cases ht : (a.2.trsOf s)[i]? with
  | none => exact ⟨.refl _, fun D _ => ⟨rfl, by simp⟩, fun _ h _ => h⟩
  | some t =>
    cases input with
    | true =>
      refine ⟨relabel_le _ _, fun D hD => ?_, fun hP h hn => hP _ _ (hn t rfl) h⟩
      obtain ⟨h1, h2⟩ := relabel_look hD
      refine ⟨?_, fun t' ht' => ?_⟩
      · simp only [if_true, lookMap, Bool.not_true]
        rw [h1]; rfl
      · rw [Option.some.injEq] at ht'
        subst ht'
        exact h2
    | false =>
      refine ⟨relabel_le _ _, fun D hD => ?_, fun hP h hn => hP _ _ (hn t rfl) h⟩
      obtain ⟨h1, h2⟩ := relabel_look hD
      refine ⟨?_, fun t' ht' => ?_⟩
      · simp only [lookMap, Bool.not_false, if_true]
        rw [show (if (false = true) then fun l => some (D.look l) else fun _ => none) = (fun _ => none : Label → Option Label) from rfl]
        simp only [Bool.false_eq_true, if_false]
        rw [h1]
      · rw [Option.some.injEq] at ht'
        subst ht'
        exact h2

theorem relabelFstSt_spec (input : Bool) (a : LabelReachableData × Fst W) (s : Nat) : a.1.Le (relabelFstSt input a s).1 ∧
    (∀ D, (relabelFstSt input a s).1.Le D →
      (relabelFstSt input a s).2 = Fst.forTrs (relabelTr (lookMap input D) (lookMap (!input) D)) a.2 s ∧ ∀ t ∈ a.2.trsOf s, Seen input D t) ∧
    (∀ {P : LabelReachableData → Prop} {ok : Label → Prop}, (∀ d l, ok l → P d → P (d.relabel l).1) → P a.1 → (∀ t ∈ a.2.trsOf s, ok (t.labelOn input)) → P (relabelFstSt input a s).1) := by
  -- positions not yet reached hold the old transitions
  have loop : ∀ k, k ≤ (a.2.trsOf s).length → ∀ b, b = (List.range k).foldl (fun a i => relabelFstTr input a s i) a →
      a.1.Le b.1 ∧
      (∀ D, b.1.Le D → b.2 = (List.range k).foldl (fun g i => relabelTr (lookMap input D) (lookMap (!input) D) g s i) a.2) ∧
      (∀ i, k ≤ i → (b.2.trsOf s)[i]? = (a.2.trsOf s)[i]?) ∧
      (∀ D, b.1.Le D → ∀ i, i < k → ∀ t, (a.2.trsOf s)[i]? = some t → Seen input D t) ∧
      (∀ {P : LabelReachableData → Prop} {ok : Label → Prop}, (∀ d l, ok l → P d → P (d.relabel l).1) → P a.1 → (∀ t ∈ a.2.trsOf s, ok (t.labelOn input)) → P b.1) := by
    intro k
    induction k with
    | zero => rintro - b rfl; exact ⟨.refl _, fun _ _ => rfl, fun _ _ => rfl, fun _ _ _ h => absurd h (by omega), fun _ h _ => h⟩
    | succ k ih =>
      intro hk b hb
      obtain ⟨c, hc⟩ : ∃ c, c = (List.range k).foldl (fun a i => relabelFstTr input a s i) a := ⟨_, rfl⟩
      obtain ⟨i1, i2, i3, i4, i5⟩ := ih (by omega) c hc
      have hbc : b = relabelFstTr input c s k := by rw [hb, List.range_succ, List.foldl_append, ← hc]; rfl
      obtain ⟨s1, s2, s3⟩ := relabelFstTr_spec input c s k
      rw [← hbc] at s1 s2 s3
      refine ⟨i1.trans s1, fun D hD => ?_, fun i hi => ?_, fun D hD i hi t ht => ?_, fun hP h hn => ?_⟩
      · rw [List.range_succ, List.foldl_append, ← i2 D (s1.trans hD)]
        exact (s2 D hD).1
      · rw [(s2 b.1 (.refl _)).1, (relabelTr_rewrites _ _).trs, if_pos rfl, List.getElem?_modify, i3 i (by omega)]
        have : ¬ k = i := by omega
        simp only [this, if_false]
        cases (a.2.trsOf s)[i]? <;> rfl
      · by_cases e : i = k
        · subst e
          exact (s2 D hD).2 t (by rw [i3 i le_rfl]; exact ht)
        · exact i4 D (s1.trans hD) i (by omega) t ht
      · refine s3 hP (i5 hP h hn) fun t ht => ?_
        rw [i3 k le_rfl] at ht
        exact hn t (List.mem_of_getElem? ht)
  obtain ⟨h1, h2, -, h4, h5⟩ := loop _ le_rfl _ rfl
  refine ⟨h1, fun D hD => ⟨h2 D hD, fun t ht => ?_⟩, h5⟩
  obtain ⟨i, hi, e⟩ := List.getElem_of_mem ht
  exact h4 D hD i hi t (by rw [List.getElem?_eq_getElem hi, e])

/-- `relabel_fst`: each label is replaced by its number, then the transitions are sorted. -/
theorem relabelFst_spec (d : LabelReachableData) (f : Fst W) (input : Bool) :
    let r := relabelFst d f input
    d.Le r.1 ∧ (∀ s, ∀ t ∈ f.trsOf s, Seen input r.1 t) ∧
    (∀ s, r.2.trsOf s = sortTrsBy (Fst.SortSide.le (if input then .ilabel else .olabel)) ((f.trsOf s).map (relook input r.1))) ∧
    (∀ s, r.2.finOf s = f.finOf s) ∧ r.2.start = f.start ∧ r.2.numStates = f.numStates ∧
    (f.AllCounters → r.2.AllCounters) ∧ (f.Truthful → r.2.Truthful) ∧
    ∀ {P : LabelReachableData → Prop} {ok : Label → Prop}, (∀ d l, ok l → P d → P (d.relabel l).1) → P d → (∀ s, ∀ t ∈ f.trsOf s, ok (t.labelOn input)) → P r.1 := by
  have loop : ∀ k, k ≤ f.numStates → ∀ b, b = (List.range k).foldl (relabelFstSt input) (d, f) →
      d.Le b.1 ∧
      (∀ D, b.1.Le D → b.2 = (List.range k).foldl (Fst.forTrs (relabelTr (lookMap input D) (lookMap (!input) D))) f) ∧
      (∀ s, k ≤ s → b.2.trsOf s = f.trsOf s) ∧
      (∀ D, b.1.Le D → ∀ s, s < k → ∀ t ∈ f.trsOf s, Seen input D t) ∧
      (∀ {P : LabelReachableData → Prop} {ok : Label → Prop}, (∀ d l, ok l → P d → P (d.relabel l).1) → P d → (∀ s, ∀ t ∈ f.trsOf s, ok (t.labelOn input)) → P b.1) := by
    intro k
    induction k with
    | zero => rintro - b rfl; exact ⟨.refl _, fun _ _ => rfl, fun _ _ => rfl, fun _ _ _ h => absurd h (by omega), fun _ h _ => h⟩
    | succ k ih =>
      intro hk b hb
      obtain ⟨c, hc⟩ : ∃ c, c = (List.range k).foldl (relabelFstSt input) (d, f) := ⟨_, rfl⟩
      obtain ⟨i1, i2, i3, i4, i5⟩ := ih (by omega) c hc
      have hbc : b = relabelFstSt input c k := by rw [hb, List.range_succ, List.foldl_append, ← hc]; rfl
      obtain ⟨s1, s2, s3⟩ := relabelFstSt_spec input c k
      rw [← hbc] at s1 s2 s3
      refine ⟨i1.trans s1, fun D hD => ?_, fun s hs => ?_, fun D hD s hs t ht => ?_, fun hP h hn => ?_⟩
      · rw [List.range_succ, List.foldl_append, ← i2 D (s1.trans hD)]
        exact (s2 D hD).1
      · rw [(s2 b.1 (.refl _)).1, (Fst.forTrs_spec (relabelTr_rewrites _ _) c.2 k).1, if_neg (by omega)]
        exact i3 s (by omega)
      · by_cases e : s = k
        · subst e
          exact (s2 D hD).2 t (by rw [i3 s le_rfl]; exact ht)
        · exact i4 D (s1.trans hD) s (by omega) t ht
      · exact s3 hP (i5 hP h hn) fun t ht => hn k t (by rw [← i3 k le_rfl]; exact ht)
  obtain ⟨b, hb⟩ : ∃ b, b = (List.range f.numStates).foldl (relabelFstSt input) (d, f) := ⟨_, rfl⟩
  obtain ⟨h1, h2, -, h4, h5⟩ := loop _ le_rfl b hb
  have e : relabelFst d f input = (b.1, b.2.trSort (if input then .ilabel else .olabel)) := by unfold relabelFst; rw [← hb]
  rw [e]
  simp only
  have e2 : b.2 = Fst.forStates (Fst.forTrs (relabelTr (lookMap input b.1) (lookMap (!input) b.1))) f := h2 b.1 (.refl _)
  obtain ⟨a1, a2, a3, a4, a5⟩ := Fst.forStates_spec (relabelTr_rewrites (lookMap input b.1) (lookMap (!input) b.1)) f
  rw [← e2, mapLabels_look] at a1
  rw [← e2] at a2 a3 a4 a5
  obtain ⟨c1, c2, c3, c4, c5⟩ := Fst.trSort_spec b.2 (if input then .ilabel else .olabel)
  refine ⟨h1, fun s t ht => h4 b.1 (.refl _) s (Fst.lt_of_mem_trsOf ht) t ht, fun s => by rw [c1, a1], fun s => by rw [c2, a2],
    by rw [c4, a4], by rw [c3, a3], fun h => c5 (a5 h), fun tf => ?_, h5⟩
  have tb : b.2.Truthful := by
    rw [e2]
    unfold Fst.forStates
    refine foldl_induct (P := fun (g : Fst W) => g.Truthful) _ _ _ tf ?_
    intro g s _ hg
    unfold Fst.forTrs
    exact foldl_induct (P := fun (g : Fst W) => g.Truthful) _ _ _ hg (fun g i _ hg => truthful_relabelTr hg _ _ s i)
  exact C12_flags b.2 _ tb

end

/-! ## The search -/

/-- The transitions at positions `lo .. hi`. -/
def segment (ts : List (Tr W)) (lo hi : Nat) : List (Tr W) := (ts.drop lo).take (hi - lo)

theorem segment_append (ts : List (Tr W)) {a b c : Nat} (h1 : a ≤ b) (h2 : b ≤ c) : segment ts a c = segment ts a b ++ segment ts b c := by
  unfold segment
  rw [show c - a = (b - a) + (c - b) by omega, List.take_add, List.drop_drop, show a + (b - a) = b by omega]

theorem mem_segment {ts : List (Tr W)} {a b : Nat} {t : Tr W} (h : t ∈ segment ts a b) : ∃ i, a ≤ i ∧ i < b ∧ ts[i]? = some t := by
  unfold segment at h
  obtain ⟨i, hi⟩ := List.getElem?_of_mem h
  rw [List.getElem?_take] at hi
  split at hi
  · rw [List.getElem?_drop] at hi
    exact ⟨a + i, by omega, by omega, hi⟩
  · cases hi

theorem segment_one {ts : List (Tr W)} {i : Nat} {t : Tr W} (h : ts[i]? = some t) : segment ts i (i + 1) = [t] := by
  unfold segment
  obtain ⟨hl, e⟩ := List.getElem?_eq_some_iff.1 h
  rw [List.drop_eq_getElem_cons hl, e]
  simp

/-- Labels do not decrease. -/
def SortedOn (input : Bool) (ts : List (Tr W)) : Prop := ts.Pairwise fun a b => a.labelOn input ≤ b.labelOn input

theorem SortedOn.le {input : Bool} {ts : List (Tr W)} (h : SortedOn input ts) {i j : Nat} {a b : Tr W} (hij : i ≤ j) (ha : ts[i]? = some a)
    (hb : ts[j]? = some b) : a.labelOn input ≤ b.labelOn input := by
  rcases Nat.eq_or_lt_of_le hij with e | hlt
  · subst e; rw [ha, Option.some.injEq] at hb; rw [hb]
  · obtain ⟨h1, e1⟩ := List.getElem?_eq_some_iff.1 ha
    obtain ⟨h2, e2⟩ := List.getElem?_eq_some_iff.1 hb
    rw [← e1, ← e2]
    exact List.pairwise_iff_getElem.1 h i j h1 h2 hlt

theorem lowerBoundLoop_spec {input : Bool} {ts : List (Tr W)} (hs : SortedOn input ts) (x : Label) (n : Nat) : ∀ low high, high - low ≤ n →
    low ≤ high → high ≤ ts.length →
    low ≤ lowerBoundLoop input ts x n low high ∧ lowerBoundLoop input ts x n low high ≤ high ∧
    (∀ i t, low ≤ i → i < lowerBoundLoop input ts x n low high → ts[i]? = some t → t.labelOn input < x) ∧
    (∀ i t, lowerBoundLoop input ts x n low high ≤ i → i < high → ts[i]? = some t → x ≤ t.labelOn input) := by
  induction n with
  | zero =>
    intro low high h1 h2 h3
    unfold lowerBoundLoop
    exact ⟨le_rfl, h2, fun i t a b => absurd b (by omega), fun i t a b => absurd b (by omega)⟩
  | succ n ih =>
    intro low high h1 h2 h3
    unfold lowerBoundLoop
    by_cases hlt : low < high
    · rw [if_pos hlt]
      simp only
      have hm1 : low ≤ low + (high - low) / 2 := by omega
      have hm2 : low + (high - low) / 2 < high := by omega
      obtain ⟨mid, hmid⟩ : ∃ mid, mid = low + (high - low) / 2 := ⟨_, rfl⟩
      rw [← hmid] at hm1 hm2 ⊢
      rw [List.getElem?_eq_getElem (by omega)]
      simp only
      have hg : ts[mid]? = some ts[mid] := List.getElem?_eq_getElem (by omega)
      by_cases hx : side input ts[mid] < x
      · rw [if_pos hx]
        obtain ⟨i1, i2, i3, i4⟩ := ih (mid + 1) high (by omega) (by omega) h3
        refine ⟨by omega, i2, fun i t a b e => ?_, i4⟩
        by_cases hi : mid + 1 ≤ i
        · exact i3 i t hi b e
        · exact lt_of_le_of_lt (hs.le (by omega) e hg) hx
      · rw [if_neg hx]
        obtain ⟨i1, i2, i3, i4⟩ := ih low mid (by omega) (by omega) (by omega)
        refine ⟨i1, by omega, i3, fun i t a b e => ?_⟩
        by_cases hi : i < mid
        · exact i4 i t a hi e
        · exact le_trans (Nat.le_of_not_lt hx) (hs.le (by omega) hg e)
    · rw [if_neg hlt]
      exact ⟨le_rfl, h2, fun i t a b => absurd b (by omega), fun i t a b => absurd b (by omega)⟩

theorem lowerBound_spec {input : Bool} {ts : List (Tr W)} (hs : SortedOn input ts) (x : Label) {low high : Nat} (h2 : low ≤ high) (h3 : high ≤ ts.length) :
    low ≤ lowerBound input ts low high x ∧ lowerBound input ts low high x ≤ high ∧
    (∀ i t, low ≤ i → i < lowerBound input ts low high x → ts[i]? = some t → t.labelOn input < x) ∧
    (∀ i t, lowerBound input ts low high x ≤ i → i < high → ts[i]? = some t → x ≤ t.labelOn input) :=
  lowerBoundLoop_spec hs x _ low high le_rfl h2 h3

section
variable [Zero W] [Add W]

/-- `o` is the result for the positions `lo .. p` when the transitions sought are those with `P`. -/
structure FoundIn (P : Tr W → Bool) (ts : List (Tr W)) (compute : Bool) (lo p : Nat) (o : Found W) : Prop where
  no : o.range = none → ∀ i t, lo ≤ i → i < p → ts[i]? = some t → P t = false
  yes : ∀ a b, o.range = some (a, b) → lo ≤ a ∧ a < b ∧ b ≤ p ∧ (∃ t, ts[a]? = some t ∧ P t = true) ∧
    (∃ t, ts[b - 1]? = some t ∧ P t = true) ∧ ∀ i t, lo ≤ i → i < p → ts[i]? = some t → P t = true → a ≤ i ∧ i < b
  weight : o.weight = if compute then (((segment ts lo p).filter P).map Tr.weight).foldl (· + ·) 0 else 0

variable {P : Tr W → Bool} {ts : List (Tr W)} {compute : Bool} {lo p q : Nat} {o : Found W}

theorem FoundIn.start : FoundIn P ts compute lo lo ⟨none, 0⟩ :=
  ⟨fun _ i t a b => absurd b (by omega), (fun a b h => by cases h), by simp [segment]⟩

theorem FoundIn.skip (h : FoundIn P ts compute lo p o) (h1 : lo ≤ p) (h2 : p ≤ q) (hn : ∀ i t, p ≤ i → i < q → ts[i]? = some t → P t = false) :
    FoundIn P ts compute lo q o := by
  refine ⟨fun ho i t a b e => ?_, fun a b ho => ?_, ?_⟩
  · by_cases hi : i < p
    · exact h.no ho i t a hi e
    · exact hn i t (by omega) b e
  · obtain ⟨k1, k2, k3, k4, k5, k6⟩ := h.yes a b ho
    refine ⟨k1, k2, by omega, k4, k5, fun i t ha hb e hp => ?_⟩
    by_cases hi : i < p
    · exact k6 i t ha hi e hp
    · rw [hn i t (by omega) hb e] at hp; cases hp
  · rw [h.weight, segment_append ts h1 h2, List.filter_append]
    have : (segment ts p q).filter P = [] := by
      rw [List.filter_eq_nil_iff]
      intro t ht
      obtain ⟨i, a, b, e⟩ := mem_segment ht
      rw [hn i t a b e]; simp
    rw [this, List.append_nil]

theorem FoundIn.add (h : FoundIn P ts compute lo p o) (h1 : lo ≤ p) (h2 : p < q) (h3 : q ≤ ts.length)
    (hy : ∀ i t, p ≤ i → i < q → ts[i]? = some t → P t = true) :
    FoundIn P ts compute lo q (o.add compute p q ((segment ts p q).map Tr.weight)) := by
  have hp : ts[p]? = some (ts[p]'(by omega)) := List.getElem?_eq_getElem (by omega)
  have hq : ts[q - 1]? = some (ts[q - 1]'(by omega)) := List.getElem?_eq_getElem (by omega)
  refine ⟨fun ho => by simp [Found.add] at ho, fun a b ho => ?_, ?_⟩
  · simp only [Found.add, Option.some.injEq, Prod.mk.injEq] at ho
    obtain ⟨e1, rfl⟩ := ho
    cases hr : o.range with
    | none =>
      rw [hr] at e1
      simp only [Option.map_none, Option.getD_none] at e1
      subst e1
      refine ⟨h1, h2, le_rfl, ⟨_, hp, hy _ _ le_rfl h2 hp⟩, ⟨_, hq, hy _ _ (by omega) (by omega) hq⟩, fun i t ha hb e hpt => ⟨?_, hb⟩⟩
      by_contra hc
      rw [h.no hr i t ha (by omega) e] at hpt; cases hpt
    | some ab =>
      obtain ⟨a', b'⟩ := ab
      rw [hr] at e1
      simp only [Option.map_some, Option.getD_some] at e1
      subst e1
      obtain ⟨k1, k2, k3, k4, k5, k6⟩ := h.yes a' b' hr
      refine ⟨k1, by omega, le_rfl, k4, ⟨_, hq, hy _ _ (by omega) (by omega) hq⟩, fun i t ha hb e hpt => ⟨?_, hb⟩⟩
      by_cases hi : i < p
      · exact (k6 i t ha hi e hpt).1
      · omega
  · simp only [Found.add]
    rw [h.weight, segment_append ts h1 (Nat.le_of_lt h2), List.filter_append]
    have : (segment ts p q).filter P = segment ts p q := by
      rw [List.filter_eq_self]
      intro t ht
      obtain ⟨i, a, b, e⟩ := mem_segment ht
      exact hy i t a b e
    rw [this]
    cases compute
    · rfl
    · simp only [if_true]
      rw [List.map_append, List.foldl_append]

/-- The transitions sought. -/
def Sought (set : IntervalSet) (input : Bool) (t : Tr W) : Bool := decide (t.labelOn input ≠ EPS) && set.member (t.labelOn input)

theorem reachScan_spec {set : IntervalSet} {input : Bool} {hi : Nat} (hh : hi ≤ ts.length) (n : Nat) : ∀ (pos : Nat) (last : Label) (o : Found W),
    pos + n = hi → lo ≤ pos → (∀ t ∈ ts, t.labelOn input ≠ NO_LABEL) →
    (last = NO_LABEL ∨ (last ≠ EPS ∧ set.member last = true)) → FoundIn (Sought set input) ts compute lo pos o →
    FoundIn (Sought set input) ts compute lo hi (reachScan set input compute (segment ts pos hi) pos last o) := by
  induction n with
  | zero =>
    intro pos last o e h1 hno hl h
    have : pos = hi := by omega
    subst this
    rw [show segment ts pos pos = [] by simp [segment]]
    exact h
  | succ n ih =>
    intro pos last o e h1 hno hl h
    have hg : ts[pos]? = some (ts[pos]'(by omega)) := List.getElem?_eq_getElem (by omega)
    have hne := hno _ (List.mem_of_getElem? hg)
    rw [segment_append ts (show pos ≤ pos + 1 by omega) (show pos + 1 ≤ hi by omega), segment_one hg, List.singleton_append, reachScan]
    have hone : ∀ {b : Bool}, Sought set input (ts[pos]'(by omega)) = b → ∀ i t, pos ≤ i → i < pos + 1 → ts[i]? = some t → Sought set input t = b := by
      intro b hb i t a c e'
      have : i = pos := by omega
      subst this
      rw [hg, Option.some.injEq] at e'
      rw [← e']; exact hb
    by_cases hc : side input (ts[pos]'(by omega)) = last ∨ (side input (ts[pos]'(by omega)) ≠ EPS ∧ set.member (side input (ts[pos]'(by omega))) = true)
    · rw [if_pos hc]
      have hs : side input (ts[pos]'(by omega)) ≠ EPS ∧ set.member (side input (ts[pos]'(by omega))) = true := by
        rcases hc with hc | hc
        · rcases hl with hl | hl
          · exact absurd (hc.trans hl) hne
          · rw [hc]; exact hl
        · exact hc
      have hP : Sought set input (ts[pos]'(by omega)) = true := by
        unfold Sought
        rw [show (ts[pos]'(by omega)).labelOn input = side input (ts[pos]'(by omega)) from rfl]
        simp [hs.1, hs.2]
      have := h.add h1 (show pos < pos + 1 by omega) (by omega) (hone hP)
      rw [segment_one hg] at this
      exact ih (pos + 1) _ _ (by omega) (by omega) hno (.inr hs) this
    · rw [if_neg hc]
      have hP : Sought set input (ts[pos]'(by omega)) = false := by
        unfold Sought
        rw [show (ts[pos]'(by omega)).labelOn input = side input (ts[pos]'(by omega)) from rfl]
        rw [Bool.and_eq_false_iff]
        by_contra hx
        push Not at hx
        exact hc (.inr ⟨by simpa using hx.1, by simpa using hx.2⟩)
      exact ih (pos + 1) _ _ (by omega) (by omega) hno hl (h.skip h1 (by omega) (hone hP))

theorem reachIntervals_spec {set : IntervalSet} (hset : set.Normalized) (h0 : ¬ set.Mem 0) {input : Bool} {hi : Nat} (hh : hi ≤ ts.length)
    (hs : SortedOn input ts) (is : List IntInterval) : ∀ (pre : List IntInterval), set.intervals = pre ++ is → ∀ (low : Nat) (o : Found W),
    lo ≤ low → low ≤ hi → (∀ j ∈ pre, ∀ i t, low ≤ i → i < hi → ts[i]? = some t → j.last ≤ t.labelOn input) →
    FoundIn (Sought set input) ts compute lo low o →
    FoundIn (Sought set input) ts compute lo hi (reachIntervals input compute ts hi is low o) := by
  have sought : ∀ t : Tr W, Sought set input t = true ↔ set.Mem (t.labelOn input) := by
    intro t
    unfold Sought
    rw [Bool.and_eq_true, decide_eq_true_eq, C44_member set hset]
    constructor
    · exact And.right
    · intro h; exact ⟨by intro e; rw [e] at h; exact h0 h, h⟩
  induction is with
  | nil =>
    intro pre hpre low o h1 h2 hp h
    rw [reachIntervals]
    refine h.skip h1 h2 fun i t a b e => ?_
    rw [← Bool.not_eq_true, sought]
    rintro ⟨j, hj, -, hj2⟩
    rw [hpre, List.append_nil] at hj
    have := hp j hj i t a b e
    omega
  | cons iv is ih =>
    intro pre hpre low o h1 h2 hp h
    rw [reachIntervals]
    obtain ⟨a, ha⟩ : ∃ a, a = lowerBound input ts low hi iv.first := ⟨_, rfl⟩
    obtain ⟨a1, a2, a3, a4⟩ := lowerBound_spec hs iv.first h2 hh
    rw [← ha] at a1 a2 a3 a4
    obtain ⟨b, hb⟩ : ∃ b, b = lowerBound input ts a hi iv.last := ⟨_, rfl⟩
    obtain ⟨b1, b2, b3, b4⟩ := lowerBound_spec hs iv.last a2 hh
    rw [← hb] at b1 b2 b3 b4
    rw [← ha, ← hb]
    have hpw := hset.2
    rw [hpre, List.pairwise_append, List.pairwise_cons] at hpw
    -- the gap before the interval
    have hskip : FoundIn (Sought set input) ts compute lo a o := by
      refine h.skip h1 a1 fun i t c d e => ?_
      rw [← Bool.not_eq_true, sought]
      rintro ⟨j, hj, hj1, hj2⟩
      have hlt := a3 i t c d e
      rw [hpre, List.mem_append, List.mem_cons] at hj
      rcases hj with hj | rfl | hj
      · have := hp j hj i t c (by omega) e; omega
      · omega
      · have h3 := hpw.2.1.1 j hj
        have h4 := hset.1 iv (by rw [hpre]; simp)
        omega
    have hin : ∀ i t, a ≤ i → i < b → ts[i]? = some t → Sought set input t = true := by
      intro i t c d e
      rw [sought]
      exact ⟨iv, by rw [hpre]; simp, a4 i t c (by omega) e, b3 i t c d e⟩
    refine ih (pre ++ [iv]) (by rw [hpre]; simp) b _ (by omega) b2 ?_ ?_
    · intro j hj i t c d e
      rw [List.mem_append, List.mem_singleton] at hj
      rcases hj with hj | rfl
      · exact hp j hj i t (by omega) d e
      · exact b4 i t c d e
    · split
      · next hab => exact hskip.add (by omega) hab (by omega) hin
      · next hab =>
        have : a = b := by omega
        rw [← this]; exact hskip

end
end Verif
