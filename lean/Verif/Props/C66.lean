import Verif.Lemmas.ReachUse
import Verif.Lemmas.DecHist

/-!
# C66: which states and labels can be reached

`computeData` builds the tables that look-ahead composition asks. `Prepared f input d`: the tables `d` were built for `f` and may since have
been used to relabel labels and FSTs. No label is `NO_LABEL`.
-/

namespace Verif
universe u
variable {W : Type u} [Zero W] [One W] [DecidableEq W]
open LabelReachable LabelReachableData

/-- C66, states: on an FST whose (true) flags say whether it is acyclic, `StateReachable::new` fails with an error if a final state lies on a cycle with
another state. Otherwise `reach` tells whether the second state has a final weight other than zero and can be reached from the first. -/
theorem C66_states [Add W] (f : Fst W) (hw : f.WF) (hs : f.start ≠ none) (tf : f.Truthful) (hk : f.props .acyclic = true ∨ f.props .cyclic = true) :
    ((∃ x y, x ≠ y ∧ f.IsFinal x ∧ f.Reach x y ∧ f.Reach y x) → StateReachable.new f = .error .err) ∧
    ((∀ x y, f.IsFinal x → f.Reach x y → f.Reach y x → x = y) → ∃ r, StateReachable.new f = .ok r ∧
      (f.numStates < UNASSIGNED → ∀ q x, q < f.numStates → x < f.numStates → ∃ b, r.reach q x = .ok b ∧
        (b = true ↔ (∃ w, f.finOf x = some w ∧ w ≠ 0) ∧ f.Reach q x)) ∧
      ∀ q x, f.numStates ≤ x → r.reach q x = .error .err) := by
  obtain ⟨i, hi⟩ := Option.ne_none_iff_exists'.1 hs
  have hkn : f.props.knows (Props.of [.acyclic]) = true := by
    unfold Props.knows Props.containsAll
    rw [List.all_eq_true]
    intro b _
    cases b <;> simp [Props.of, Props.known, PropBit.neg]
    exact hk
  constructor
  · intro hb
    unfold StateReachable.new Fst.propertiesCheck
    rw [if_pos hkn]
    simp only
    rw [if_neg]
    · exact (newCyclic_spec hw hi).1 hb
    · intro h
      have := tf _ h
      simp only [Fst.Holds] at this
      obtain ⟨x, y, h0, -, h2, h3⟩ := hb
      refine this ⟨x, ?_⟩
      rcases Relation.ReflTransGen.cases_head h2 with e | ⟨b, hb1, hb2⟩
      · exact absurd e h0
      · exact Relation.TransGen.head' hb1 (hb2.trans h3)
  · intro hn
    obtain ⟨r, h1, h2⟩ := stateNew_spec hw hi hkn (tf _) hn
    refine ⟨r, h1, fun hlt q x hq hx => ?_, fun q x hx => ?_⟩
    · obtain ⟨b, e, hb⟩ := h2.reach_iff hlt hq hx
      exact ⟨b, e, by rw [hb, hasFinal_iff]⟩
    · unfold StateReachable.reach
      rw [if_neg (by rw [h2.nIndex]; omega)]

/-- C66, labels: the tables can be built unless a final weight zero is stored at a state on a cycle of silent transitions with another
state; then there is an error. -/
theorem C66_compute [Add W] (f : Fst W) (hw : f.WF) (tf : f.Truthful) (hs : f.start ≠ none) (h1 : (1 : W) ≠ 0) (input : Bool)
    (hno : ∀ s, ∀ t ∈ f.trsOf s, t.labelOn input < NO_LABEL) :
    ((∀ x y, f.finOf x = some 0 → f.Silent input x y → f.Silent input y x → x = y) → ∃ d, computeData f input = .ok d) ∧
    ((∃ x y, x ≠ y ∧ f.finOf x = some 0 ∧ f.Silent input x y ∧ f.Silent input y x) → computeData f input = .error .err) := by
  obtain ⟨h2, h3⟩ := computeData_spec hw tf hs h1 input hno
  refine ⟨fun h => ?_, h2⟩
  obtain ⟨d, e, -⟩ := h3 (by rintro ⟨x, y, h0, h4, h5, h6⟩; exact h0 (h x y h4 h5 h6))
  exact ⟨d, e⟩

/-- Tables built for `f`, perhaps after relabelling. -/
inductive Prepared [Add W] (f : Fst W) (input : Bool) : LabelReachableData → Prop
  | init {d : LabelReachableData} : computeData f input = .ok d → Prepared f input d
  | label {d : LabelReachableData} (l : Label) : Prepared f input d → l ≠ NO_LABEL → Prepared f input (d.relabel l).1
  | fst {d : LabelReachableData} (g : Fst W) (on : Bool) : Prepared f input d → (∀ s, ∀ t ∈ g.trsOf s, t.labelOn on ≠ NO_LABEL) →
      Prepared f input (d.relabelFst g on).1

section
variable [Add W] {f : Fst W} {input : Bool} {d : LabelReachableData}

theorem Prepared.inv (hw : f.WF) (tf : f.Truthful) (hs : f.start ≠ none) (h1 : (1 : W) ≠ 0)
    (hno : ∀ s, ∀ t ∈ f.trsOf s, t.labelOn input < NO_LABEL) (h : Prepared f input d) : DInv f input d := by
  induction h with
  | init h =>
    obtain ⟨h2, h3⟩ := computeData_spec hw tf hs h1 input hno
    by_cases hb : BadZero f input
    · rw [h2 hb] at h; cases h
    · obtain ⟨d', e, hd⟩ := h3 hb
      rw [h, Except.ok.injEq] at e
      rw [e]; exact hd
  | label l _ hl ih => exact ih.relabel hl
  | fst g on _ hn ih => exact (relabelFst_spec _ g on).2.2.2.2.2.2.2.2 (P := DInv f input) (fun _ _ hl h => h.relabel hl) ih hn

/-- C66: the number given to a label stands for it: `reach_label` of the number tells whether the label can be read next from the state,
where transitions with ε on that side are passed silently. ε has the number ε and is never reported; different labels have different
numbers. -/
theorem C66_label (hw : f.WF) (tf : f.Truthful) (hs : f.start ≠ none) (h1 : (1 : W) ≠ 0)
    (hno : ∀ s, ∀ t ∈ f.trsOf s, t.labelOn input < NO_LABEL) (h : Prepared f input d) (l : Label) (hl : l ≠ NO_LABEL) :
    (∀ s, s < f.numStates → ∃ b, reachLabel (d.relabel l).1 s (d.relabel l).2 = .ok b ∧ (b = true ↔ l ≠ EPS ∧ f.CanRead input s l)) ∧
    (l = EPS → (d.relabel l).2 = EPS) ∧
    ∀ k, k ≠ NO_LABEL → ((d.relabel l).2 = ((d.relabel l).1.relabel k).2 ↔ l = k) := by
  have hd := h.inv hw tf hs h1 hno
  have hd' := hd.relabel hl
  obtain ⟨e1, e2⟩ := relabel_look (d := d) (D := (d.relabel l).1) (l := l) (.refl _)
  refine ⟨fun s hs' => ?_, fun e => by rw [e]; rfl, fun k hk => ?_⟩
  · by_cases he : l = EPS
    · subst he
      exact ⟨false, rfl, by simp⟩
    · have hx := e2 he
      rw [← e1] at hx
      have hpos := hd'.pos hx
      refine ⟨((d.relabel l).1.isets s).member (d.relabel l).2, ?_, ?_⟩
      · unfold reachLabel intervalSet
        rw [if_neg (by have : (EPS : Nat) = 0 := rfl; omega), if_pos (by rw [hd'.nIsets]; exact hs')]
      · rw [C44_member _ (hd'.norm s hs'), hd'.mem_look hs' he hl hx]
        exact ⟨fun h => ⟨he, h⟩, And.right⟩
  · obtain ⟨D, hD⟩ : ∃ D, D = ((d.relabel l).1.relabel k).1 := ⟨_, rfl⟩
    have hdD : DInv f input D := by rw [hD]; exact hd'.relabel hk
    obtain ⟨f1, f2⟩ := relabel_look (d := d) (D := D) (l := l) (by rw [hD]; exact relabel_le _ _)
    obtain ⟨g1, g2⟩ := relabel_look (d := (d.relabel l).1) (D := D) (l := k) (by rw [hD]; exact .refl _)
    rw [f1, g1]
    constructor
    · intro e
      by_cases he : l = EPS
      · by_cases hk' : k = EPS
        · rw [he, hk']
        · have := hdD.pos (g2 hk')
          rw [← e, he] at this
          exact absurd this (by unfold look; simp)
      · by_cases hk' : k = EPS
        · have := hdD.pos (f2 he)
          rw [e, hk'] at this
          exact absurd this (by unfold look; simp)
        · have := g2 hk'
          rw [← e] at this
          exact hdD.inj (f2 he) this
    · rintro rfl; rfl

/-- C66: `reach_final` tells whether a path from the state can end, with a final weight other than zero, without reading anything. -/
theorem C66_final (hw : f.WF) (tf : f.Truthful) (hs : f.start ≠ none) (h1 : (1 : W) ≠ 0)
    (hno : ∀ s, ∀ t ∈ f.trsOf s, t.labelOn input < NO_LABEL) (h : Prepared f input d) :
    (∀ s, s < f.numStates → ∃ b, reachFinal d s = .ok b ∧ (b = true ↔ f.CanEnd input s)) ∧ ∀ s, f.numStates ≤ s → reachFinal d s = .error .err := by
  have hd := h.inv hw tf hs h1 hno
  refine ⟨fun s hs' => ⟨(d.isets s).member d.finalLabel, ?_, ?_⟩, fun s hs' => ?_⟩
  · unfold reachFinal intervalSet
    rw [if_pos (by rw [hd.nIsets]; exact hs')]
  · rw [C44_member _ (hd.norm s hs'), hd.final hs']
  · unfold reachFinal intervalSet
    rw [if_neg (by rw [hd.nIsets]; omega)]

/-- C66, `relabel_fst`: each label of the side is replaced by its number and nothing else changes but the order of the transitions, which are then
sorted by that side, as `reach_init` demands. The numbers stand for the labels as in `C66_label`. -/
theorem C66_relabel_fst (hw : f.WF) (tf : f.Truthful) (hs : f.start ≠ none) (h1 : (1 : W) ≠ 0)
    (hno : ∀ s, ∀ t ∈ f.trsOf s, t.labelOn input < NO_LABEL) (h : Prepared f input d) (g : Fst W) (on : Bool)
    (hn : ∀ s, ∀ t ∈ g.trsOf s, t.labelOn on ≠ NO_LABEL) :
    ∃ num : Label → Label, num EPS = EPS ∧
      (∀ q, ((d.relabelFst g on).2.trsOf q).Perm ((g.trsOf q).map fun t =>
        if on then { t with ilabel := num t.ilabel } else { t with olabel := num t.olabel })) ∧
      (∀ q, (d.relabelFst g on).2.finOf q = g.finOf q) ∧ (d.relabelFst g on).2.start = g.start ∧
      (d.relabelFst g on).2.numStates = g.numStates ∧ (g.Truthful → (d.relabelFst g on).2.Truthful) ∧
      (∀ q t q' t', t ∈ g.trsOf q → t' ∈ g.trsOf q' → num (t.labelOn on) = num (t'.labelOn on) → t.labelOn on = t'.labelOn on) ∧
      (∀ q, ∀ t ∈ g.trsOf q, ∀ s, s < f.numStates → ∃ b, reachLabel (d.relabelFst g on).1 s (num (t.labelOn on)) = .ok b ∧
        (b = true ↔ t.labelOn on ≠ EPS ∧ f.CanRead input s (t.labelOn on))) ∧
      reachInit (d.relabelFst g on).2 on = .ok () := by
  have hd := h.inv hw tf hs h1 hno
  obtain ⟨k1, k2, k3, k4, k5, k6, k7, k8, k9⟩ := relabelFst_spec d g on
  obtain ⟨r, hr⟩ : ∃ r, r = d.relabelFst g on := ⟨_, rfl⟩
  rw [← hr] at k1 k2 k3 k4 k5 k6 k7 k8 k9 ⊢
  have hdr : DInv f input r.1 := k9 (P := DInv f input) (fun _ _ hl h => h.relabel hl) hd hn
  refine ⟨r.1.look, by unfold look; simp, fun q => ?_, k4, k5, k6, k8, ?_, ?_, ?_⟩
  · rw [k3]
    refine (Fst.sortTrsBy_perm _ _).trans (List.Perm.of_eq ?_)
    rfl
  · intro q t q' t' ht ht' e
    by_cases he : t.labelOn on = EPS
    · by_cases he' : t'.labelOn on = EPS
      · rw [he, he']
      · have := hdr.pos (k2 q' t' ht' he')
        rw [← e, he] at this
        exact absurd this (by unfold look; simp)
    · by_cases he' : t'.labelOn on = EPS
      · have := hdr.pos (k2 q t ht he)
        rw [e, he'] at this
        exact absurd this (by unfold look; simp)
      · have := k2 q' t' ht' he'
        rw [← e] at this
        exact hdr.inj (k2 q t ht he) this
  · intro q t ht s hs'
    by_cases he : t.labelOn on = EPS
    · rw [he]
      exact ⟨false, by unfold look; simp [reachLabel], by simp⟩
    · have hx := k2 q t ht he
      have hpos := hdr.pos hx
      refine ⟨(r.1.isets s).member (r.1.look (t.labelOn on)), ?_, ?_⟩
      · unfold reachLabel intervalSet
        rw [if_neg (by have : (EPS : Nat) = 0 := rfl; omega), if_pos (by rw [hdr.nIsets]; exact hs')]
      · rw [C44_member _ (hdr.norm s hs'), hdr.mem_look hs' he (hn q t ht) hx]
        exact ⟨fun h => ⟨he, h⟩, And.right⟩
  · have hp : r.2.props (if on then .iLabelSorted else .oLabelSorted) = true := by
      rw [hr]
      unfold relabelFst
      simp only
      rw [show ∀ (x : Fst W) c, (x.trSort c).props = c.props x.props from fun x c => Fst.setPropsMask_all _ _]
      cases on <;> simp [Fst.SortSide.props, Props.setIf_apply, Props.set]
    unfold reachInit Fst.propertiesCheck
    rw [if_pos]
    · simp only
      rw [hp]; rfl
    · unfold Props.knows Props.containsAll
      rw [List.all_eq_true]
      intro b _
      cases on <;> cases b <;> simp [Props.of, Props.known, PropBit.neg] <;> exact .inl (by simpa using hp)

/-- C66, `reach`: of the transitions at positions `lo .. hi` of a state of a sorted FST, those are sought whose label is a number reported by
`reach_label`. If there are none the answer is `None`. Otherwise it is the first position, the position after the last one and the sum of the weights of the
transitions sought (zero unless asked for). -/
theorem C66_reach (hw : f.WF) (tf : f.Truthful) (hs : f.start ≠ none) (h1 : (1 : W) ≠ 0)
    (hno : ∀ s, ∀ t ∈ f.trsOf s, t.labelOn input < NO_LABEL) (h : Prepared f input d) {s : StateId} (hs' : s < f.numStates)
    {g : Fst W} (tg : g.Truthful) {on : Bool} (hinit : reachInit g on = .ok ()) (q : StateId) (hn : ∀ t ∈ g.trsOf q, t.labelOn on ≠ NO_LABEL)
    (lo hi : Nat) (hlo : lo ≤ hi) (hhi : hi ≤ (g.trsOf q).length) (compute : Bool) :
    ∃ o, reach d on s (g.trsOf q) lo hi compute = .ok o ∧
      (o = none → ∀ i t, lo ≤ i → i < hi → (g.trsOf q)[i]? = some t → reachLabel d s (t.labelOn on) = .ok false) ∧
      ∀ a b w, o = some (a, b, w) →
        (lo ≤ a ∧ a < b ∧ b ≤ hi) ∧
        (∃ t, (g.trsOf q)[a]? = some t ∧ reachLabel d s (t.labelOn on) = .ok true) ∧
        (∃ t, (g.trsOf q)[b - 1]? = some t ∧ reachLabel d s (t.labelOn on) = .ok true) ∧
        (∀ i t, lo ≤ i → i < hi → (g.trsOf q)[i]? = some t → reachLabel d s (t.labelOn on) = .ok true → a ≤ i ∧ i < b) ∧
        w = if compute then (((((g.trsOf q).drop lo).take (hi - lo)).filter fun t => reachLabel d s (t.labelOn on) = .ok true).map Tr.weight).foldl (· + ·) 0
          else 0 := by
  have hd := h.inv hw tf hs h1 hno
  have hin : s < d.nIsets := by rw [hd.nIsets]; exact hs'
  have hrl : ∀ t : Tr W, reachLabel d s (t.labelOn on) = .ok (Sought (d.isets s) on t) := by
    intro t
    unfold reachLabel intervalSet Sought
    by_cases he : t.labelOn on = EPS
    · rw [if_pos he]; simp [he]
    · rw [if_neg he, if_pos hin]; simp [he]
  have hsort : SortedOn on (g.trsOf q) := by
    have hb : g.props (if on then .iLabelSorted else .oLabelSorted) = true := by
      unfold reachInit Fst.propertiesCheck at hinit
      by_contra hb
      cases hk : g.props.knows (Props.of [if on then .iLabelSorted else .oLabelSorted]) with
      | false => rw [hk] at hinit; cases hinit
      | true =>
        rw [hk] at hinit
        simp only [if_true] at hinit
        rw [if_neg hb] at hinit; cases hinit
    have := tg _ hb
    unfold SortedOn
    cases on
    · simp only [Fst.Holds, if_neg (show ¬ false = true by decide)] at this
      have := this q
      rw [List.pairwise_map] at this
      exact this
    · simp only [Fst.Holds, if_true] at this
      have := this q
      rw [List.pairwise_map] at this
      exact this
  obtain ⟨o, ho, hF⟩ : ∃ o : Found W, reach d on s (g.trsOf q) lo hi compute = .ok (o.range.map fun p => (p.1, p.2, o.weight)) ∧
      FoundIn (Sought (d.isets s) on) (g.trsOf q) compute lo hi o := by
    unfold reach intervalSet
    rw [if_pos hin]
    simp only
    split
    · exact ⟨_, rfl, reachScan_spec hhi (hi - lo) lo NO_LABEL _ (by omega) le_rfl hn (.inl rfl) FoundIn.start⟩
    · exact ⟨_, rfl, reachIntervals_spec (hd.norm s hs') (hd.zero hs') hhi hsort _ [] rfl lo _ le_rfl hlo (fun j hj => by cases hj) FoundIn.start⟩
  have hfil : (fun t : Tr W => decide (reachLabel d s (t.labelOn on) = .ok true)) = Sought (d.isets s) on := by
    funext t
    rw [hrl]
    cases Sought (d.isets s) on t <;> rfl
  refine ⟨_, ho, fun e i t a b c => ?_, fun a b w e => ?_⟩
  · rw [Option.map_eq_none_iff] at e
    rw [hrl, hF.no e i t a b c]
  · rw [Option.map_eq_some_iff] at e
    obtain ⟨⟨a', b'⟩, hr, e⟩ := e
    simp only [Prod.mk.injEq] at e
    obtain ⟨rfl, rfl, rfl⟩ := e
    obtain ⟨y1, y2, y3, ⟨t1, y4, y4'⟩, ⟨t2, y5, y5'⟩, y6⟩ := hF.yes _ _ hr
    refine ⟨⟨y1, y2, y3⟩, ⟨t1, y4, by rw [hrl, y4']⟩, ⟨t2, y5, by rw [hrl, y5']⟩, fun i t ha hb hc hd' => ?_, ?_⟩
    · rw [hrl, Except.ok.injEq] at hd'
      exact y6 i t ha hb hc hd'
    · rw [hfil]; exact hF.weight

/-- C66, `relabel_pairs`: relabelling by the pairs, with collisions avoided, serves as well as `relabel`. No label is listed twice, as relabelling
by pairs demands. -/
theorem C66_relabel_pairs (hw : f.WF) (tf : f.Truthful) (hs : f.start ≠ none) (h1 : (1 : W) ≠ 0)
    (hno : ∀ s, ∀ t ∈ f.trsOf s, t.labelOn input < NO_LABEL) (h : Prepared f input d) :
    ((d.relabelPairs true).map Prod.fst).Nodup ∧ ∀ s, s < f.numStates → ∀ l, l ≠ EPS → l ≠ NO_LABEL →
      ∃ b, reachLabel d s (substLabel (d.relabelPairs true) l) = .ok b ∧ (b = true ↔ f.CanRead input s l) := by
  have hd := h.inv hw tf hs h1 hno
  obtain ⟨n, hn⟩ : ∃ n, n = d.label2index.length := ⟨_, rfl⟩
  have hle : ∀ l x, d.label2index.get l = some x → 1 ≤ x ∧ x ≤ n := by
    intro l x hx
    have := List.mem_map_of_mem (f := Prod.snd) (ReachMap.get_mem hx)
    rw [hd.vals.mem_iff, List.mem_range'_1] at this
    omega
  -- only `NO_LABEL` can have the final number
  have hfin : ∀ l, d.label2index.get l = some d.finalLabel → l = NO_LABEL ∨ ∀ s, s < f.numStates → ¬ (d.isets s).Mem d.finalLabel := by
    intro l hx
    rcases hd.fin with h2 | ⟨-, h2⟩
    · exact .inl (hd.inj hx h2)
    · exact .inr h2
  obtain ⟨A, hA⟩ : ∃ A, A = d.label2index.filter fun p => decide (p.2 ≠ d.finalLabel) := ⟨_, rfl⟩
  obtain ⟨B, hB⟩ : ∃ B, B = ((List.range d.label2index.length).map (· + 1)).filterMap fun i =>
        match d.label2index.get i with
        | none => some (i, d.label2index.length + 1)
        | some x => if x = d.finalLabel then some (i, d.label2index.length + 1) else none := ⟨_, rfl⟩
  have hP : d.relabelPairs true = A ++ B := by rw [hA, hB]; rfl
  have memA : ∀ p, p ∈ A ↔ d.label2index.get p.1 = some p.2 ∧ p.2 ≠ d.finalLabel := by
    intro p
    rw [hA, List.mem_filter, decide_eq_true_eq]
    constructor
    · rintro ⟨a, b⟩; exact ⟨ReachMap.get_of_mem hd.keys a, b⟩
    · rintro ⟨a, b⟩; exact ⟨ReachMap.get_mem a, b⟩
  have memB : ∀ p, p ∈ B ↔ (1 ≤ p.1 ∧ p.1 ≤ n) ∧ p.2 = n + 1 ∧ (d.label2index.get p.1 = none ∨ d.label2index.get p.1 = some d.finalLabel) := by
    intro p
    rw [hB, List.mem_filterMap]
    constructor
    · rintro ⟨i, hi, e⟩
      obtain ⟨j, hj, rfl⟩ := List.mem_map.1 hi
      rw [List.mem_range] at hj
      cases hg : d.label2index.get (j + 1) with
      | none =>
        rw [hg] at e
        simp only [Option.some.injEq] at e
        subst e
        exact ⟨⟨by simp, by simp only; omega⟩, by simp only; omega, .inl hg⟩
      | some x =>
        rw [hg] at e
        simp only at e
        split at e
        · next ex =>
          rw [Option.some.injEq] at e
          subst e; subst ex
          exact ⟨⟨by simp, by simp only; omega⟩, by simp only; omega, .inr hg⟩
        · cases e
    · rintro ⟨⟨a, b⟩, c, e⟩
      refine ⟨p.1, List.mem_map.2 ⟨p.1 - 1, by rw [List.mem_range]; omega, by omega⟩, ?_⟩
      rcases e with e | e
      · rw [e]; simp only [Option.some.injEq]; rw [← hn, ← c]
      · rw [e]; simp only [if_true, Option.some.injEq]; rw [← hn, ← c]
  have nodup : ((A ++ B).map Prod.fst).Nodup := by
    rw [List.map_append, List.nodup_append]
    refine ⟨?_, ?_, ?_⟩
    · rw [hA]; exact (List.filter_sublist.map Prod.fst).nodup hd.keys
    · rw [hB, List.map_filterMap]
      refine List.Nodup.filterMap ?_ (List.nodup_range.map (fun a b e => by simpa using e))
      have key : ∀ i b, b ∈ Option.map Prod.fst (match d.label2index.get i with
          | none => some (i, d.label2index.length + 1)
          | some x => if x = d.finalLabel then some (i, d.label2index.length + 1) else none) → i = b := by
        intro i b hb
        cases hg : d.label2index.get i with
        | none => rw [hg] at hb; simpa using hb
        | some x =>
          rw [hg] at hb
          simp only at hb
          split at hb
          · simpa using hb
          · cases hb
      intro i j b hi hj
      rw [key i b hi, key j b hj]
    · intro a ha b hb e
      obtain ⟨p, hp, rfl⟩ := List.mem_map.1 ha
      obtain ⟨q, hq, rfl⟩ := List.mem_map.1 hb
      have h2 := (memA p).1 hp
      have h3 := ((memB q).1 hq).2.2
      rw [← e, h2.1] at h3
      rcases h3 with h3 | h3
      · cases h3
      · rw [Option.some.injEq] at h3; exact h2.2 h3
  rw [hP]
  refine ⟨nodup, fun s hs' l he hl' => ?_⟩
  have subst_mem : ∀ x, (l, x) ∈ A ++ B → substLabel (A ++ B) l = x := by
    intro x hx
    unfold substLabel
    cases hf : (A ++ B).find? (fun p => decide (p.1 = l)) with
    | none => rw [List.find?_eq_none] at hf; exact absurd (hf _ hx) (by simp)
    | some p =>
      have h2 := List.mem_of_find?_eq_some hf
      have h3 := List.find?_some hf
      simp only [decide_eq_true_eq] at h3
      have := List.inj_on_of_nodup_map nodup h2 hx h3
      rw [this]
  have subst_not : (∀ x, (l, x) ∉ A ++ B) → substLabel (A ++ B) l = l := by
    intro hx
    unfold substLabel
    cases hf : (A ++ B).find? (fun p => decide (p.1 = l)) with
    | none => rfl
    | some p =>
      have h2 := List.mem_of_find?_eq_some hf
      have h3 := List.find?_some hf
      simp only [decide_eq_true_eq] at h3
      exact absurd h2 (by rw [← h3] at hx; exact hx p.2)
  have hq : ∀ x, x ≠ EPS → reachLabel d s x = .ok ((d.isets s).member x) := by
    intro x hx
    unfold reachLabel intervalSet
    rw [if_neg hx, if_pos (by rw [hd.nIsets]; exact hs')]
  have hmem : ∀ x, (d.isets s).member x = true ↔ (d.isets s).Mem x := fun x => C44_member _ (hd.norm s hs') x
  have hbig : ∀ x, n < x → ¬ (d.isets s).Mem x := by
    intro x hx hm
    obtain ⟨k, -, hk, -⟩ := (hd.mem s hs' x).1 hm
    have := (hle k x hk).2
    omega
  have hcan : f.CanRead input s l → (d.label2index.get l).isSome = true := by
    intro hc
    exact hd.known s hs' l he (by unfold Goes; rw [if_neg hl']; exact hc)
  have he0 : l ≠ 0 := he
  cases hg : d.label2index.get l with
  | some x =>
    by_cases hx : x = d.finalLabel
    · -- the label has the number that stands for the end although there is no end
      subst hx
      rcases hfin l hg with h2 | h2
      · exact absurd h2 hl'
      · have hnc : ¬ f.CanRead input s l := fun hc => h2 s hs' ((hd.mem_look hs' he hl' hg).2 hc)
        have hpos := hle l _ hg
        by_cases hln : l ≤ n
        · have e := subst_mem (n + 1) (List.mem_append_right _ ((memB _).2 ⟨⟨by simp only; omega, hln⟩, rfl, .inr hg⟩))
          rw [e, hq _ (by have : (EPS : Nat) = 0 := rfl; omega)]
          refine ⟨_, rfl, ?_⟩
          rw [hmem]
          exact ⟨fun h => absurd h (hbig _ (by omega)), fun h => absurd h hnc⟩
        · have e := subst_not (fun x hx => by
            rw [List.mem_append, memA, memB] at hx
            rcases hx with ⟨hx1, hx2⟩ | ⟨⟨-, hx1⟩, -⟩
            · rw [hg, Option.some.injEq] at hx1; exact hx2 hx1.symm
            · exact hln hx1)
          rw [e, hq _ he]
          refine ⟨_, rfl, ?_⟩
          rw [hmem]
          exact ⟨fun h => absurd h (hbig _ (by omega)), fun h => absurd h hnc⟩
    · have e := subst_mem x (List.mem_append_left _ ((memA _).2 ⟨hg, hx⟩))
      rw [e, hq x (by have : (EPS : Nat) = 0 := rfl; have := hle l x hg; omega)]
      exact ⟨_, rfl, by rw [hmem, hd.mem_look hs' he hl' hg]⟩
  | none =>
    have hnc : ¬ f.CanRead input s l := fun hc => by have := hcan hc; rw [hg] at this; cases this
    by_cases hln : l ≤ n
    · have e := subst_mem (n + 1) (List.mem_append_right _ ((memB _).2 ⟨⟨by simp only; omega, hln⟩, rfl, .inl hg⟩))
      rw [e, hq _ (by have : (EPS : Nat) = 0 := rfl; omega)]
      refine ⟨_, rfl, ?_⟩
      rw [hmem]
      exact ⟨fun h => absurd h (hbig _ (by omega)), fun h => absurd h hnc⟩
    · have e := subst_not (fun x hx => by
        rw [List.mem_append, memA, memB] at hx
        rcases hx with ⟨hx1, hx2⟩ | ⟨⟨-, hx1⟩, -⟩
        · rw [hg] at hx1; cases hx1
        · exact hln hx1)
      rw [e, hq _ he]
      refine ⟨_, rfl, ?_⟩
      rw [hmem]
      exact ⟨fun h => absurd h (hbig _ (by omega)), fun h => absurd h hnc⟩

end

/-! ## Examples and defects -/

/-- States 0 and 1 form a silent cycle; from them 5 and 9 can be read next; state 2 can read 3 or end. -/
def exReach : Fst Nat :=
  { (((((((((Fst.new.addStates 4).setStart 0).addTr 0 ⟨0, 7, 1, 1⟩).addTr 1 ⟨0, 7, 1, 0⟩).addTr 1 ⟨5, 0, 2, 2⟩).addTr 2 ⟨3, 1, 1, 3⟩).addTr 2
    ⟨0, 0, 1, 3⟩).addTr 0 ⟨9, 9, 1, 3⟩).setFinal 3 1) with props := Props.empty }

theorem exReach_hyps : exReach.WF ∧ exReach.Truthful ∧ exReach.start ≠ none ∧ (1 : Nat) ≠ 0 ∧
    (∀ s, ∀ t ∈ exReach.trsOf s, t.labelOn true < NO_LABEL) ∧ ∀ s, exReach.finOf s ≠ some 0 := by
  refine ⟨Fst.wf_of_wfB (by decide), (fun b hb => by cases hb), by decide, by decide, fun s t ht => ?_, fun s hs => ?_⟩
  · have hl : s < 4 := Fst.lt_of_mem_trsOf ht
    have : ∀ s, s < 4 → ∀ t ∈ exReach.trsOf s, t.labelOn true < NO_LABEL := by decide
    exact this s hl t ht
  · have hl : s < 4 := Fst.lt_of_finOf hs
    have : ∀ s, s < 4 → exReach.finOf s ≠ some 0 := by decide
    exact this s hl hs

/-- The theorems apply to `exReach`, built and then asked for the labels 5 and 3: from state 0 the first can be read next, the second cannot. -/
example : ∃ d, computeData exReach true = .ok d ∧ reachLabel (d.relabel 5).1 0 (d.relabel 5).2 = .ok true ∧
    reachLabel (d.relabel 3).1 0 (d.relabel 3).2 = .ok false ∧ reachFinal d 0 = .ok false ∧ reachFinal d 2 = .ok true := by
  obtain ⟨h1, h2, h3, h4, h5, h6⟩ := exReach_hyps
  obtain ⟨d, hd⟩ := (C66_compute exReach h1 h2 h3 h4 true h5).1 (fun x y h => absurd h (h6 x))
  have hp := Prepared.init hd
  have hsil : ∀ q, exReach.Silent true 0 q → q < 2 := by
    intro q hq
    induction hq with
    | refl => decide
    | tail _ hb ih =>
      obtain ⟨t, ht, e1, rfl⟩ := hb
      have : ∀ s, s < 2 → ∀ t ∈ exReach.trsOf s, t.labelOn true = EPS → t.nextstate < 2 := by decide
      exact this _ ih t ht e1
  refine ⟨d, hd, ?_, ?_, ?_, ?_⟩
  · obtain ⟨b, e, hb⟩ := (C66_label h1 h2 h3 h4 h5 hp 5 (by decide)).1 0 (by decide)
    rw [e, hb.2 ⟨by decide, 1, .single ⟨⟨0, 7, 1, 1⟩, by decide, rfl, rfl⟩, ⟨5, 0, 2, 2⟩, by decide, rfl⟩]
  · obtain ⟨b, e, hb⟩ := (C66_label h1 h2 h3 h4 h5 hp 3 (by decide)).1 0 (by decide)
    have : b ≠ true := by
      intro h
      obtain ⟨-, q, hq, t, ht, e⟩ := hb.1 h
      have : ∀ s, s < 2 → ∀ t ∈ exReach.trsOf s, t.labelOn true ≠ 3 := by decide
      exact this q (hsil q hq) t ht e
    rw [e, Bool.eq_false_of_not_eq_true this]
  · obtain ⟨b, e, hb⟩ := (C66_final h1 h2 h3 h4 h5 hp).1 0 (by decide)
    have : b ≠ true := by
      intro h
      obtain ⟨q, hq, w, hw, -⟩ := hb.1 h
      have : ∀ s, s < 2 → exReach.finOf s = none := by decide
      rw [this q (hsil q hq)] at hw; cases hw
    rw [e, Bool.eq_false_of_not_eq_true this]
  · obtain ⟨b, e, hb⟩ := (C66_final h1 h2 h3 h4 h5 hp).1 2 (by decide)
    rw [e, hb.2 ⟨3, .single ⟨⟨0, 0, 1, 3⟩, by decide, rfl, rfl⟩, 1, by decide, by decide⟩]

/-- `reach` on three transitions of which the second and third are sought (both branches of the search). -/
example : (reach (W := Nat) ⟨true, 9, [], fun _ => ⟨[⟨2, 4⟩], none⟩, 1⟩ true 0 [⟨1, 1, 5, 0⟩, ⟨2, 1, 7, 0⟩, ⟨3, 1, 8, 0⟩, ⟨4, 1, 1, 0⟩] 0 4 true) = .ok (some (1, 3, 15)) ∧
    (reach (W := Nat) ⟨true, 9, [], fun _ => ⟨[⟨2, 4⟩, ⟨6, 7⟩, ⟨8, 9⟩], none⟩, 1⟩ true 0 [⟨2, 1, 7, 0⟩] 0 1 true) = .ok (some (0, 1, 7)) := by decide

/-- Defect: a final weight zero, which makes no path accepted, stored at a state on a silent cycle makes the construction fail, although the same FST
without it is accepted. -/
theorem C66_zero_defect : ∃ f : Fst Nat, f.WF ∧ f.Truthful ∧ f.start = some 0 ∧ f.finOf 0 = some 0 ∧ computeData f true = .error .err ∧
    ∃ d, computeData (f.delFinal 0) true = .ok d := by
  obtain ⟨f, hf⟩ : ∃ f : Fst Nat, f = { ((((Fst.new.addStates 2).setStart 0).addTr 0 ⟨0, 7, 1, 1⟩).addTr 1 ⟨0, 7, 1, 0⟩).setFinal 0 0 with props := Props.empty } := ⟨_, rfl⟩
  have hw : f.WF := by rw [hf]; exact Fst.wf_of_wfB (by decide)
  have tf : f.Truthful := by rw [hf]; intro b hb; cases hb
  have hs : f.start = some 0 := by rw [hf]; rfl
  have hno : ∀ s, ∀ t ∈ f.trsOf s, t.labelOn true < NO_LABEL := by
    intro s t ht
    have hl : s < 2 := by have := Fst.lt_of_mem_trsOf ht; rw [hf] at this; exact this
    have : ∀ s, s < 2 → ∀ t ∈ f.trsOf s, t.labelOn true < NO_LABEL := by rw [hf]; decide
    exact this s hl t ht
  refine ⟨f, hw, tf, hs, by rw [hf]; decide, (C66_compute f hw tf (by rw [hs]; simp) (by decide) true hno).2 ?_, ?_⟩
  · refine ⟨0, 1, by decide, by rw [hf]; decide, .single ⟨⟨0, 7, 1, 1⟩, by rw [hf]; decide, rfl, rfl⟩, .single ⟨⟨0, 7, 1, 0⟩, by rw [hf]; decide, rfl, rfl⟩⟩
  · have hw' : (f.delFinal 0).WF := by rw [hf]; exact Fst.wf_of_wfB (by decide)
    have tf' : (f.delFinal 0).Truthful := Fst.truthful_delFinal tf (by rw [hf]; decide)
    refine (C66_compute (f.delFinal 0) hw' tf' (by rw [hf]; decide) (by decide) true (fun s t ht => hno s t (by simpa using ht))).1 ?_
    intro x y h
    have hl : x < 2 := by have := Fst.lt_of_finOf h; rw [hf] at this; exact this
    have : ∀ x, x < 2 → (f.delFinal 0).finOf x ≠ some 0 := by rw [hf]; decide
    exact absurd h (this x hl)

/-- Defect: if the FST has no start state its transitions are lost before the tables are built: state 0 can read 5, which is not reported. -/
theorem C66_no_start_defect : ∃ f : Fst Nat, f.WF ∧ f.Truthful ∧ f.CanRead true 0 5 ∧ ∃ d, computeData f true = .ok d ∧
    reachLabel (d.relabel 5).1 0 (d.relabel 5).2 = .ok false := by
  refine ⟨{ (Fst.new.addStates 1).addTr 0 ⟨5, 5, 1, 0⟩ with props := Props.empty }, Fst.wf_of_wfB (by decide), (fun b hb => by cases hb),
    ⟨0, .refl, ⟨5, 5, 1, 0⟩, by decide, rfl⟩, ?_⟩
  have hk : ∃ d, computeData { (Fst.new.addStates 1).addTr 0 ⟨5, 5, 1, 0⟩ with props := Props.empty } true = .ok d ∧ d.label2index = [] ∧
      (d.isets 0).intervals = [] ∧ d.nIsets = 1 := by
    cases hc : computeData ({ (Fst.new.addStates 1).addTr 0 ⟨5, 5, 1, 0⟩ with props := Props.empty } : Fst Nat) true with
    | error e =>
      have : (match computeData ({ (Fst.new.addStates 1).addTr 0 ⟨5, 5, 1, 0⟩ with props := Props.empty } : Fst Nat) true with
        | .error _ => false | .ok _ => true) = true := by decide +kernel
      rw [hc] at this; cases this
    | ok d =>
      have : (match computeData ({ (Fst.new.addStates 1).addTr 0 ⟨5, 5, 1, 0⟩ with props := Props.empty } : Fst Nat) true with
        | .error _ => false | .ok d => decide (d.label2index = [] ∧ (d.isets 0).intervals = [] ∧ d.nIsets = 1)) = true := by decide +kernel
      rw [hc] at this
      exact ⟨d, rfl, by simpa using this⟩
  obtain ⟨d, h1, h2, h3, h4⟩ := hk
  refine ⟨d, h1, ?_⟩
  have e : d.relabel 5 = ({ d with label2index := [(5, 1)] }, 1) := by unfold relabel; simp [h2, ReachMap.get]
  rw [e]
  unfold reachLabel intervalSet
  simp only [h4]
  have : (d.isets 0).member 1 = false := by
    unfold IntervalSet.member
    rw [h3]; rfl
  rw [if_neg (by decide), if_pos (by decide)]
  simp only
  rw [this]

end Verif
