import Verif.Model.TrMap
import Verif.Props.C10

/-! # C23: `relabel_pairs` -/

namespace Verif
set_option linter.unusedSectionVars false
universe u
variable {W : Type u} [Zero W] [One W] [DecidableEq W]

/-- The label that the list of pairs assigns to `l`: unlisted labels stay. -/
def substLabel (ps : List (Label × Label)) (l : Label) : Label :=
  match ps.find? fun p => p.1 = l with
  | none => l
  | some p => p.2

theorem pairsToMap_spec : ∀ (ps : List (Label × Label)) (m : Label → Option Label),
    (((ps.map Prod.fst).Nodup ∧ ∀ p ∈ ps, m p.1 = none) → ∃ m', pairsToMap m ps = .ok m' ∧
      ∀ x, m' x = ((ps.find? fun p => p.1 = x).map (·.2)).or (m x)) ∧
    (¬ ((ps.map Prod.fst).Nodup ∧ ∀ p ∈ ps, m p.1 = none) → pairsToMap m ps = .error .err)
  | [], m => ⟨fun _ => ⟨m, rfl, fun x => by simp⟩, fun h => absurd ⟨List.nodup_nil, by simp⟩ h⟩
  | (a, b) :: ps, m => by
    unfold pairsToMap
    cases hm : m a with
    | some c =>
      refine ⟨fun h => ?_, fun _ => rfl⟩
      have := h.2 (a, b) List.mem_cons_self
      rw [hm] at this; cases this
    | none =>
      simp only
      obtain ⟨h1, h2⟩ := pairsToMap_spec ps (fun x => if x = a then some b else m x)
      constructor
      · rintro ⟨hn, hp⟩
        rw [List.map_cons, List.nodup_cons] at hn
        obtain ⟨m', e, hm'⟩ := h1 ⟨hn.2, fun p hp' => by
          have : p.1 ≠ a := fun e => hn.1 (List.mem_map.2 ⟨p, hp', e⟩)
          rw [if_neg this]
          exact hp p (List.mem_cons_of_mem _ hp')⟩
        refine ⟨m', e, fun x => ?_⟩
        rw [hm', List.find?_cons]
        by_cases hx : a = x
        · subst hx
          have : ps.find? (fun p => decide (p.1 = a)) = none := by
            rw [List.find?_eq_none]
            intro p hp' he
            simp only [decide_eq_true_eq] at he
            exact hn.1 (List.mem_map.2 ⟨p, hp', he⟩)
          simp [this]
        · simp [hx, Ne.symm hx]
      · intro hn
        apply h2
        rintro ⟨h3, h4⟩
        apply hn
        have key : ∀ p ∈ ps, p.1 ≠ a := by
          intro p hp e
          have := h4 p hp
          rw [if_pos e] at this; cases this
        refine ⟨?_, ?_⟩
        · rw [List.map_cons, List.nodup_cons]
          refine ⟨?_, h3⟩
          rw [List.mem_map]
          rintro ⟨p, hp, e⟩
          exact key p hp e
        · intro p hp
          rcases List.mem_cons.1 hp with rfl | hp
          · exact hm
          · have := h4 p hp
            rwa [if_neg (key p hp)] at this

theorem pairsToMap_subst (ps : List (Label × Label)) :
    ((ps.map Prod.fst).Nodup → ∃ m, pairsToMap (fun _ => none) ps = .ok m ∧ ∀ x, (m x).getD x = substLabel ps x) ∧
    (¬ (ps.map Prod.fst).Nodup → pairsToMap (fun _ => none) ps = .error .err) := by
  obtain ⟨h1, h2⟩ := pairsToMap_spec ps (fun _ => none)
  constructor
  · intro hn
    obtain ⟨m, e, hm⟩ := h1 ⟨hn, fun _ _ => rfl⟩
    refine ⟨m, e, fun x => ?_⟩
    rw [hm]
    unfold substLabel
    cases ps.find? fun p => p.1 = x <;> rfl
  · intro hn
    exact h2 fun h => hn h.1

/-- The new labels of a transition. -/
def mapLabels (mi mo : Label → Option Label) (t : Tr W) : Tr W :=
  { t with ilabel := (mi t.ilabel).getD t.ilabel, olabel := (mo t.olabel).getD t.olabel }

open Fst in
theorem relabelTr_rewrites (mi mo : Label → Option Label) : Rewrites (relabelTr mi mo : Fst W → Nat → Nat → Fst W) (mapLabels mi mo) := by
  have hlt : ∀ (f : Fst W) (s i : Nat) (t : Tr W), (f.trsOf s)[i]? = some t → s < f.states.length :=
    fun f s i t h => lt_of_mem_trsOf (List.mem_of_getElem? h)
  have none_case : ∀ (f : Fst W) (s i q : Nat), (f.trsOf s)[i]? = none → f.trsOf q = if q = s then (f.trsOf s).modify i (mapLabels mi mo) else f.trsOf q := by
    intro f s i q h
    rw [modify_none h]
    split
    · rename_i e; rw [e]
    · rfl
  constructor
  · intro f s i q
    unfold relabelTr
    cases h : (f.trsOf s)[i]? with
    | none => exact none_case f s i q h
    | some t =>
      have hl := hlt f s i t h
      rw [modify_eq_set h]
      unfold mapLabels
      simp only
      cases hi : mi t.ilabel <;> cases ho : mo t.olabel <;> simp only [Option.getD_none, Option.getD_some]
      · split
        · rename_i e
          subst e
          obtain ⟨hlen, e⟩ := List.getElem?_eq_some_iff.1 h
          subst e
          exact (List.set_getElem_self hlen).symm
        · rfl
      · simp only [setOlabelR, hl, if_true, h]
        rw [replaceTr_trsOf]
      · simp only [setIlabelR, hl, if_true, h]
        rw [replaceTr_trsOf]
      · simp only [setLabels, h]
        rw [replaceTr_trsOf]
  · intro f s i q
    unfold relabelTr
    cases h : (f.trsOf s)[i]? with
    | none => rfl
    | some t =>
      have hl := hlt f s i t h
      cases hi : mi t.ilabel <;> cases ho : mo t.olabel <;> simp [hi, ho, setOlabelR, setIlabelR, setLabels, hl, h]
  · intro f s i
    unfold relabelTr
    cases h : (f.trsOf s)[i]? with
    | none => rfl
    | some t =>
      have hl := hlt f s i t h
      cases hi : mi t.ilabel <;> cases ho : mo t.olabel <;> simp [hi, ho, setOlabelR, setIlabelR, setLabels, hl, h]
  · intro f s i
    unfold relabelTr
    cases h : (f.trsOf s)[i]? with
    | none => rfl
    | some t =>
      have hl := hlt f s i t h
      cases hi : mi t.ilabel <;> cases ho : mo t.olabel <;> simp [hi, ho, setOlabelR, setIlabelR, setLabels, hl, h]
  · intro f s i hc
    unfold relabelTr
    cases h : (f.trsOf s)[i]? with
    | none => exact hc
    | some t =>
      have hl := hlt f s i t h
      cases hi : mi t.ilabel <;> cases ho : mo t.olabel <;> simp only [hi, ho, setOlabelR, setIlabelR, setLabels, hl, h, if_true]
      · exact hc
      · exact allCounters_replaceTr hc h (Or.inr ⟨rfl, rfl⟩) (Or.inl rfl)
      · exact allCounters_replaceTr hc h (Or.inl rfl) (Or.inr ⟨rfl, rfl⟩)
      · exact allCounters_replaceTr hc h (Or.inl rfl) (Or.inl rfl)

open Fst in
theorem truthful_relabelTr {f : Fst W} (tf : f.Truthful) (mi mo : Label → Option Label) (s i : Nat) : (relabelTr mi mo f s i).Truthful := by
  unfold relabelTr
  cases h : (f.trsOf s)[i]? with
  | none => exact tf
  | some t =>
    have hm := List.mem_of_getElem? h
    have hl : s < f.states.length := lt_of_mem_trsOf hm
    cases hi : mi t.ilabel <;> cases ho : mo t.olabel <;> simp only [hi, ho, setOlabelR, setIlabelR, setLabels, hl, h, if_true]
    · exact tf
    · exact truthful_replaceTr tf h (fun b hb => updOk_newLabels tf hm _ _ b hb)
    · exact truthful_replaceTr tf h (fun b hb => updOk_newLabels tf hm _ _ b hb)
    · exact truthful_replaceTr tf h (fun b hb => updOk_newLabels tf hm _ _ b hb)

open Fst in
theorem relabelPairs_ok (f : Fst W) (ip op : List (Label × Label)) (hi : (ip.map Prod.fst).Nodup) (ho : (op.map Prod.fst).Nodup) :
    (f.relabelPairs ip op).2 = .ok () ∧
    Relab f (f.relabelPairs ip op).1 (fun t => { t with ilabel := substLabel ip t.ilabel, olabel := substLabel op t.olabel }) ∧
    (f.AllCounters → (f.relabelPairs ip op).1.AllCounters) ∧ (f.Truthful → (f.relabelPairs ip op).1.Truthful) := by
  obtain ⟨mi, e1, h1⟩ := (pairsToMap_subst ip).1 hi
  obtain ⟨mo, e2, h2⟩ := (pairsToMap_subst op).1 ho
  have hk : (mapLabels mi mo : Tr W → Tr W) = fun t => { t with ilabel := substLabel ip t.ilabel, olabel := substLabel op t.olabel } := by
    funext t
    unfold mapLabels
    rw [h1, h2]
  unfold Fst.relabelPairs
  rw [e1]
  simp only
  rw [e2]
  simp only
  obtain ⟨a, b, c, d, e⟩ := forStates_spec (relabelTr_rewrites mi mo) f
  rw [hk] at a
  refine ⟨trivial, ⟨a, b, c, d, fun _ => rfl⟩, e, fun tf => ?_⟩
  unfold Fst.forStates
  refine foldl_induct (P := fun (g : Fst W) => g.Truthful) _ _ _ tf ?_
  intro g s _ hg
  unfold Fst.forTrs
  exact foldl_induct (P := fun (g : Fst W) => g.Truthful) _ _ _ hg (fun g i _ hg => truthful_relabelTr hg mi mo s i)

/-- C23: if no label is listed twice, `relabel_pairs` succeeds and replaces each input and each output label by its image, keeping
unlisted labels, weights, targets, the order of transitions, final weights and the start state. Counters stay exact and flags true. -/
theorem C23_relabel_pairs (f : Fst W) (ip op : List (Label × Label)) (hi : (ip.map Prod.fst).Nodup) (ho : (op.map Prod.fst).Nodup) :
    (f.relabelPairs ip op).2 = .ok () ∧
    (∀ s, (f.relabelPairs ip op).1.trsOf s = (f.trsOf s).map fun t =>
      { t with ilabel := substLabel ip t.ilabel, olabel := substLabel op t.olabel }) ∧
    (∀ s, (f.relabelPairs ip op).1.finOf s = f.finOf s) ∧ (f.relabelPairs ip op).1.start = f.start ∧
    (f.relabelPairs ip op).1.numStates = f.numStates ∧
    (f.AllCounters → (f.relabelPairs ip op).1.AllCounters) ∧ (f.Truthful → (f.relabelPairs ip op).1.Truthful) := by
  obtain ⟨h1, h2, h3, h4⟩ := relabelPairs_ok f ip op hi ho
  exact ⟨h1, h2.trs, h2.fin, h2.start, h2.num, h3, h4⟩

/-- C23: if a label is listed twice on either side, `relabel_pairs` fails and the FST is unchanged. -/
theorem C23_duplicate (f : Fst W) (ip op : List (Label × Label)) (h : ¬ (ip.map Prod.fst).Nodup ∨ ¬ (op.map Prod.fst).Nodup) :
    f.relabelPairs ip op = (f, .error .err) := by
  unfold Fst.relabelPairs
  by_cases hi : (ip.map Prod.fst).Nodup
  · obtain ⟨mi, e1, -⟩ := (pairsToMap_subst ip).1 hi
    rw [e1]
    simp only
    rw [(pairsToMap_subst op).2 (by tauto)]
  · rw [(pairsToMap_subst ip).2 hi]

/-- Substituting labels in a string; a label mapped to ε disappears. -/
def substString (ps : List (Label × Label)) (x : List Label) : List Label := x.flatMap fun l => strip (substLabel ps l)

/-- C23: if ε is not itself remapped, the accepting paths are those of the input with both strings substituted. -/
theorem C23_paths [Mul W] (f : Fst W) (ip op : List (Label × Label)) (hi : (ip.map Prod.fst).Nodup) (ho : (op.map Prod.fst).Nodup)
    (hi0 : substLabel ip EPS = EPS) (ho0 : substLabel op EPS = EPS) (n : Nat) :
    (f.relabelPairs ip op).1.accPaths n = (f.accPaths n).map fun p => (substString ip p.1, substString op p.2.1, p.2.2) := by
  refine (relabelPairs_ok f ip op hi ho).2.1.accPaths _ (fun t p => ?_) (fun _ => rfl) n
  have key : ∀ ps l, substLabel ps EPS = EPS → substString ps (strip l) = strip (substLabel ps l) := by
    intro ps l h0
    unfold substString
    by_cases hl : l = EPS
    · subst hl; rw [h0]; rfl
    · unfold strip; rw [if_neg hl]; simp
  have happ : ∀ ps x y, substString ps (x ++ y) = substString ps x ++ substString ps y := by
    intro ps x y; simp [substString]
  simp only [PathT.cat, Tr.asPath, happ, key _ _ hi0, key _ _ ho0]

/-- Relabelling two tapes; label 5 becomes ε, label 2 is duplicated in the second call. -/
example : (exTwoTape.relabelPairs [(1, 3)] [(5, 0), (4, 1)]).1.trsOf 0 = [⟨3, 0, 2, 1⟩, ⟨3, 0, 1, 1⟩] ∧
    (exTwoTape.relabelPairs [(1, 3)] [(5, 0), (4, 1)]).1.trsOf 1 = [⟨0, 1, 3, 2⟩] ∧
    (exTwoTape.relabelPairs [(2, 3), (2, 3)] []).2 = .error .err := by decide
example : ([((1 : Nat), (3 : Nat))].map Prod.fst).Nodup ∧ substLabel [(1, 3)] EPS = EPS := by decide

end Verif
