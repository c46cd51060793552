import Verif.Model.ComputeProps
import Verif.Lemmas.SccVisit
import Verif.Lemmas.Trim
import Mathlib.Data.List.Induction

/-!
# The scan of `compute_fst_properties`
-/

namespace Verif
universe u
variable {W : Type u} [Zero W] [One W] [DecidableEq W]
namespace Scan
open Fst
set_option linter.unusedSectionVars false

/-- The pair `b.neg`, `b` records whether `V` happened. -/
def Tracks (p : Props) (b : PropBit) (V : Prop) : Prop := (p b = true ↔ V) ∧ (p b.neg = true ↔ ¬ V)

theorem Tracks.congr {p : Props} {b} {V V' : Prop} (h : Tracks p b V) (e : V ↔ V') : Tracks p b V' := by
  have : V = V' := propext e
  exact this ▸ h

theorem Tracks.flip {p : Props} {b : PropBit} {V : Prop} (h : Tracks p b V) (c : Bool) (hb : b.neg ≠ b) :
    Tracks (p.flipIf c b b.neg) b (V ∨ c = true) := by
  obtain ⟨h1, h2⟩ := h
  unfold Tracks
  rw [Props.flipIf_apply, Props.flipIf_apply]
  cases c with
  | false => simp [h1, h2]
  | true => simp [Ne.symm hb]

theorem Tracks.frame {p : Props} {b y n : PropBit} {V : Prop} (h : Tracks p b V) (c : Bool) (h1 : b ≠ y) (h2 : b ≠ n) (h3 : b.neg ≠ y)
    (h4 : b.neg ≠ n) : Tracks (p.flipIf c y n) b V := by
  obtain ⟨e1, e2⟩ := h
  unfold Tracks
  rw [Props.flipIf_apply, Props.flipIf_apply]
  cases c with
  | false => simp [e1, e2]
  | true => simp [h1, h2, h3, h4, e1, e2]

/-- The bits of the scan that are always set up. -/
def scanBit : PropBit → Bool
  | .notAcceptor | .epsilons | .iEpsilons | .oEpsilons | .notILabelSorted | .notOLabelSorted | .weighted | .notTopSorted | .notString
  | .notIDeterministic | .notODeterministic | .weightedCycles => true
  | _ => false

/-- The condition under which a transition flips a bit. -/
def trCond (scc : Nat → Int) (s : StateId) (a : ScanTr W) (t : Tr W) : PropBit → Prop
  | .notIDeterministic => seenIn a.ilabels t.ilabel = true
  | .notODeterministic => seenIn a.olabels t.olabel = true
  | .notAcceptor => t.ilabel ≠ t.olabel
  | .epsilons => t.ilabel = 0 ∧ t.olabel = 0
  | .iEpsilons => t.ilabel = 0
  | .oEpsilons => t.olabel = 0
  | .notILabelSorted => decreases (·.ilabel) a.prev t = true
  | .notOLabelSorted => decreases (·.olabel) a.prev t = true
  | .weighted => t.weight ≠ 1 ∧ t.weight ≠ 0
  | .weightedCycles => (t.weight ≠ 1 ∧ t.weight ≠ 0) ∧ scc s = scc t.nextstate
  | .notTopSorted => t.nextstate ≤ s
  | .notString => t.nextstate ≠ s + 1
  | _ => False

theorem scanTr_tracks (scc : Nat → Int) (s : StateId) (a : ScanTr W) (t : Tr W) (b : PropBit) (hb : scanBit b = true) {V : Prop}
    (h : Tracks a.props b V) : Tracks (scanTr scc s a t).props b (V ∨ trCond scc s a t b) := by
  obtain ⟨h1, h2⟩ := h
  cases b <;> simp only [scanBit, Bool.false_eq_true] at hb <;>
    simp only [Tracks, scanTr, trCond, Props.flipIf_apply, PropBit.neg] at h1 h2 ⊢ <;>
    by_cases hV : V <;> simp [h1, h2, hV] <;> try tauto
  all_goals by_cases hw : t.weight = 1 <;> by_cases hw0 : t.weight = 0 <;> by_cases hs : scc s = scc t.nextstate <;> simp [h1, h2, hV, hw, hw0, hs]

/-- What makes a bit true in the transitions of one state. -/
def listViol (scc : Nat → Int) (s : StateId) (l : List (Tr W)) : PropBit → Prop
  | .notIDeterministic => ¬ (l.map (·.ilabel)).Nodup
  | .notODeterministic => ¬ (l.map (·.olabel)).Nodup
  | .notAcceptor => ∃ t ∈ l, t.ilabel ≠ t.olabel
  | .epsilons => ∃ t ∈ l, t.ilabel = 0 ∧ t.olabel = 0
  | .iEpsilons => ∃ t ∈ l, t.ilabel = 0
  | .oEpsilons => ∃ t ∈ l, t.olabel = 0
  | .notILabelSorted => ¬ (l.map (·.ilabel)).Pairwise (· ≤ ·)
  | .notOLabelSorted => ¬ (l.map (·.olabel)).Pairwise (· ≤ ·)
  | .weighted => ∃ t ∈ l, t.weight ≠ 1 ∧ t.weight ≠ 0
  | .weightedCycles => ∃ t ∈ l, (t.weight ≠ 1 ∧ t.weight ≠ 0) ∧ scc s = scc t.nextstate
  | .notTopSorted => ∃ t ∈ l, t.nextstate ≤ s
  | .notString => ∃ t ∈ l, t.nextstate ≠ s + 1
  | _ => False

omit [Zero W] [One W] [DecidableEq W] in
theorem sorted_append (lab : Tr W → Label) (l : List (Tr W)) (t : Tr W) :
    ¬ ((l ++ [t]).map lab).Pairwise (· ≤ ·) ↔ ¬ (l.map lab).Pairwise (· ≤ ·) ∨ decreases lab l.getLast? t = true := by
  rw [List.map_append, List.pairwise_append]
  by_cases hs : (l.map lab).Pairwise (· ≤ ·)
  · simp only [hs, not_true, false_or, true_and]
    cases hl : l.getLast? with
    | none =>
      rw [List.getLast?_eq_none_iff] at hl
      subst hl; simp [decreases]
    | some p =>
      obtain ⟨ys, rfl⟩ := List.getLast?_eq_some_iff.1 hl
      rw [List.map_append, List.pairwise_append] at hs
      simp only [decreases, decide_eq_true_eq, List.map_cons, List.map_nil, List.pairwise_cons, List.not_mem_nil, false_imp_iff,
        implies_true, List.Pairwise.nil, true_and, List.mem_singleton, forall_eq, and_self]
      constructor
      · intro h
        by_contra hc
        apply h
        intro a ha
        rw [List.map_append, List.mem_append] at ha
        rcases ha with ha | ha
        · exact Nat.le_trans (hs.2.2 a ha (lab p) (by simp)) (by omega)
        · simp only [List.map_cons, List.map_nil, List.mem_singleton] at ha
          rw [ha]; omega
      · intro h hc
        have := hc (lab p) (by simp)
        omega
  · simp [hs]

omit [Zero W] [One W] [DecidableEq W] in
theorem nodup_append (lab : Tr W → Label) (l : List (Tr W)) (t : Tr W) :
    ¬ ((l ++ [t]).map lab).Nodup ↔ ¬ (l.map lab).Nodup ∨ seenIn (some (l.map lab).reverse) (lab t) = true := by
  rw [List.map_append, List.nodup_append]
  by_cases hs : (l.map lab).Nodup
  · simp only [hs, not_true, false_or, true_and, seenIn, decide_eq_true_eq, List.mem_reverse, List.map_cons, List.map_nil]
    simp only [List.nodup_cons, List.not_mem_nil, not_false_iff, List.nodup_nil, and_self, true_and, List.mem_singleton, forall_eq]
    constructor
    · intro h; by_contra hc; exact h fun a ha e => hc (e ▸ ha)
    · intro h hc; exact hc _ h rfl
  · simp [hs]

/-- Requested bits. -/
def wanted (mask : Props) : PropBit → Bool
  | .notIDeterministic => mask.intersects Props.iDetMask
  | .notODeterministic => mask.intersects Props.oDetMask
  | .weightedCycles => mask.intersects (Props.cycleMask.or Props.dfsMask)
  | b => scanBit b

/-- The accumulator before the first transition. -/
def init0 (W : Type u) (mask p : Props) : ScanTr W :=
  { props := p, prev := none
    ilabels := if mask.intersects Props.iDetMask then some [] else none
    olabels := if mask.intersects Props.oDetMask then some [] else none }

theorem foldTr (mask p : Props) (scc : Nat → Int) (s : StateId) (l : List (Tr W)) :
    (l.foldl (scanTr scc s) (init0 W mask p)).prev = l.getLast? ∧
    (l.foldl (scanTr scc s) (init0 W mask p)).ilabels =
      (if mask.intersects Props.iDetMask then some (l.map (·.ilabel)).reverse else none) ∧
    (l.foldl (scanTr scc s) (init0 W mask p)).olabels =
      (if mask.intersects Props.oDetMask then some (l.map (·.olabel)).reverse else none) ∧
    ∀ b, wanted mask b = true → ∀ V, Tracks p b V →
      Tracks (l.foldl (scanTr scc s) (init0 W mask p)).props b (V ∨ listViol scc s l b) := by
  induction l using List.reverseRecOn with
  | nil =>
    refine ⟨rfl, rfl, rfl, ?_⟩
    intro b hb V hV
    refine Tracks.congr (V := V) hV ?_
    cases b <;> simp [listViol]
  | append_singleton l t ih =>
    obtain ⟨h1, h2, h3, h4⟩ := ih
    rw [List.foldl_append]
    simp only [List.foldl_cons, List.foldl_nil]
    refine ⟨?_, ?_, ?_, ?_⟩
    · simp [scanTr]
    · simp only [scanTr, h2]; split <;> simp
    · simp only [scanTr, h3]; split <;> simp
    · intro b hb V hV
      have hsb : scanBit b = true := by
        cases b <;> first | rfl | (simp [wanted, scanBit] at hb)
      refine (scanTr_tracks scc s _ t b hsb (h4 b hb V hV)).congr ?_
      rw [or_assoc]
      refine or_congr Iff.rfl ?_
      have ex : ∀ P : Tr W → Prop, (∃ t' ∈ l ++ [t], P t') ↔ (∃ t' ∈ l, P t') ∨ P t := by
        intro P; simp [or_and_right, exists_or]
      cases b <;> simp only [scanBit, Bool.false_eq_true] at hsb <;> simp only [listViol, trCond, ex]
      · rw [nodup_append, h2]; simp only [wanted] at hb; rw [if_pos hb]
      · rw [nodup_append, h3]; simp only [wanted] at hb; rw [if_pos hb]
      · rw [sorted_append, h1]
      · rw [sorted_append, h1]

/-- Final states in the sense of `is_final`. -/
def NzFinal (f : Fst W) (s : StateId) : Prop := ∃ w, f.finOf s = some w ∧ w ≠ 0

/-- What makes a bit true at one state. -/
def stViol (f : Fst W) (scc : Nat → Int) (s : StateId) : PropBit → Prop
  | .weighted => listViol scc s (f.trsOf s) .weighted ∨ ∃ w, f.finOf s = some w ∧ w ≠ 0 ∧ w ≠ 1
  | .notString => listViol scc s (f.trsOf s) .notString ∨ (∃ s', s' < s ∧ NzFinal f s') ∨ (¬ NzFinal f s ∧ (f.trsOf s).length ≠ 1)
  | b => listViol scc s (f.trsOf s) b

theorem or_shuffle3 (V A L N X : Prop) : (((V ∨ A) ∨ L) ∨ N) ∨ X ↔ V ∨ A ∨ (L ∨ N ∨ X) := by tauto
theorem or_shuffle2 (V A L N : Prop) : (((V ∨ A) ∨ L) ∨ N) ↔ V ∨ A ∨ (L ∨ N) := by tauto
theorem or_shuffle1 (V A L : Prop) : ((V ∨ A) ∨ L) ↔ V ∨ A ∨ L := by tauto

theorem foldSt (f : Fst W) (mask p : Props) (scc : Nat → Int) (m : Nat) :
    (((List.range m).foldl (f.scanState mask scc) (p, 0)).2 > 0 ↔ ∃ s, s < m ∧ NzFinal f s) ∧
    ∀ b, wanted mask b = true → ∀ V, Tracks p b V →
      Tracks ((List.range m).foldl (f.scanState mask scc) (p, 0)).1 b (V ∨ ∃ s, s < m ∧ stViol f scc s b) := by
  induction m with
  | zero =>
    refine ⟨by simp, ?_⟩
    intro b hb V hV
    exact Tracks.congr (V := V) hV (by simp)
  | succ m ih =>
    obtain ⟨h1, h2⟩ := ih
    rw [List.range_succ, List.foldl_append]
    simp only [List.foldl_cons, List.foldl_nil]
    generalize (List.range m).foldl (f.scanState mask scc) (p, 0) = a at h1 h2
    obtain ⟨q, nf⟩ := a
    simp only at h1 h2
    have hlt : ∀ P : Nat → Prop, (∃ s, s < m + 1 ∧ P s) ↔ (∃ s, s < m ∧ P s) ∨ P m := by
      intro P
      constructor
      · rintro ⟨s, hs, hp⟩
        by_cases e : s = m
        · exact .inr (e ▸ hp)
        · exact .inl ⟨s, by omega, hp⟩
      · rintro (⟨s, hs, hp⟩ | hp)
        · exact ⟨s, by omega, hp⟩
        · exact ⟨m, by omega, hp⟩
    have ht := (foldTr mask q scc m (f.trsOf m)).2.2.2
    have hsc : f.scanState mask scc (q, nf) m = scanFinal ((f.trsOf m).foldl (scanTr scc m) (init0 W mask q)).props nf (f.finOf m) (f.trsOf m).length := rfl
    rw [hsc]
    generalize ((f.trsOf m).foldl (scanTr scc m) (init0 W mask q)).props = r at ht
    constructor
    · rw [hlt, ← h1]
      unfold scanFinal NzFinal
      cases hf : f.finOf m with
      | none => simp
      | some w =>
        by_cases hw : w = 0
        · simp [hw]
        · simp [hw]
    · intro b hb V hV
      have h3 := ht b hb _ (h2 b hb V hV)
      have hsb : scanBit b = true := by
        cases b <;> first | rfl | (simp [wanted, scanBit] at hb)
      by_cases hstr : b = .notString
      · subst hstr
        have h4 := h3.flip (decide (nf > 0)) (by decide)
        have hm : stViol f scc m .notString ↔ listViol scc m (f.trsOf m) .notString ∨ nf > 0 ∨
            (¬ NzFinal f m ∧ (f.trsOf m).length ≠ 1) := by rw [h1]; rfl
        cases hf : f.finOf m with
        | none =>
          refine (h4.flip (decide ((f.trsOf m).length ≠ 1)) (by decide)).congr ?_
          have hz : ¬ NzFinal f m := by rintro ⟨w, h, -⟩; rw [hf] at h; cases h
          rw [hlt, hm, decide_eq_true_eq, decide_eq_true_eq, or_shuffle3]
          simp only [hz, not_false_iff, true_and]
        | some w =>
          by_cases hw : w = 0
          · simp only [scanFinal, hw, ne_eq, not_true, if_false]
            refine (h4.flip (decide (¬ (f.trsOf m).length = 1)) (by decide)).congr ?_
            have hz : ¬ NzFinal f m := by rintro ⟨w', h, h0⟩; rw [hf] at h; cases h; exact h0 hw
            rw [hlt, hm, decide_eq_true_eq, decide_eq_true_eq, or_shuffle3]
            simp only [hz, not_false_iff, true_and, ne_eq]
          · simp only [scanFinal, ne_eq, hw, not_false_iff, if_true]
            refine (h4.frame (decide (¬ w = 1)) (y := .weighted) (n := .unweighted) (by decide) (by decide) (by decide) (by decide)).congr ?_
            have hz : NzFinal f m := ⟨w, hf, hw⟩
            rw [hlt, hm, decide_eq_true_eq, or_shuffle2]
            simp only [hz, not_true, false_and, or_false]
      · have hn1 : b ≠ .isString := by rintro rfl; simp [scanBit] at hsb
        have hn2 : b.neg ≠ .notString := by cases b <;> simp [PropBit.neg, scanBit] at hsb ⊢
        have hn3 : b.neg ≠ .isString := by cases b <;> simp [PropBit.neg, scanBit] at hsb hstr ⊢
        have h4 := h3.frame (decide (nf > 0)) hstr hn1 hn2 hn3
        have h5 := h4.frame (decide ((f.trsOf m).length ≠ 1)) hstr hn1 hn2 hn3
        by_cases hwb : b = .weighted
        · subst hwb
          cases hf : f.finOf m with
          | none =>
            refine h5.congr ?_
            have hm : stViol f scc m .weighted ↔ listViol scc m (f.trsOf m) .weighted := by
              simp [stViol, hf]
            rw [hlt, hm, or_shuffle1]
          | some w =>
            by_cases hw : w = 0
            · simp only [scanFinal, hw, ne_eq, not_true, if_false]
              refine h5.congr ?_
              have hm : stViol f scc m .weighted ↔ listViol scc m (f.trsOf m) .weighted := by
                simp [stViol, hf, hw]
              rw [hlt, hm, or_shuffle1]
            · simp only [scanFinal, ne_eq, hw, not_false_iff, if_true]
              refine (h4.flip (decide (¬ w = 1)) (by decide)).congr ?_
              have hm : stViol f scc m .weighted ↔ listViol scc m (f.trsOf m) .weighted ∨ ¬ w = 1 := by
                simp [stViol, hf, hw]
              rw [hlt, hm, decide_eq_true_eq, or_shuffle2]
        · have hst : stViol f scc m b = listViol scc m (f.trsOf m) b := by
            cases b <;> first | rfl | exact absurd rfl hstr | exact absurd rfl hwb
          have hfin : V ∨ (∃ s, s < m ∧ stViol f scc s b) ∨ listViol scc m (f.trsOf m) b ↔ V ∨ ∃ s, s < m + 1 ∧ stViol f scc s b := by
            rw [hlt, hst]
          have hn4 : b ≠ .unweighted := by rintro rfl; simp [scanBit] at hsb
          have hn5 : b.neg ≠ .weighted := by cases b <;> simp [PropBit.neg, scanBit] at hsb ⊢
          have hn6 : b.neg ≠ .unweighted := by cases b <;> simp [PropBit.neg, scanBit] at hsb hwb ⊢
          cases hf : f.finOf m with
          | none => exact h5.congr (by rw [← hfin, or_assoc])
          | some w =>
            by_cases hw : w = 0
            · simp only [scanFinal, hw, ne_eq, not_true, if_false]
              exact h5.congr (by rw [← hfin, or_assoc])
            · simp only [scanFinal, ne_eq, hw, not_false_iff, if_true]
              exact (h4.frame (decide (¬ w = 1)) hwb hn4 hn5 hn6).congr (by rw [← hfin, or_assoc])

/-! ## Bits the scan leaves alone -/

/-- Bits outside the wanted pairs. -/
def offBit (mask : Props) (b : PropBit) : Bool := !wanted mask b && !wanted mask b.neg

theorem flipIf_off (c : Bool) (p : Props) {y n b : PropBit} (h1 : b ≠ y) (h2 : b ≠ n) : (p.flipIf c y n) b = p b := by
  rw [Props.flipIf_apply]; cases c <;> simp [h1, h2]

theorem flipIf_same (p : Props) {y n b : PropBit} (c : Bool) (hc : c = false) : (p.flipIf c y n) b = p b := by
  subst hc; rw [Props.flipIf_apply]; simp

theorem scanTr_off {mask : Props} (scc : Nat → Int) (s : StateId) (a : ScanTr W) (t : Tr W)
    (hi : mask.intersects Props.iDetMask = false → a.ilabels = none) (ho : mask.intersects Props.oDetMask = false → a.olabels = none)
    (hc : mask.intersects (Props.cycleMask.or Props.dfsMask) = false → a.props .unweightedCycles = false)
    {b : PropBit} (hb : offBit mask b = true) : (scanTr scc s a t).props b = a.props b := by
  unfold offBit at hb
  cases b <;> simp only [wanted, scanBit, PropBit.neg, Bool.not_false, Bool.not_true, Bool.and_true, Bool.and_false, Bool.true_and,
    Bool.false_and, Bool.false_eq_true, Bool.not_eq_true'] at hb <;>
    simp only [scanTr, Props.flipIf_apply]
  all_goals first
    | (rw [hi hb]; simp [seenIn]; done)
    | (rw [ho hb]; simp [seenIn]; done)
    | (simp [hc hb]; done)
    | (simp; done)

theorem foldTr_off (mask p : Props) (scc : Nat → Int) (s : StateId) (l : List (Tr W))
    (hc : mask.intersects (Props.cycleMask.or Props.dfsMask) = false → p .unweightedCycles = false)
    {b : PropBit} (hb : offBit mask b = true) : (l.foldl (scanTr scc s) (init0 W mask p)).props b = p b := by
  have key : ∀ (l : List (Tr W)) (b : PropBit), offBit mask b = true → (l.foldl (scanTr scc s) (init0 W mask p)).props b = p b := by
    intro l
    induction l using List.reverseRecOn with
    | nil => intro b _; rfl
    | append_singleton l t ih =>
      intro b hb
      rw [List.foldl_append]
      simp only [List.foldl_cons, List.foldl_nil]
      obtain ⟨-, h2, h3, -⟩ := foldTr mask p scc s l
      rw [scanTr_off (mask := mask) scc s _ t (fun h => by rw [h2, h]; rfl) (fun h => by rw [h3, h]; rfl) ?_ hb, ih b hb]
      intro h
      rw [ih .unweightedCycles (by simp [offBit, wanted, scanBit, PropBit.neg, h])]
      exact hc h
  exact key l b hb

theorem foldSt_off (f : Fst W) (mask p : Props) (scc : Nat → Int) (m : Nat)
    (hc : mask.intersects (Props.cycleMask.or Props.dfsMask) = false → p .unweightedCycles = false)
    (b : PropBit) (hb : offBit mask b = true) : ((List.range m).foldl (f.scanState mask scc) (p, 0)).1 b = p b := by
  induction m generalizing b with
  | zero => rfl
  | succ m ih =>
    rw [List.range_succ, List.foldl_append]
    simp only [List.foldl_cons, List.foldl_nil]
    generalize hq : (List.range m).foldl (f.scanState mask scc) (p, 0) = a at ih
    obtain ⟨q, nf⟩ := a
    simp only at ih
    have hsc : f.scanState mask scc (q, nf) m = scanFinal ((f.trsOf m).foldl (scanTr scc m) (init0 W mask q)).props nf (f.finOf m) (f.trsOf m).length := rfl
    rw [hsc]
    have h1 := foldTr_off mask q scc m (f.trsOf m) (fun h => by
      rw [ih .unweightedCycles (by simp [offBit, wanted, scanBit, PropBit.neg, h])]; exact hc h) hb
    rw [← ih b hb, ← h1]
    have n1 : b ≠ .notString := by rintro rfl; simp [offBit, wanted, scanBit] at hb
    have n2 : b ≠ .isString := by rintro rfl; simp [offBit, wanted, scanBit, PropBit.neg] at hb
    have n3 : b ≠ .weighted := by rintro rfl; simp [offBit, wanted, scanBit] at hb
    have n4 : b ≠ .unweighted := by rintro rfl; simp [offBit, wanted, scanBit, PropBit.neg] at hb
    unfold scanFinal
    cases f.finOf m with
    | none => simp only; rw [flipIf_off _ _ n1 n2, flipIf_off _ _ n1 n2]
    | some w =>
      simp only
      split
      · simp only; rw [flipIf_off _ _ n3 n4, flipIf_off _ _ n1 n2]
      · simp only; rw [flipIf_off _ _ n1 n2, flipIf_off _ _ n1 n2]

/-! ## The flags computed are right -/

omit [DecidableEq W] in
theorem holds_neg (f : Fst W) (b : PropBit) : f.Holds b.neg ↔ ¬ f.Holds b := by
  cases b <;> simp [PropBit.neg, Fst.Holds]

/-- What the scan and the caller need from the graph visit. -/
structure VisitOk (f : Fst W) (v : SccV) : Prop where
  bits : ∀ b, Props.dfsMask b = true → (v.props b = true ↔ f.Holds b)
  scc : ∀ s, ∀ t ∈ f.trsOf s, (v.scc s = v.scc t.nextstate ↔ f.Reach t.nextstate s)

theorem onCycle_true {f : Fst W} {q} : Relation.TransGen (Dfs.KEdge f (fun _ => true)) q q ↔ f.OnCycle q := by
  rw [Scc.kEdge_true]; rfl

theorem visitOk (f : Fst W) (hw : f.WF) (hs : f.start ≠ none ∨ f.numStates = 0) : VisitOk f (f.sccVisit fun _ => true) := by
  cases hi : f.start with
  | none =>
    have hn : f.numStates = 0 := hs.resolve_left (by simp [hi])
    have htr : ∀ s, f.trsOf s = [] := fun s => trsOf_of_ge (by omega)
    have hedge : ∀ a b, ¬ f.Edge a b := by rintro a b ⟨t, ht, -⟩; rw [htr] at ht; cases ht
    have hcyc : ∀ q, ¬ f.OnCycle q := by
      intro q hq
      obtain ⟨b, hab, -⟩ := Relation.TransGen.head'_iff.1 hq
      exact hedge _ _ hab
    have hv : (f.sccVisit fun _ => true).props = SccV.new.props := by
      unfold Fst.sccVisit Dfs.visit; rw [hi]; rfl
    constructor
    · intro b hb
      rw [hv]
      cases b <;> simp [Props.dfsMask, Props.of] at hb <;> simp [SccV.new, Props.of, Fst.Holds, hcyc, hn]
    · intro s t ht; rw [htr] at ht; cases ht
  | some i =>
    have R := Scc.sccVisit_spec hw hi (fun _ => true)
    have hacc : ∀ q, Tarjan.Rch (Dfs.KEdge f fun _ => true) i q ↔ f.Accessible q := by
      intro q
      rw [Scc.rch_true]
      constructor
      · intro h; exact ⟨i, hi, h⟩
      · rintro ⟨j, hj, h⟩; rw [hi] at hj; cases hj; exact h
    have c1 : (f.sccVisit fun _ => true).props .cyclic = true ↔ f.Holds .cyclic := by
      rw [R.cyclic]; exact exists_congr fun q => onCycle_true
    have c2 : (f.sccVisit fun _ => true).props .initialCyclic = true ↔ f.Holds .initialCyclic := by
      rw [R.initialCyclic, onCycle_true]
      simp [Fst.Holds, hi]
    have c3 : (f.sccVisit fun _ => true).props .notAccessible = true ↔ f.Holds .notAccessible := by
      rw [R.notAccessible]; simp [Fst.Holds, hacc]
    have c4 : (f.sccVisit fun _ => true).props .notCoaccessible = true ↔ f.Holds .notCoaccessible := by
      rw [R.notCoaccessible]; simp [Fst.Holds, Scc.coAcc_true]
    have neg : ∀ b, ((f.sccVisit fun _ => true).props b = true ↔ f.Holds b) → ∀ b', b' = b.neg →
        (f.sccVisit fun _ => true).props b' = (!(f.sccVisit fun _ => true).props b) →
        ((f.sccVisit fun _ => true).props b' = true ↔ f.Holds b') := by
      rintro b h b' rfl e
      rw [holds_neg, ← h, e]
      cases (f.sccVisit fun _ => true).props b <;> simp
    constructor
    · intro b hb
      cases b <;> simp [Props.dfsMask, Props.of] at hb
      · exact c1
      · exact neg _ c1 _ rfl (R.bits .acyclic)
      · exact c2
      · exact neg _ c2 _ rfl (R.bits .initialAcyclic)
      · exact neg _ c3 _ rfl (R.bits .accessible)
      · exact c3
      · exact neg _ c4 _ rfl (R.bits .coaccessible)
      · exact c4
    · intro s t ht
      rw [R.same s _ (Scc.trsOf_lt ht) (hw.next_lt s t ht), Scc.rch_true, Scc.rch_true]
      exact ⟨fun h => h.2, fun h => ⟨.single ⟨t, ht, rfl⟩, h⟩⟩

/-- No final weight is zero. -/
def NoZeroFinal (f : Fst W) : Prop := ∀ s, f.finOf s ≠ some 0

omit [Zero W] [One W] [DecidableEq W] in
theorem exists_lt_trs {f : Fst W} (P : StateId → Tr W → Prop) :
    (∃ s, s < f.numStates ∧ ∃ t ∈ f.trsOf s, P s t) ↔ ∃ s, ∃ t ∈ f.trsOf s, P s t := by
  constructor
  · rintro ⟨s, -, h⟩; exact ⟨s, h⟩
  · rintro ⟨s, t, ht, h⟩; exact ⟨s, Scc.trsOf_lt ht, t, ht, h⟩

omit [Zero W] [One W] [DecidableEq W] in
theorem exists_lt_list {f : Fst W} (P : List (Tr W) → Prop) (h0 : P []) :
    (∃ s, s < f.numStates ∧ ¬ P (f.trsOf s)) ↔ ¬ ∀ s, P (f.trsOf s) := by
  rw [not_forall]
  constructor
  · rintro ⟨s, -, h⟩; exact ⟨s, h⟩
  · rintro ⟨s, h⟩
    refine ⟨s, ?_, h⟩
    by_contra hc
    rw [trsOf_of_ge (by omega)] at h
    exact h h0

theorem nzFinal_iff {f : Fst W} (hz : NoZeroFinal f) (s) : NzFinal f s ↔ f.IsFinal s := by
  unfold NzFinal Fst.IsFinal
  cases h : f.finOf s with
  | none => simp
  | some w =>
    have : w ≠ 0 := by rintro rfl; exact hz s h
    simp [this]

/-- The string test. -/
theorem string_iff {f : Fst W} (hw : f.WF) (hz : NoZeroFinal f) (hs : f.start ≠ none ∨ f.numStates = 0) :
    ((∃ s, s < f.numStates ∧ ((∃ t ∈ f.trsOf s, t.nextstate ≠ s + 1) ∨ (∃ s', s' < s ∧ NzFinal f s') ∨
      (¬ NzFinal f s ∧ (f.trsOf s).length ≠ 1))) ∨ ∃ i, f.start = some i ∧ i ≠ 0) ↔ ¬ f.IsLinear := by
  simp only [nzFinal_iff hz]
  constructor
  · rintro (⟨s, hsn, h⟩ | ⟨i, hi, h0⟩) hl
    · obtain ⟨-, hl⟩ := hl (by omega)
      have h1 := hl s hsn
      rcases h with ⟨t, ht, hne⟩ | ⟨s', hs', hf⟩ | ⟨hnf, hlen⟩
      · by_cases he : s + 1 = f.numStates
        · rw [if_pos he] at h1; rw [h1.2] at ht; cases ht
        · rw [if_neg he] at h1
          obtain ⟨-, t', e, e'⟩ := h1
          rw [e, List.mem_singleton] at ht
          exact hne (ht ▸ e')
      · have h2 := hl s' (by omega)
        rw [if_neg (by omega)] at h2
        exact h2.1 hf
      · by_cases he : s + 1 = f.numStates
        · rw [if_pos he] at h1; exact hnf h1.1
        · rw [if_neg he] at h1
          obtain ⟨-, t', e, -⟩ := h1
          rw [e] at hlen; exact hlen rfl
    · have hin := hw.start_lt i hi
      obtain ⟨h', -⟩ := hl (by omega)
      rw [hi] at h'; cases h'; exact h0 rfl
  · intro hnl
    by_contra hc
    rw [not_or] at hc
    obtain ⟨hc1, hc2⟩ := hc
    apply hnl
    intro hn
    have hst : f.start = some 0 := by
      cases hi : f.start with
      | none => rcases hs with h | h
                · exact absurd hi h
                · omega
      | some i =>
        by_cases h0 : i = 0
        · rw [h0]
        · exact absurd ⟨i, hi, h0⟩ hc2
    refine ⟨hst, ?_⟩
    intro s hsn
    have hA : ∀ s, s < f.numStates → ∀ t ∈ f.trsOf s, t.nextstate = s + 1 := by
      intro s hs t ht; by_contra h; exact hc1 ⟨s, hs, .inl ⟨t, ht, h⟩⟩
    have hB : ∀ s, s < f.numStates → ∀ s', s' < s → ¬ f.IsFinal s' := by
      intro s hs s' hs' h; exact hc1 ⟨s, hs, .inr (.inl ⟨s', hs', h⟩)⟩
    have hC : ∀ s, s < f.numStates → ¬ f.IsFinal s → (f.trsOf s).length = 1 := by
      intro s hs h; by_contra h'; exact hc1 ⟨s, hs, .inr (.inr ⟨h, h'⟩)⟩
    by_cases he : s + 1 = f.numStates
    · rw [if_pos he]
      have hnil : f.trsOf s = [] := by
        rw [List.eq_nil_iff_forall_not_mem]
        intro t ht
        have := hw.next_lt s t ht
        have := hA s hsn t ht
        omega
      refine ⟨?_, hnil⟩
      by_contra hnf
      have := hC s hsn hnf
      rw [hnil] at this; cases this
    · rw [if_neg he]
      have hnf := hB (s + 1) (by omega) s (by omega)
      refine ⟨hnf, ?_⟩
      obtain ⟨t, e⟩ := List.length_eq_one_iff.1 (hC s hsn hnf)
      exact ⟨t, e, hA s hsn t (by rw [e]; simp)⟩

/-- The violations collected by the scan are the meanings of the flags. -/
theorem viol_iff {f : Fst W} (hw : f.WF) (hz : NoZeroFinal f) {v : SccV} (hv : VisitOk f v) (b : PropBit)
    (hb : scanBit b = true) (hns : b ≠ .notString) : (∃ s, s < f.numStates ∧ stViol f v.scc s b) ↔ f.Holds b := by
  cases b <;> simp only [scanBit, Bool.false_eq_true] at hb <;> simp only [stViol, listViol, Fst.Holds]
  · rw [exists_lt_trs (fun _ t => t.ilabel ≠ t.olabel)]; simp
  · exact exists_lt_list (fun l => (l.map (·.ilabel)).Nodup) (by simp)
  · exact exists_lt_list (fun l => (l.map (·.olabel)).Nodup) (by simp)
  · rw [exists_lt_trs (fun _ t => t.ilabel = 0 ∧ t.olabel = 0)]
  · rw [exists_lt_trs (fun _ t => t.ilabel = 0)]
  · rw [exists_lt_trs (fun _ t => t.olabel = 0)]
  · exact exists_lt_list (fun l => (l.map (·.ilabel)).Pairwise (· ≤ ·)) (by simp)
  · exact exists_lt_list (fun l => (l.map (·.olabel)).Pairwise (· ≤ ·)) (by simp)
  · constructor
    · rintro ⟨s, hs, ⟨t, ht, h1, h2⟩ | ⟨w, hf, h1, h2⟩⟩ hu
      · rcases hu.1 s t ht with h | h
        · exact h2 h
        · exact h1 h
      · rcases hu.2 s w hf with h | h
        · exact h1 h
        · exact h2 h
    · intro hu
      by_contra hc
      apply hu
      constructor
      · intro s t ht
        by_contra h
        unfold Fst.TrivialW at h
        rw [not_or] at h
        exact hc ⟨s, Scc.trsOf_lt ht, .inl ⟨t, ht, h.2, h.1⟩⟩
      · intro s w hf
        by_contra h
        unfold Fst.TrivialW at h
        rw [not_or] at h
        refine hc ⟨s, ?_, .inr ⟨w, hf, h.1, h.2⟩⟩
        by_contra hlt
        rw [finOf_of_ge (by omega)] at hf; cases hf
  · rw [exists_lt_trs (fun s t => t.nextstate ≤ s)]; simp
  · exact absurd rfl hns
  · rw [exists_lt_trs (fun s t => (t.weight ≠ 1 ∧ t.weight ≠ 0) ∧ v.scc s = v.scc t.nextstate)]
    unfold Fst.HasWeightedCycle Fst.TrivialW
    refine exists_congr fun s => exists_congr fun t => and_congr_right fun ht => ?_
    rw [hv.scc s t ht]
    tauto

/-- The scan reports every wanted pair correctly and leaves the other flags alone. -/
theorem scan_spec {f : Fst W} (hw : f.WF) (hz : NoZeroFinal f) (hs : f.start ≠ none ∨ f.numStates = 0) {v : SccV} (hv : VisitOk f v)
    (mask p : Props) (hp : ∀ b, Props.dfsMask b = false → p b = false) :
    (∀ b, wanted mask b = true → Tracks (f.scan mask v.scc p) b (f.Holds b)) ∧
    ∀ b, offBit mask b = true → f.scan mask v.scc p b = p b := by
  have hinit : ∀ b, wanted mask b = true → Tracks (p.scanInit mask) b False := by
    intro b hb
    have h1 : p b = false := hp b (by cases b <;> first | rfl | (simp [wanted, scanBit] at hb))
    have h2 : p b.neg = false := hp _ (by cases b <;> first | rfl | (simp [wanted, scanBit] at hb))
    unfold Tracks Props.scanInit
    cases b <;> simp only [wanted, scanBit, Bool.false_eq_true] at hb <;> simp only [PropBit.neg] at h2 ⊢ <;>
      (repeat' split) <;> simp_all [Props.of]
  have hoff : ∀ b, offBit mask b = true → p.scanInit mask b = p b := by
    intro b hb
    unfold offBit at hb
    unfold Props.scanInit
    cases b <;> simp only [wanted, scanBit, PropBit.neg, Bool.not_false, Bool.not_true, Bool.and_true, Bool.and_false, Bool.true_and,
      Bool.false_and, Bool.false_eq_true, Bool.not_eq_true'] at hb <;>
      (repeat' split) <;> simp_all [Props.of]
  have hc : mask.intersects (Props.cycleMask.or Props.dfsMask) = false → p.scanInit mask .unweightedCycles = false := by
    intro h
    rw [hoff .unweightedCycles (by simp [offBit, wanted, scanBit, PropBit.neg, h])]
    exact hp _ rfl
  have hF := (foldSt f mask (p.scanInit mask) v.scc f.numStates).2
  have hO := foldSt_off f mask (p.scanInit mask) v.scc f.numStates hc
  unfold Fst.scan
  simp only
  generalize ((List.range f.numStates).foldl (f.scanState mask v.scc) (p.scanInit mask, 0)).1 = r at hF hO
  constructor
  · intro b hb
    have hsb : scanBit b = true := by
      cases b <;> first | rfl | (simp [wanted, scanBit] at hb)
    have h := hF b hb _ (hinit b hb)
    by_cases hstr : b = .notString
    · subst hstr
      have key := string_iff hw hz hs
      cases hi : f.start with
      | none =>
        refine h.congr ?_
        rw [hi] at key
        simp only [reduceCtorEq, false_and, exists_false, or_false] at key
        rw [false_or]
        exact key
      | some i =>
        refine (h.flip (decide (i ≠ 0)) (by decide)).congr ?_
        rw [hi] at key
        simp only [Option.some.injEq, exists_eq_left'] at key
        rw [decide_eq_true_eq, false_or]
        exact key
    · have h' := h.congr (V' := f.Holds b) (by rw [false_or]; exact viol_iff hw hz hv b hsb hstr)
      cases hi : f.start with
      | none => exact h'
      | some i =>
        refine h'.frame (decide (i ≠ 0)) hstr ?_ ?_ ?_
        · rintro rfl; simp [scanBit] at hsb
        · cases b <;> simp [PropBit.neg, scanBit] at hsb ⊢
        · cases b <;> simp [PropBit.neg, scanBit] at hsb hstr ⊢
  · intro b hb
    have h := (hO b hb).trans (hoff b hb)
    cases hi : f.start with
    | none => exact h
    | some i =>
      simp only
      rw [flipIf_off, h]
      · rintro rfl; simp [offBit, wanted, scanBit] at hb
      · rintro rfl; simp [offBit, wanted, scanBit, PropBit.neg] at hb

end Scan
end Verif
