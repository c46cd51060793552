import Verif.Model.Reachable
import Verif.Lemmas.Top
import Verif.Props.C44

/-!
# The interval visitor
-/

namespace Verif
universe u
variable {W : Type u} [Zero W] [One W] [DecidableEq W]

/-- `normalize` with as much fuel as there are intervals. -/
theorem normalize_length (s : IntervalSet) (hs : ∀ i ∈ s.intervals, i.first < i.last) :
    ∃ s', s.normalize s.intervals.length = some (.ok s') ∧ s'.Normalized ∧ ∀ v, s'.Mem v ↔ s.Mem v := by
  obtain ⟨l, hl⟩ : ∃ l, l = s.intervals.mergeSort fun a b => !b.lt a := ⟨_, rfl⟩
  have hperm : l.Perm s.intervals := by rw [hl]; exact List.mergeSort_perm _ _
  have hpw : l.Pairwise fun a b => a.first ≤ b.first := by
    have := List.pairwise_mergeSort (le := fun a b : IntInterval => !b.lt a) (fun a b c => lt_trans_interval)
      (fun a b => by simpa using lt_total_interval a b) s.intervals
    rw [← hl] at this
    refine this.imp fun {a b} h => ?_
    simp only [IntInterval.lt, Bool.not_eq_true', Bool.or_eq_false_iff, Bool.and_eq_false_iff, decide_eq_false_iff_not] at h
    omega
  have hmem : ∀ v, MemL l v ↔ s.Mem v := fun v => by simp only [MemL, IntervalSet.Mem, hperm.mem_iff]
  obtain ⟨s', h1, h2, h3, -⟩ := normLoop_spec s.intervals.length l (le_of_eq hperm.length_eq) [] 0 (fun y hy => hs y (hperm.mem_iff.1 hy)) hpw
    ⟨fun i hi => (nomatch hi), List.Pairwise.nil⟩ (fun a ha => (nomatch ha))
    (by
      have : {v | MemL [] v} = ∅ := Set.eq_empty_of_forall_notMem fun v ⟨i, hi, _⟩ => by cases hi
      rw [this, Set.ncard_empty])
  refine ⟨s', by unfold IntervalSet.normalize; rw [← hl]; exact h1, h2, fun v => by rw [h3, List.nil_append, hmem]⟩

namespace ReachV
open Dfs

/-- All transitions are followed. -/
abbrev keepAll : Tr W → Bool := fun _ => true

variable {f : Fst W} {c : Nat → Color} {k : List (StateId × List (Tr W))}

/-- The interval of a final state that is not finished. -/
def own (f : Fst W) (v : ReachV) (q : StateId) : List IntInterval :=
  if hasFinal f q then [⟨v.state2index q, v.state2index q + 1⟩] else []

/-- Invariant of the visit. -/
structure RInv (f : Fst W) (c : Nat → Color) (k : List (StateId × List (Tr W))) (v : ReachV) : Prop where
  good : ∃ fin, Top.Good f keepAll c k fin
  ok : v.failed = false
  white : ∀ q, c q = .white → (v.isets q).intervals = []
  len : ∀ q, c q ≠ .white → q < v.nIsets ∧ q < v.nIndex
  len_le : v.nIsets ≤ f.numStates ∧ v.nIndex ≤ f.numStates
  pos : 1 ≤ v.index
  range : ∀ q, c q ≠ .white → hasFinal f q = true → 1 ≤ v.state2index q ∧ v.state2index q < v.index
  surj : ∀ n, 1 ≤ n → n < v.index → ∃ q, c q ≠ .white ∧ hasFinal f q = true ∧ v.state2index q = n
  inj : ∀ q r, c q ≠ .white → c r ≠ .white → hasFinal f q = true → hasFinal f r = true → v.state2index q = v.state2index r → q = r
  unassigned : ∀ q, (c q = .white ∨ hasFinal f q = false) → v.state2index q = UNASSIGNED
  black : ∀ q, c q = .black → (v.isets q).Normalized ∧ ∀ n, (v.isets q).Mem n ↔ ∃ x, hasFinal f x = true ∧
    Relation.ReflTransGen (KEdge f keepAll) q x ∧ v.state2index x = n
  grey : ∀ q, c q = .grey → ∃ rest, (v.isets q).intervals = own f v q ++ rest ∧ (∀ i ∈ rest, i.first < i.last) ∧
    ∀ n, MemL rest n ↔ ∃ b, Ex f keepAll c k q b ∧ (v.isets b).Mem n
  later : ∀ q, c q = .grey → hasFinal f q = true → ∀ x, c x ≠ .white → hasFinal f x = true → v.state2index q ≤ v.state2index x →
    Relation.ReflTransGen (KEdge f keepAll) q x

theorem RInv.start : RInv f (fun _ => .white) [] ReachV.new where
  good := ⟨[], ⟨.start, by simp, by simp, fun a b h => absurd h (Ex.start a b), by simp, by simp⟩⟩
  ok := rfl
  white := fun _ _ => rfl
  len := fun q hq => absurd rfl hq
  len_le := ⟨Nat.zero_le _, Nat.zero_le _⟩
  pos := le_refl _
  range := fun q hq => absurd rfl hq
  surj := fun n h1 h2 => by simp only [ReachV.new] at h2; omega
  inj := fun q r hq => absurd rfl hq
  unassigned := fun _ _ => rfl
  black := fun q hq => by cases hq
  grey := fun q hq => by cases hq
  later := fun q hq => by cases hq

/-- What is reachable from a black state is black. -/
theorem black_closed {fin : List StateId} (h : Top.Good f keepAll c k fin) {q x : StateId} (hq : c q = .black)
    (hx : Relation.ReflTransGen (KEdge f keepAll) q x) : c x = .black := by
  induction hx with
  | refl => exact hq
  | tail _ he ih =>
    obtain ⟨t, ht, hk, rfl⟩ := he
    exact h.passed _ _ ⟨t, ⟨ht, .inl ih⟩, hk, rfl⟩

/-- A state that has passed transitions is discovered. -/
theorem ex_not_white (h : CInv f keepAll c k) {a b : StateId} (he : Ex f keepAll c k a b) : c a ≠ .white := by
  obtain ⟨t, ⟨-, h' | ⟨pre, rest, hm, -⟩⟩, -⟩ := he
  · rw [h']; simp
  · rw [(h.grey a).2 (List.mem_map_of_mem (f := Prod.fst) hm)]; simp

theorem RInv.push {v : ReachV} (h : RInv f c k v) {s : StateId} (hs : c s = .white) (hn : s < f.numStates)
    (hc : ∀ e ∈ k.head?, ∃ t rest, e.2 = t :: rest ∧ keepAll t = true ∧ t.nextstate = s) :
    RInv f (upd c s .grey) ((s, f.trsOf s) :: k) (initState f v s) := by
  obtain ⟨fin, hg⟩ := h.good
  have hg' := hg.push hs hn hc
  have hcol : ∀ q, q ≠ s → upd c s .grey q = c q := fun q hq => by simp [upd, hq]
  have hcs : upd c s .grey s = .grey := by simp [upd]
  have hexw : ∀ b, ¬ Ex f keepAll c k s b := fun b hb => ex_not_white hg.col hb hs
  have hexb : ∀ a b, Ex f keepAll c k a b → b ≠ s := fun a b hb e => by
    have := hg.passed a b hb
    rw [e, hs] at this; cases this
  by_cases hf : hasFinal f s = true
  · have e : initState f v s = ⟨upd v.isets s ((v.isets s).push ⟨v.index, v.index + 1⟩), max v.nIsets (s + 1),
        upd v.state2index s v.index, max v.nIndex (s + 1), v.index + 1, v.failed⟩ := by
      unfold initState; simp only [hf, if_true]
    rw [e]
    have hidx : ∀ q, c q ≠ .white → upd v.state2index s v.index q = v.state2index q := fun q hq => by
      have : q ≠ s := fun e => hq (e ▸ hs)
      simp [upd, this]
    have hset : ∀ q, q ≠ s → upd v.isets s ((v.isets s).push ⟨v.index, v.index + 1⟩) q = v.isets q := fun q hq => by simp [upd, hq]
    refine ⟨⟨fin, hg'⟩, h.ok, ?_, ?_, ?_, ?_, ?_, ?_, ?_, ?_, ?_, ?_, ?_⟩
    · intro q hq
      have : q ≠ s := fun e => by rw [e, hcs] at hq; cases hq
      rw [hcol q this] at hq
      show (upd v.isets s _ q).intervals = []
      rw [hset q this]; exact h.white q hq
    · intro q hq
      by_cases hqs : q = s
      · subst hqs; exact ⟨by simp only; omega, by simp only; omega⟩
      · rw [hcol q hqs] at hq
        have := h.len q hq
        exact ⟨by simp only; omega, by simp only; omega⟩
    · have := h.len_le
      exact ⟨by simp only; omega, by simp only; omega⟩
    · have := h.pos; simp only; omega
    · intro q hq hfq
      simp only
      by_cases hqs : q = s
      · subst hqs; have := h.pos; simp only [upd, if_true]; omega
      · rw [hcol q hqs] at hq
        rw [hidx q hq]; have := h.range q hq hfq; omega
    · intro n h1 h2
      simp only at h2
      by_cases hn : n = v.index
      · exact ⟨s, by rw [hcs]; simp, hf, by simp [upd, hn]⟩
      · obtain ⟨q, hq, h3, h4⟩ := h.surj n h1 (by omega)
        have hqs : q ≠ s := fun e => hq (e ▸ hs)
        exact ⟨q, by rw [hcol q hqs]; exact hq, h3, by simp only; rw [hidx q hq]; exact h4⟩
    · intro q r hq hr hfq hfr he
      simp only at he
      by_cases hqs : q = s
      · by_cases hrs : r = s
        · rw [hqs, hrs]
        · rw [hcol r hrs] at hr
          rw [hidx r hr, hqs] at he
          have := h.range r hr hfr
          simp only [upd, if_true] at he; omega
      · rw [hcol q hqs] at hq
        rw [hidx q hq] at he
        by_cases hrs : r = s
        · have := h.range q hq hfq
          rw [hrs] at he; simp only [upd, if_true] at he; omega
        · rw [hcol r hrs] at hr
          rw [hidx r hr] at he
          exact h.inj q r hq hr hfq hfr he
    · intro q hq
      have hqs : q ≠ s := by
        rintro rfl
        rcases hq with hq | hq
        · rw [hcs] at hq; cases hq
        · rw [hf] at hq; cases hq
      rw [hcol q hqs] at hq
      show upd v.state2index s v.index q = _
      rw [show upd v.state2index s v.index q = v.state2index q by simp [upd, hqs]]
      exact h.unassigned q hq
    · intro q hq
      have hqs : q ≠ s := fun e => by rw [e, hcs] at hq; cases hq
      rw [hcol q hqs] at hq
      obtain ⟨h1, h2⟩ := h.black q hq
      simp only
      rw [hset q hqs]
      refine ⟨h1, fun n => (h2 n).trans (exists_congr fun x => and_congr_right fun _ => and_congr_right fun hr => ?_)⟩
      rw [hidx x (by rw [black_closed hg hq hr]; simp)]
    · intro q hq
      simp only
      by_cases hqs : q = s
      · subst hqs
        refine ⟨[], ?_, by simp, ?_⟩
        · simp only [upd, if_true, IntervalSet.push, h.white q hs, own, hf]; rfl
        · intro n
          constructor
          · rintro ⟨i, hi, -⟩; cases hi
          · rintro ⟨b, hb, -⟩
            rw [Ex.push hg.col hs] at hb
            exact absurd hb (hexw b)
      · rw [hcol q hqs] at hq
        obtain ⟨rest, h1, h2, h3⟩ := h.grey q hq
        refine ⟨rest, ?_, h2, ?_⟩
        · rw [hset q hqs, h1]
          simp only [own]
          rw [hidx q (by rw [hq]; simp)]
        · intro n
          rw [h3]
          refine exists_congr fun b => ?_
          rw [Ex.push hg.col hs]
          exact and_congr_right fun hb => by rw [hset b (hexb q b hb)]
    · intro q hq hfq x hx hfx hle
      simp only at hle
      have hreach : ∀ q, upd c s .grey q = .grey → Relation.ReflTransGen (KEdge f keepAll) q s := fun q hq =>
        Top.stack_reach hg'.col q ((hg'.col.grey q).1 hq)
      by_cases hxs : x = s
      · rw [hxs]; exact hreach q hq
      · rw [hcol x hxs] at hx
        rw [hidx x hx] at hle
        by_cases hqs : q = s
        · have := h.range x hx hfx
          rw [hqs] at hle; simp only [upd, if_true] at hle; omega
        · rw [hcol q hqs] at hq
          rw [hidx q (by rw [hq]; simp)] at hle
          exact h.later q hq hfq x hx hfx hle
  · have e : initState f v s = { v with nIsets := max v.nIsets (s + 1), nIndex := max v.nIndex (s + 1) } := by
      unfold initState; simp only [hf, if_false]; rfl
    rw [e]
    have hnw : ∀ q, upd c s .grey q ≠ .white → hasFinal f q = true → c q ≠ .white := by
      intro q hq hfq
      have hqs : q ≠ s := fun e => hf (e ▸ hfq)
      rwa [hcol q hqs] at hq
    refine ⟨⟨fin, hg'⟩, h.ok, ?_, ?_, ?_, h.pos, ?_, ?_, ?_, ?_, ?_, ?_, ?_⟩
    · intro q hq
      have : q ≠ s := fun e => by rw [e, hcs] at hq; cases hq
      rw [hcol q this] at hq
      exact h.white q hq
    · intro q hq
      by_cases hqs : q = s
      · subst hqs; exact ⟨by simp only; omega, by simp only; omega⟩
      · rw [hcol q hqs] at hq
        have := h.len q hq
        exact ⟨by simp only; omega, by simp only; omega⟩
    · have := h.len_le
      exact ⟨by simp only; omega, by simp only; omega⟩
    · intro q hq hfq; exact h.range q (hnw q hq hfq) hfq
    · intro n h1 h2
      obtain ⟨q, hq, h3, h4⟩ := h.surj n h1 h2
      have hqs : q ≠ s := fun e => hq (e ▸ hs)
      exact ⟨q, by rw [hcol q hqs]; exact hq, h3, h4⟩
    · intro q r hq hr hfq hfr he
      exact h.inj q r (hnw q hq hfq) (hnw r hr hfr) hfq hfr he
    · intro q hq
      by_cases hqs : q = s
      · exact h.unassigned q (.inl (hqs ▸ hs))
      · rw [hcol q hqs] at hq; exact h.unassigned q hq
    · intro q hq
      have hqs : q ≠ s := fun e => by rw [e, hcs] at hq; cases hq
      rw [hcol q hqs] at hq
      exact h.black q hq
    · intro q hq
      by_cases hqs : q = s
      · subst hqs
        refine ⟨[], ?_, by simp, ?_⟩
        · simp only [h.white q hs, own, hf]; rfl
        · intro n
          constructor
          · rintro ⟨i, hi, -⟩; cases hi
          · rintro ⟨b, hb, -⟩
            rw [Ex.push hg.col hs] at hb
            exact absurd hb (hexw b)
      · rw [hcol q hqs] at hq
        obtain ⟨rest, h1, h2, h3⟩ := h.grey q hq
        refine ⟨rest, h1, h2, fun n => ?_⟩
        rw [h3]
        refine exists_congr fun b => ?_
        rw [Ex.push hg.col hs]
    · intro q hq hfq x hx hfx hle
      have hqs : q ≠ s := fun e => hf (e ▸ hfq)
      rw [hcol q hqs] at hq
      exact h.later q hq hfq x (hnw x hx hfx) hfx hle

/-- Only the set of `s` changes, and `s` is not black. -/
theorem RInv.advance {v : ReachV} {s : StateId} {t : Tr W} {rest : List (Tr W)} (h : RInv f c ((s, t :: rest) :: k) v)
    (hc : c t.nextstate = .black) : RInv f c ((s, rest) :: k) (unionSets v s t.nextstate) := by
  obtain ⟨fin, hg⟩ := h.good
  have hsg : c s = .grey := by rw [hg.col.grey]; simp
  have hne : s ≠ t.nextstate := fun e => by rw [← e, hsg] at hc; cases hc
  have e : unionSets v s t.nextstate = { v with isets := upd v.isets s ((v.isets s).union (v.isets t.nextstate)) } := by
    unfold unionSets; rw [if_neg hne]
  rw [e]
  have hset : ∀ q, q ≠ s → upd v.isets s ((v.isets s).union (v.isets t.nextstate)) q = v.isets q := fun q hq => by simp [upd, hq]
  refine ⟨⟨fin, hg.advance fun _ => hc⟩, h.ok, ?_, h.len, h.len_le, h.pos, h.range, h.surj, h.inj, h.unassigned, ?_, ?_, h.later⟩
  · intro q hq
    have : q ≠ s := fun e => by rw [e, hsg] at hq; cases hq
    simp only; rw [hset q this]; exact h.white q hq
  · intro q hq
    have : q ≠ s := fun e => by rw [e, hsg] at hq; cases hq
    simp only; rw [hset q this]; exact h.black q hq
  · intro q hq
    have hb : ∀ b, Ex f keepAll c ((s, t :: rest) :: k) q b → b ≠ s := fun b hb e => by
      have := hg.passed q b hb
      rw [e, hsg] at this; cases this
    obtain ⟨r, h1, h2, h3⟩ := h.grey q hq
    by_cases hqs : q = s
    · subst hqs
      obtain ⟨hb1, hb2⟩ := h.black _ hc
      refine ⟨r ++ (v.isets t.nextstate).intervals, ?_, ?_, ?_⟩
      · simp only [upd, if_true, IntervalSet.union, h1, List.append_assoc]; rfl
      · intro i hi
        rcases List.mem_append.1 hi with hi | hi
        · exact h2 i hi
        · exact hb1.1 i hi
      · intro n
        rw [memL_append, h3]
        constructor
        · rintro (⟨b, hb', hm⟩ | hm)
          · exact ⟨b, (Ex.advance hg.col _ _).2 (.inl hb'), by simp only; rw [hset b (hb b hb')]; exact hm⟩
          · exact ⟨t.nextstate, (Ex.advance hg.col _ _).2 (.inr ⟨rfl, rfl, rfl⟩), by simp only; rw [hset _ (Ne.symm hne)]; exact hm⟩
        · rintro ⟨b, hb', hm⟩
          rcases (Ex.advance hg.col _ _).1 hb' with hb' | ⟨-, -, rfl⟩
          · left; refine ⟨b, hb', ?_⟩
            simp only at hm; rwa [hset b (hb b hb')] at hm
          · right; simp only at hm; rwa [hset _ (Ne.symm hne)] at hm
    · refine ⟨r, ?_, h2, ?_⟩
      · simp only; rw [hset q hqs]; exact h1
      · intro n
        rw [h3]
        constructor
        · rintro ⟨b, hb', hm⟩
          exact ⟨b, (Ex.advance hg.col _ _).2 (.inl hb'), by simp only; rw [hset b (hb b hb')]; exact hm⟩
        · rintro ⟨b, hb', hm⟩
          rcases (Ex.advance hg.col _ _).1 hb' with hb' | ⟨e, -, rfl⟩
          · refine ⟨b, hb', ?_⟩
            simp only at hm; rwa [hset b (hb b hb')] at hm
          · exact absurd e hqs

/-- The set of a state that is finished. -/
theorem RInv.finishOwn {v : ReachV} {s : StateId} (h : RInv f c ((s, []) :: k) v) : ∃ t : IntervalSet,
    ReachV.finishOwn f v s = { v with isets := upd v.isets s t } ∧ t.Normalized ∧ ∀ n, t.Mem n ↔ ∃ x, hasFinal f x = true ∧
      Relation.ReflTransGen (KEdge f keepAll) s x ∧ v.state2index x = n := by
  obtain ⟨fin, hg⟩ := h.good
  have hsg : c s = .grey := by rw [hg.col.grey]; simp
  have hall : ∀ w, KEdge f keepAll s w → Ex f keepAll c ((s, []) :: k) s w := by
    rintro w ⟨t, ht, hk, rfl⟩
    obtain ⟨pre, e, -⟩ := hg.col.pre (s, []) (by simp)
    simp only [List.append_nil] at e
    exact ⟨t, ⟨ht, .inr ⟨pre, [], by simp, by simpa using e, by rw [← e]; exact ht⟩⟩, hk, rfl⟩
  have hedge : ∀ b, Ex f keepAll c ((s, []) :: k) s b → KEdge f keepAll s b := by
    rintro b ⟨t, ⟨ht, -⟩, hk, rfl⟩; exact ⟨t, ht, hk, rfl⟩
  obtain ⟨rest, h1, h2, h3⟩ := h.grey s hsg
  have hrest : ∀ n, MemL rest n ↔ ∃ x, hasFinal f x = true ∧ Relation.TransGen (KEdge f keepAll) s x ∧ v.state2index x = n := by
    intro n
    rw [h3]
    constructor
    · rintro ⟨b, hb, hm⟩
      obtain ⟨x, hx1, hx2, hx3⟩ := ((h.black b (hg.passed s b hb)).2 n).1 hm
      exact ⟨x, hx1, Relation.TransGen.head' (hedge b hb) hx2, hx3⟩
    · rintro ⟨x, hx1, hx2, hx3⟩
      obtain ⟨b, hb, hx2⟩ := Relation.TransGen.head'_iff.1 hx2
      exact ⟨b, hall b hb, ((h.black b (hg.passed s b (hall b hb))).2 n).2 ⟨x, hx1, hx2, hx3⟩⟩
  obtain ⟨o, ho⟩ : ∃ o, o = (if hasFinal f s then closeFirst (v.isets s) v.index else v.isets s) := ⟨_, rfl⟩
  have hmem : (∀ i ∈ o.intervals, i.first < i.last) ∧ ∀ n, o.Mem n ↔ ∃ x, hasFinal f x = true ∧
      Relation.ReflTransGen (KEdge f keepAll) s x ∧ v.state2index x = n := by
    by_cases hf : hasFinal f s = true
    · have hr := h.range s (by rw [hsg]; simp) hf
      have e : o.intervals = ⟨v.state2index s, v.index⟩ :: rest := by
        rw [ho, if_pos hf]
        have : (v.isets s).intervals = ⟨v.state2index s, v.state2index s + 1⟩ :: rest := by
          rw [h1]; simp only [own, hf, if_true]; rfl
        unfold closeFirst; rw [this]
      refine ⟨fun i hi => ?_, fun n => ?_⟩
      · rw [e, List.mem_cons] at hi
        rcases hi with rfl | hi
        · exact hr.2
        · exact h2 i hi
      · show MemL o.intervals n ↔ _
        rw [e, memL_cons, hrest]
        simp only
        constructor
        · rintro (⟨ha, hb⟩ | ⟨x, hx1, hx2, hx3⟩)
          · obtain ⟨x, hx1, hx2, hx3⟩ := h.surj n (by omega) hb
            exact ⟨x, hx2, h.later s hsg hf x hx1 hx2 (by omega), hx3⟩
          · exact ⟨x, hx1, hx2.to_reflTransGen, hx3⟩
        · rintro ⟨x, hx1, hx2, hx3⟩
          rcases Relation.reflTransGen_iff_eq_or_transGen.1 hx2 with rfl | hx2
          · left; omega
          · exact .inr ⟨x, hx1, hx2, hx3⟩
    · have e : o.intervals = rest := by
        rw [ho, if_neg hf, h1]; simp only [own, hf]; rfl
      refine ⟨fun i hi => h2 i (e ▸ hi), fun n => ?_⟩
      show MemL o.intervals n ↔ _
      rw [e, hrest]
      constructor
      · rintro ⟨x, hx1, hx2, hx3⟩; exact ⟨x, hx1, hx2.to_reflTransGen, hx3⟩
      · rintro ⟨x, hx1, hx2, hx3⟩
        rcases Relation.reflTransGen_iff_eq_or_transGen.1 hx2 with rfl | hx2
        · exact absurd hx1 hf
        · exact ⟨x, hx1, hx2, hx3⟩
  obtain ⟨t, ht1, ht2, ht3⟩ := normalize_length o hmem.1
  refine ⟨t, ?_, ht2, fun n => (ht3 n).trans (hmem.2 n)⟩
  unfold ReachV.finishOwn
  simp only
  rw [← ho, ht1]

theorem RInv.finish {v : ReachV} {s : StateId} (h : RInv f c ((s, []) :: k) v) :
    RInv f (upd c s .black) (popStack k) (finishState f v s (k.head?.map Prod.fst)) := by
  obtain ⟨t, ht1, ht2, ht3⟩ := h.finishOwn
  obtain ⟨fin, hg⟩ := h.good
  have hsg : c s = .grey := by rw [hg.col.grey]; simp
  have hnw : ∀ q, upd c s .black q ≠ .white ↔ c q ≠ .white := by
    intro q; simp only [upd]; split
    · next e => subst e; simp [hsg]
    · rfl
  have hgrey : ∀ q, upd c s .black q = .grey → c q = .grey ∧ q ≠ s := by
    intro q hq; simp only [upd] at hq; split at hq
    · cases hq
    · exact ⟨hq, by assumption⟩
  have hexb : ∀ q b, Ex f keepAll c ((s, []) :: k) q b → b ≠ s := fun q b hb e => by
    have := hg.passed q b hb
    rw [e, hsg] at this; cases this
  -- the common part
  have common : ∀ w : ReachV, w.failed = false → w.nIsets = v.nIsets → w.nIndex = v.nIndex → w.state2index = v.state2index →
      w.index = v.index → (w.isets s = t) → (∀ q, q ≠ s → c q ≠ .grey → w.isets q = v.isets q) →
      (∀ q, c q = .grey → q ≠ s → ∃ rest, (w.isets q).intervals = own f v q ++ rest ∧ (∀ i ∈ rest, i.first < i.last) ∧
        ∀ n, MemL rest n ↔ ∃ b, Ex f keepAll (upd c s .black) (popStack k) q b ∧ (w.isets b).Mem n) →
      RInv f (upd c s .black) (popStack k) w := by
    intro w w1 w2 w3 w4 w5 w6 w7 w8
    refine ⟨⟨_, hg.finish⟩, w1, ?_, ?_, ?_, ?_, ?_, ?_, ?_, ?_, ?_, ?_, ?_⟩
    · intro q hq
      have hqs : q ≠ s := fun e => by simp [upd, e] at hq
      have hcq : c q = .white := by simpa [upd, hqs] using hq
      rw [w7 q hqs (by rw [hcq]; simp)]; exact h.white q hcq
    · intro q hq; rw [w2, w3]; exact h.len q ((hnw q).1 hq)
    · rw [w2, w3]; exact h.len_le
    · rw [w5]; exact h.pos
    · intro q hq hf; rw [w4, w5]; exact h.range q ((hnw q).1 hq) hf
    · intro n h1 h2
      obtain ⟨q, hq, h3, h4⟩ := h.surj n h1 (w5 ▸ h2)
      exact ⟨q, (hnw q).2 hq, h3, w4 ▸ h4⟩
    · intro q r hq hr hfq hfr he
      rw [w4] at he
      exact h.inj q r ((hnw q).1 hq) ((hnw r).1 hr) hfq hfr he
    · intro q hq
      rw [w4]
      refine h.unassigned q (hq.imp_left fun hq => ?_)
      by_contra hc
      exact (hnw q).2 hc hq
    · intro q hq
      rw [w4]
      by_cases hqs : q = s
      · subst hqs; rw [w6]; exact ⟨ht2, ht3⟩
      · have hcq : c q = .black := by simpa [upd, hqs] using hq
        rw [w7 q hqs (by rw [hcq]; simp)]
        exact h.black q hcq
    · intro q hq
      obtain ⟨hq, hqs⟩ := hgrey q hq
      have : own f w q = own f v q := by unfold own; rw [w4]
      rw [this]
      exact w8 q hq hqs
    · intro q hq hfq x hx hfx hle
      obtain ⟨hq, hqs⟩ := hgrey q hq
      rw [w4] at hle
      exact h.later q hq hfq x ((hnw x).1 hx) hfx hle
  cases k with
  | nil =>
    have hgr : ∀ q, c q = .grey → q = s := by
      intro q hq
      rw [hg.col.grey] at hq; simpa using hq
    simp only [List.head?_nil, Option.map_none, finishState, ht1]
    refine common _ h.ok rfl rfl rfl rfl (by simp [upd]) (fun q hq _ => by simp [upd, hq]) (fun q hq hqs => absurd (hgr q hq) hqs)
  | cons p k =>
    obtain ⟨p, prest⟩ := p
    have hpg : c p = .grey := by rw [hg.col.grey]; simp
    have hps : p ≠ s := by
      have := hg.col.nodup
      simp only [List.map_cons, List.nodup_cons, List.mem_cons, not_or] at this
      exact Ne.symm this.1.1
    have e : finishState f v s (some p) = { v with isets := upd (upd v.isets s t) p ((v.isets p).union t) } := by
      simp only [finishState, ht1, unionSets]
      rw [if_neg hps]
      simp [upd, hps]
    simp only [List.head?_cons, Option.map_some]
    rw [e]
    have hset : ∀ q, q ≠ s → q ≠ p → upd (upd v.isets s t) p ((v.isets p).union t) q = v.isets q := fun q h1 h2 => by simp [upd, h1, h2]
    have hsets : upd (upd v.isets s t) p ((v.isets p).union t) s = t := by simp [upd, Ne.symm hps]
    have hsetp : upd (upd v.isets s t) p ((v.isets p).union t) p = (v.isets p).union t := by simp [upd]
    have hexp : ∀ q b, Ex f keepAll c ((s, []) :: (p, prest) :: k) q b → b ≠ p := fun q b hb e => by
      have := hg.passed q b hb
      rw [e, hpg] at this; cases this
    refine common _ h.ok rfl rfl rfl rfl hsets (fun q hq hq' => hset q hq fun e => hq' (e ▸ hpg)) ?_
    intro q hq hqs
    obtain ⟨r, h1, h2, h3⟩ := h.grey q hq
    simp only
    by_cases hqp : q = p
    · subst hqp
      refine ⟨r ++ t.intervals, ?_, ?_, ?_⟩
      · rw [hsetp]; simp only [IntervalSet.union, h1, List.append_assoc]
      · intro i hi
        rcases List.mem_append.1 hi with hi | hi
        · exact h2 i hi
        · exact ht2.1 i hi
      · intro n
        rw [memL_append, h3]
        constructor
        · rintro (⟨b, hb, hm⟩ | hm)
          · exact ⟨b, (Ex.finish hg.col _ _).2 (.inl hb), by rw [hset b (hexb _ _ hb) (hexp _ _ hb)]; exact hm⟩
          · exact ⟨s, (Ex.finish hg.col _ _).2 (.inr ⟨rfl, rfl⟩), by rw [hsets]; exact hm⟩
        · rintro ⟨b, hb, hm⟩
          rcases (Ex.finish hg.col _ _).1 hb with hb | ⟨-, rfl⟩
          · left; exact ⟨b, hb, by rwa [hset b (hexb _ _ hb) (hexp _ _ hb)] at hm⟩
          · right; rwa [hsets] at hm
    · refine ⟨r, by rw [hset q hqs hqp]; exact h1, h2, fun n => ?_⟩
      rw [h3]
      constructor
      · rintro ⟨b, hb, hm⟩
        exact ⟨b, (Ex.finish hg.col _ _).2 (.inl hb), by rw [hset b (hexb _ _ hb) (hexp _ _ hb)]; exact hm⟩
      · rintro ⟨b, hb, hm⟩
        rcases (Ex.finish hg.col _ _).1 hb with hb | ⟨e, -⟩
        · exact ⟨b, hb, by rwa [hset b (hexb _ _ hb) (hexp _ _ hb)] at hm⟩
        · simp at e; exact absurd e.symm hqp

/-- The invariant for one tree. -/
def SInv (f : Fst W) (c0 : Nat → Color) (st : DfsSt W ReachV) : Prop :=
  st.dfs = true ∧ RInv f st.color st.stack st.vis ∧ ∀ q, c0 q ≠ .white → st.color q ≠ .white

theorem SInv.step (hw : ∀ s, ∀ t ∈ f.trsOf s, t.nextstate < f.numStates) (ha : ∀ q, ¬ Relation.TransGen (KEdge f keepAll) q q)
    {root : Nat} {c0 : Nat → Color} (st : DfsSt W ReachV) (h : SInv f c0 st) (hne : st.stack ≠ []) :
    SInv f c0 (Dfs.step f (visitor f) keepAll root st) := by
  obtain ⟨c, k, v, d⟩ := st
  obtain ⟨h1, h3, h4⟩ := h
  simp only at h1 h3 h4 hne
  subst h1
  obtain ⟨fin, hg⟩ := h3.good
  cases k with
  | nil => exact absurd rfl hne
  | cons e k =>
    obtain ⟨s, ts⟩ := e
    cases ts with
    | nil =>
      have := h3.finish
      have hc : ∀ q, c0 q ≠ .white → upd c s .black q ≠ .white := by
        intro q hq; simp only [upd]; split
        · simp
        · exact h4 q hq
      cases k with
      | nil => exact ⟨rfl, this, hc⟩
      | cons e k => exact ⟨rfl, this, hc⟩
    | cons t rest =>
      have he : t ∈ f.trsOf s := by
        obtain ⟨pre, h1, -⟩ := hg.col.pre (s, t :: rest) (by simp)
        simp only at h1; rw [h1]; simp
      simp only [Dfs.step, followTr, if_true]
      cases hc : c t.nextstate with
      | white =>
        refine ⟨rfl, h3.push hc (hw s t he) (by simp), ?_⟩
        intro q hq
        simp only [visitor, if_true, upd]; split
        · simp
        · exact h4 q hq
      | grey =>
        have hgm := (hg.col.grey _).1 hc
        exact absurd (Relation.TransGen.head' ⟨t, he, rfl, rfl⟩ (Top.stack_reach hg.col _ hgm)) (ha s)
      | black => exact ⟨rfl, h3.advance hc, h4⟩

/-- The whole visit. -/
theorem visit_inv {i : StateId} (hw : f.WF) (hi : f.start = some i) (ha : ∀ q, ¬ Relation.TransGen (KEdge f keepAll) q q) :
    ∃ c, RInv f c [] (visit f (visitor f) keepAll ReachV.new) ∧ ∀ q, q < f.numStates → c q = .black := by
  have hin := hw.start_lt i hi
  have one : ∀ (r : Nat) (v : ReachV) (c : Nat → Color), r < f.numStates → RInv f c [] v → c r = .white →
      ∃ c' v', visitRoot f (visitor f) keepAll r ⟨c, [], v, true⟩ = ⟨c', [], v', true⟩ ∧ RInv f c' [] v' ∧
        (∀ q, c q ≠ .white → c' q ≠ .white) ∧ c' r ≠ .white := by
    intro r v c hr hv hc
    have key := visitRoot_induct (P := SInv f (upd c r .grey)) (vt := visitor f) (keep := keepAll) (root := r) hw.next_lt hr
      ⟨c, [], v, true⟩ hc ⟨rfl, hv.push hc hr (by simp), fun q hq => hq⟩ (fun st h hne => h.step hw.next_lt ha st hne)
    obtain ⟨⟨h1, h3, h5⟩, h4⟩ := key
    generalize visitRoot f (visitor f) keepAll r ⟨c, [], v, true⟩ = st at *
    obtain ⟨c', k', v', d'⟩ := st
    simp only at h1 h3 h4 h5
    subst h1 h4
    refine ⟨c', v', rfl, h3, fun q hq => h5 q ?_, h5 r (by simp [upd])⟩
    simp only [upd]; split
    · simp
    · exact hq
  have loop : ∀ m, m ≤ f.numStates → ∃ c v, (List.range m).foldl (nextRoot f (visitor f) keepAll)
      (visitRoot f (visitor f) keepAll i ⟨fun _ => .white, [], ReachV.new, true⟩) = ⟨c, [], v, true⟩ ∧ RInv f c [] v ∧ ∀ q, q < m → c q ≠ .white := by
    intro m
    induction m with
    | zero =>
      intro _
      obtain ⟨c', v', e, h1, -⟩ := one i ReachV.new (fun _ => .white) hin RInv.start rfl
      exact ⟨c', v', e, h1, by simp⟩
    | succ m ih =>
      intro hm
      obtain ⟨c, v, e, h1, h2⟩ := ih (by omega)
      rw [List.range_succ, List.foldl_append]
      simp only [List.foldl_cons, List.foldl_nil]
      rw [e]
      simp only [nextRoot, Bool.true_and, decide_eq_true_eq]
      by_cases hcm : c m = .white
      · rw [if_pos hcm]
        obtain ⟨c', v', e', h1', h2', h3'⟩ := one m v c (by omega) h1 hcm
        refine ⟨c', v', e', h1', fun q hq => ?_⟩
        by_cases hqm : q = m
        · rw [hqm]; exact h3'
        · exact h2' q (h2 q (by omega))
      · rw [if_neg hcm]
        refine ⟨c, v, rfl, h1, fun q hq => ?_⟩
        by_cases hqm : q = m
        · rw [hqm]; exact hcm
        · exact h2 q (by omega)
  obtain ⟨c, v, e, h1, h2⟩ := loop f.numStates (le_refl _)
  refine ⟨c, ?_, fun q hq => ?_⟩
  · unfold visit
    rw [hi]
    simp only [if_pos hin]
    rw [e]
    exact h1
  · have hw' := h2 q hq
    obtain ⟨fin, hg⟩ := h1.good
    have hg' : c q ≠ .grey := by rw [Ne, hg.col.grey]; simp
    cases hcq : c q <;> simp_all

end ReachV
end Verif
