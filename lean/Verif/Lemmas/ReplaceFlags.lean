import Verif.Lemmas.ReplaceNew
import Verif.Lemmas.PresentsFlags
import Verif.Lemmas.Truthful
import Mathlib.Data.List.Basic

/-! # `replace`: flags of the machine -/

set_option linter.unusedSectionVars false

namespace Verif
universe u
variable {W : Type u}

namespace RCfg

/-- The lowest frame, or the current position. -/
def bot (c : RCfg) : RFrame := c.stack.getLast?.getD ⟨c.fst, c.state⟩

/-- Without the lowest frame. -/
def lift (c : RCfg) : RCfg := ⟨c.stack.dropLast, c.fst, c.state⟩

end RCfg

namespace RNet
variable [Zero W] [DecidableEq W] {N : RNet W}

theorem next_bot {c c' : RCfg} (h : N.Next c c') : c'.bot.fst = c.bot.fst ∧
    ((c.stack = [] ∧ (N.fst c.bot.fst).Edge c.bot.state c'.bot.state) ∨
     (c.stack ≠ [] ∧ c'.bot = c.bot ∧ (c'.stack = [] ∨ (c'.stack ≠ [] ∧ N.Next c.lift c'.lift)))) := by
  obtain ⟨st, i, s⟩ := c
  rcases next_cases h with ⟨tr, h1, h2, rfl⟩ | ⟨tr, h1, j, q, h2, h3, rfl⟩ | ⟨fr, st', w, h1, h2, h3, rfl⟩
  · cases st with
    | nil => exact ⟨rfl, .inl ⟨rfl, tr, h1, rfl⟩⟩
    | cons fr st =>
      refine ⟨by simp [RCfg.bot, List.getLast?_cons], .inr ⟨by simp, by simp [RCfg.bot, List.getLast?_cons], .inr ⟨by simp, next_plain h1 h2⟩⟩⟩
  · cases st with
    | nil => exact ⟨rfl, .inl ⟨rfl, tr, h1, rfl⟩⟩
    | cons fr st =>
      refine ⟨by simp [RCfg.bot, List.getLast?_cons], .inr ⟨by simp, by simp [RCfg.bot, List.getLast?_cons], .inr ⟨by simp, ?_⟩⟩⟩
      have := next_call (st := (fr :: st).dropLast) h1 h2 h3
      simpa [RCfg.lift] using this
  · simp only at h1
    subst h1
    cases st' with
    | nil => exact ⟨rfl, .inr ⟨by simp, by simp [RCfg.bot, List.getLast?_cons], .inl rfl⟩⟩
    | cons fr' st =>
      refine ⟨by simp [RCfg.bot, List.getLast?_cons], .inr ⟨by simp, by simp [RCfg.bot, List.getLast?_cons], .inr ⟨by simp, ?_⟩⟩⟩
      have := next_ret (N := N) (st := (fr' :: st).dropLast) (fr := fr) h2 h3
      simpa [RCfg.lift] using this

theorem nexts_bot {c c' : RCfg} (h : Relation.TransGen N.Next c c') : c'.bot.fst = c.bot.fst ∧
    (Relation.TransGen (N.fst c.bot.fst).Edge c.bot.state c'.bot.state ∨
     (c.stack ≠ [] ∧ c'.bot = c.bot ∧ (c'.stack = [] ∨ (c'.stack ≠ [] ∧ Relation.TransGen N.Next c.lift c'.lift)))) := by
  induction h with
  | single h =>
    obtain ⟨h1, h2⟩ := next_bot h
    refine ⟨h1, ?_⟩
    rcases h2 with ⟨_, h2⟩ | ⟨h2, h3, h4⟩
    · exact .inl (.single h2)
    · exact .inr ⟨h2, h3, h4.imp id (fun h => ⟨h.1, .single h.2⟩)⟩
  | @tail c' c'' _ h ih =>
    obtain ⟨h1, h2⟩ := next_bot h
    obtain ⟨i1, i2⟩ := ih
    refine ⟨h1.trans i1, ?_⟩
    rcases h2 with ⟨h0, h2⟩ | ⟨h2, h3, h4⟩
    · rw [i1] at h2
      rcases i2 with i2 | ⟨_, i3, _⟩
      · exact .inl (.tail i2 h2)
      · rw [i3] at h2
        exact .inl (.single h2)
    · rcases i2 with i2 | ⟨i2, i3, i4⟩
      · rw [h3]; exact .inl i2
      · refine .inr ⟨i2, h3.trans i3, ?_⟩
        rcases i4 with i4 | ⟨_, i4⟩
        · exact absurd i4 h2
        · exact h4.imp id (fun h => ⟨h.1, i4.tail h.2⟩)

/-- FSTs without cycles make a machine without cycles, recursion or not. -/
theorem acyclic (h : ∀ i s, ¬ (N.fst i).OnCycle s) : ∀ (n : Nat) (c : RCfg), c.stack.length = n → ¬ Relation.TransGen N.Next c c := by
  intro n
  induction n with
  | zero =>
    intro c hc hn
    rcases (nexts_bot hn).2 with h1 | ⟨h1, _⟩
    · exact h _ _ h1
    · exact h1 (List.length_eq_zero_iff.1 hc)
  | succ n ih =>
    intro c hc hn
    rcases (nexts_bot hn).2 with h1 | ⟨h1, _, h2 | ⟨_, h2⟩⟩
    · exact h _ _ h1
    · exact h1 h2
    · exact ih c.lift (by simp [RCfg.lift, hc]) h2

theorem initial_acyclic {s} (h : Relation.TransGen N.Next ⟨[], N.root, s⟩ ⟨[], N.root, s⟩) : (N.fst N.root).OnCycle s := by
  rcases (nexts_bot h).2 with h1 | ⟨h1, _⟩
  · exact h1
  · exact absurd rfl h1

variable [One W]

/-- Without recursion no FST is called while it is active. -/
theorem active_nodup (hr : ¬ N.rtn.Recursive N.root) {st : List RFrame} {i : Nat} (h : Chained N st i) : (i :: st.map (·.fst)).Nodup := by
  obtain ⟨h1, h2, h3⟩ := chained_calls h
  rw [List.nodup_cons]
  constructor
  · intro hi
    exact hr ⟨i, h1, (h2 i hi).2⟩
  · have : (st.map (·.fst)).Pairwise (fun a b => Relation.TransGen N.rtn.Calls b a ∧ Relation.ReflTransGen N.rtn.Calls N.root a) := by
      rw [List.pairwise_iff_getElem] at h3 ⊢
      intro i j hi hj hij
      exact ⟨h3 i j hi hj hij, (h2 _ (List.getElem_mem hi)).1⟩
    refine this.imp ?_
    rintro a b ⟨h4, h5⟩ rfl
    exact hr ⟨a, h5, h4⟩

/-- Without recursion the root is not called. -/
theorem not_root (hr : ¬ N.rtn.Recursive N.root) {c : RCfg} (h : N.machine.Reach c) (hs : c.stack ≠ []) : c.fst ≠ N.root := by
  have hc := (reach_chained h).2
  intro he
  have : ∀ {st : List RFrame} {i}, Chained N st i → st ≠ [] → N.root ∈ st.map (·.fst) := by
    intro st
    induction st with
    | nil => intro i _ h; exact absurd rfl h
    | cons fr st ih =>
      intro i h _
      by_cases hst : st = []
      · subst hst
        have : fr.fst = N.root := h.2
        simp [this]
      · rw [List.map_cons]
        exact List.mem_cons_of_mem _ (ih h.2 hst)
  have h1 := active_nodup hr hc
  rw [List.nodup_cons] at h1
  exact h1.1 (he ▸ this hc hs)

/-- When every FST has a start and all its states lead to final ones, every call can be carried out. -/
theorem completes (hr : ¬ N.rtn.Recursive N.root) {B : Nat} (hroot : N.root < B) (hcallee : ∀ tr j, N.callee tr = some j → j < B)
    (hstart : ∀ i, i < B → ∃ q, (N.fst i).start = some q) (hz : ∀ i s, (N.fst i).finOf s ≠ some 0)
    (hco : ∀ i, i < B → ∀ s, N.rtn.Arrives i s → (N.fst i).Coaccessible s) :
    ∀ (n : Nat) (st : List RFrame) (i : Nat), Chained N st i → B ≤ st.length + n →
      ∀ s, N.rtn.Arrives i s → (∀ q, (N.fst i).Reach s q → N.rtn.Arrives i q) ∧ ∃ q, N.rtn.Arrives i q ∧ (N.fst i).Reach s q ∧ ∃ w, (N.fst i).finOf q = some w ∧ w ≠ 0 := by
  have hB : ∀ {st : List RFrame} {i}, Chained N st i → i < B ∧ ∀ k ∈ st.map (·.fst), k < B := by
    intro st
    induction st with
    | nil => intro i h; have : i = N.root := h; subst this; exact ⟨hroot, by simp⟩
    | cons fr st ih =>
      intro i h
      obtain ⟨⟨s, tr, _, _, h3, _⟩, h4⟩ := h
      refine ⟨hcallee tr i h3, ?_⟩
      intro k hk
      rcases List.mem_cons.1 hk with rfl | hk
      · exact (ih h4).1
      · exact (ih h4).2 k hk
  intro n
  induction n with
  | zero =>
    intro st i hc hb
    exfalso
    have h1 := active_nodup hr hc
    have h2 : (i :: st.map (·.fst)) ⊆ List.range B := by
      intro k hk
      rw [List.mem_range]
      rcases List.mem_cons.1 hk with rfl | hk
      · exact (hB hc).1
      · exact (hB hc).2 k hk
    have := (List.subperm_of_subset h1 h2).length_le
    simp only [List.length_cons, List.length_map, List.length_range] at this
    omega
  | succ n ih =>
    intro st i hc hb s hs
    have walk : ∀ q, (N.fst i).Reach s q → N.rtn.Arrives i q := by
      intro q hq
      induction hq with
      | refl => exact hs
      | @tail q q' _ he ihq =>
        obtain ⟨tr, h1, rfl⟩ := he
        cases hcal : N.callee tr with
        | none => exact .step ihq h1 hcal
        | some j =>
          obtain ⟨p, hp⟩ := hstart j (hcallee tr j hcal)
          obtain ⟨_, p', h2, _, w, h3, h4⟩ := ih (⟨i, tr.nextstate⟩ :: st) j ⟨⟨q, tr, ihq, h1, hcal, rfl⟩, hc⟩ (by simp only [List.length_cons]; omega) p (.start hp)
          exact .call ihq h1 hcal h2 h3 h4
    refine ⟨walk, ?_⟩
    obtain ⟨q, h1, h2⟩ := hco i (hB hc).1 s hs
    obtain ⟨w, hw⟩ := Option.isSome_iff_exists.1 h2
    exact ⟨q, walk q h1, h1, w, hw, fun h => hz i q (h ▸ hw)⟩

/-- A walk inside one FST is a run of the machine when all calls can be carried out. -/
theorem walk_run {st : List RFrame} {i : Nat} (hcal : ∀ s tr j, N.rtn.Arrives i s → tr ∈ (N.fst i).trsOf s → N.callee tr = some j →
      ∃ q, N.rtn.Arrives j q ∧ ∃ w, (N.fst j).finOf q = some w ∧ w ≠ 0)
    {s q} (hs : N.rtn.Arrives i s) (h : (N.fst i).Edge s q) : Relation.TransGen N.Next ⟨st, i, s⟩ ⟨st, i, q⟩ := by
  obtain ⟨tr, h1, rfl⟩ := h
  cases hc : N.callee tr with
  | none => exact .single (next_plain h1 hc)
  | some j =>
    obtain ⟨q, h2, w, h3, h4⟩ := hcal s tr j hs h1 hc
    obtain ⟨p, h5, h6⟩ := arrives_run h2
    refine Relation.TransGen.tail (b := ⟨⟨i, tr.nextstate⟩ :: st, j, q⟩) (Relation.TransGen.head' (next_call h1 hc h5) (h6 _)) ?_
    exact next_ret (fr := ⟨i, tr.nextstate⟩) h3 h4

theorem coaccessible (hr : ¬ N.rtn.Recursive N.root) {B : Nat} (hroot : N.root < B) (hcallee : ∀ tr j, N.callee tr = some j → j < B)
    (hstart : ∀ i, i < B → ∃ q, (N.fst i).start = some q) (hz : ∀ i s, (N.fst i).finOf s ≠ some 0)
    (hco : ∀ i, i < B → ∀ s, N.rtn.Arrives i s → (N.fst i).Coaccessible s) {c : RCfg} (h : N.machine.Reach c) :
    ∃ u, Relation.ReflTransGen N.Next c u ∧ (N.machine.fin u).isSome := by
  obtain ⟨st, i, s⟩ := c
  obtain ⟨h1, h2⟩ := reach_chained h
  simp only at h1 h2
  clear h
  have hcal : ∀ {st i}, Chained N st i → ∀ s tr j, N.rtn.Arrives i s → tr ∈ (N.fst i).trsOf s → N.callee tr = some j →
      ∃ q, N.rtn.Arrives j q ∧ ∃ w, (N.fst j).finOf q = some w ∧ w ≠ 0 := by
    intro st i hc s tr j ha htr hj
    obtain ⟨p, hp⟩ := hstart j (hcallee tr j hj)
    obtain ⟨_, q, h3, _, h4⟩ := completes hr hroot hcallee hstart hz hco B (⟨i, tr.nextstate⟩ :: st) j ⟨⟨s, tr, ha, htr, hj, rfl⟩, hc⟩ (by omega) p (.start hp)
    exact ⟨q, h3, h4⟩
  have run : ∀ {st i s q}, Chained N st i → N.rtn.Arrives i s → (N.fst i).Reach s q → Relation.ReflTransGen N.Next ⟨st, i, s⟩ ⟨st, i, q⟩ := by
    intro st i s q hc hs hq
    induction hq with
    | refl => exact .refl
    | @tail q q' hq he ihq =>
      have ha := (completes hr hroot hcallee hstart hz hco B st i hc (by omega) s hs).1 q hq
      exact ihq.trans (walk_run (hcal hc) ha he).to_reflTransGen
  induction st generalizing i s with
  | nil =>
    obtain ⟨_, q, _, h4, w, h5, _⟩ := completes hr hroot hcallee hstart hz hco B [] i h2 (by omega) s h1
    exact ⟨⟨[], i, q⟩, run h2 h1 h4, by simp [machine, h5]⟩
  | cons fr st ih =>
    obtain ⟨_, q, h3, h4, w, h5, h6⟩ := completes hr hroot hcallee hstart hz hco B (fr :: st) i h2 (by omega) s h1
    have hn : N.Next ⟨fr :: st, i, q⟩ ⟨st, fr.fst, fr.state⟩ := next_ret h5 h6
    obtain ⟨⟨p, tr, g1, g2, g3, g4⟩, g5⟩ := h2
    obtain ⟨u, h7, h8⟩ := ih fr.fst fr.state (by rw [g4]; exact .call g1 g2 g3 h3 h5 h6) g5
    have hch : Chained N (fr :: st) i := ⟨⟨p, tr, g1, g2, g3, g4⟩, g5⟩
    exact ⟨u, ((run hch h1 h4).tail hn).trans h7, h8⟩

theorem initial_cyclic (hr : ¬ N.rtn.Recursive N.root) {B : Nat} (hroot : N.root < B) (hcallee : ∀ tr j, N.callee tr = some j → j < B)
    (hstart : ∀ i, i < B → ∃ q, (N.fst i).start = some q) (hz : ∀ i s, (N.fst i).finOf s ≠ some 0)
    (hco : ∀ i, i < B → ∀ s, N.rtn.Arrives i s → (N.fst i).Coaccessible s) {s} (hs : (N.fst N.root).start = some s) (h : (N.fst N.root).OnCycle s) :
    Relation.TransGen N.Next ⟨[], N.root, s⟩ ⟨[], N.root, s⟩ := by
  have hcal : ∀ s tr j, N.rtn.Arrives N.root s → tr ∈ (N.fst N.root).trsOf s → N.callee tr = some j →
      ∃ q, N.rtn.Arrives j q ∧ ∃ w, (N.fst j).finOf q = some w ∧ w ≠ 0 := by
    intro s tr j ha htr hj
    obtain ⟨p, hp⟩ := hstart j (hcallee tr j hj)
    obtain ⟨_, q, h3, _, h4⟩ := completes hr hroot hcallee hstart hz hco B [⟨N.root, tr.nextstate⟩] j ⟨⟨s, tr, ha, htr, hj, rfl⟩, rfl⟩ (by omega) p (.start hp)
    exact ⟨q, h3, h4⟩
  have key : ∀ q, Relation.TransGen (N.fst N.root).Edge s q → Relation.TransGen N.Next ⟨[], N.root, s⟩ ⟨[], N.root, q⟩ := by
    intro q hq
    induction hq with
    | single he => exact walk_run hcal (.start hs) he
    | @tail q q' hq he ihq =>
      have ha := (completes hr hroot hcallee hstart hz hco B [] N.root rfl (by omega) s (.start hs)).1 q hq.to_reflTransGen
      exact ihq.trans (walk_run hcal ha he)
  exact key s h

/-! ### Labels -/

theorem trs_ilabels (hin : ∀ tr, N.callIn tr = tr.ilabel) (c : RCfg) :
    ((((N.fst c.fst).trsOf c.state).flatMap (N.stepTr c)).map (·.ilabel)).Sublist (((N.fst c.fst).trsOf c.state).map (·.ilabel)) := by
  induction (N.fst c.fst).trsOf c.state with
  | nil => exact .slnil
  | cons tr l ih =>
    rw [List.flatMap_cons, List.map_append, List.map_cons]
    cases hc : N.callee tr with
    | none =>
      have : (N.stepTr c tr).map (·.ilabel) = [tr.ilabel] := by simp [stepTr, hc]
      rw [this]
      simpa [hc] using ih
    | some j =>
      cases hq : (N.fst j).start with
      | none =>
        have : (N.stepTr c tr).map (·.ilabel) = [] := by simp [stepTr, hc, hq]
        rw [this]
        exact ih.cons _
      | some q =>
        have : (N.stepTr c tr).map (·.ilabel) = [tr.ilabel] := by simp [stepTr, hc, hq, hin]
        rw [this]
        simpa [hc] using ih

theorem trs_olabels (hout : ∀ tr, N.callOut tr = 0) (c : RCfg) :
    ((((N.fst c.fst).trsOf c.state).flatMap (N.stepTr c)).map (·.olabel)).Sublist
      (((N.fst c.fst).trsOf c.state).map fun tr => if (N.callee tr).isSome then 0 else tr.olabel) := by
  induction (N.fst c.fst).trsOf c.state with
  | nil => exact .slnil
  | cons tr l ih =>
    rw [List.flatMap_cons, List.map_append, List.map_cons]
    cases hc : N.callee tr with
    | none =>
      have : (N.stepTr c tr).map (·.olabel) = [tr.olabel] := by simp [stepTr, hc]
      rw [this]
      simpa [hc] using ih
    | some j =>
      cases hq : (N.fst j).start with
      | none =>
        have : (N.stepTr c tr).map (·.olabel) = [] := by simp [stepTr, hc, hq]
        rw [this]
        exact ih.cons _
      | some q =>
        have : (N.stepTr c tr).map (·.olabel) = [0] := by simp [stepTr, hc, hq, hout]
        rw [this]
        simpa [hc] using ih

theorem ret_labels (c : RCfg) : (N.retTr c).map (·.ilabel) = [] ∨ (c.stack ≠ [] ∧ (N.retTr c).map (·.ilabel) = [N.retIn]) := by
  unfold retTr
  cases c.stack with
  | nil => exact .inl rfl
  | cons fr st =>
    cases (N.fst c.fst).finOf c.state with
    | none => exact .inl rfl
    | some w =>
      by_cases hw : w = 0
      · simp [hw]
      · simp [hw]

theorem ret_olabels (c : RCfg) : (N.retTr c).map (·.olabel) = [] ∨ (N.retTr c).map (·.olabel) = [N.retOut] := by
  unfold retTr
  cases c.stack with
  | nil => exact .inl rfl
  | cons fr st =>
    cases (N.fst c.fst).finOf c.state with
    | none => exact .inl rfl
    | some w =>
      by_cases hw : w = 0
      · simp [hw]
      · simp [hw]

/-- The transitions of a configuration. -/
theorem mem_trs {c : RCfg} {a : MTr RCfg W} (h : a ∈ N.machine.trs c) :
    (∃ w, (N.fst c.fst).finOf c.state = some w ∧ a.weight = w ∧ a.ilabel = N.retIn ∧ a.olabel = N.retOut) ∨
    ∃ tr ∈ (N.fst c.fst).trsOf c.state, a.weight = tr.weight ∧ ((a.ilabel = tr.ilabel ∧ a.olabel = tr.olabel) ∨
      ((N.callee tr).isSome ∧ a.ilabel = N.callIn tr ∧ a.olabel = N.callOut tr)) := by
  rw [machine_trs, List.mem_append] at h
  rcases h with ha | ha
  · unfold retTr at ha
    cases hs : c.stack with
    | nil => simp [hs] at ha
    | cons fr st =>
      cases hf : (N.fst c.fst).finOf c.state with
      | none => simp [hs, hf] at ha
      | some w =>
        by_cases hw : w = 0
        · simp [hs, hf, hw] at ha
        · simp only [hs, hf, hw, if_false, List.mem_singleton] at ha
          subst ha
          exact .inl ⟨w, rfl, rfl, rfl, rfl⟩
  · rw [List.mem_flatMap] at ha
    obtain ⟨tr, htr, ha⟩ := ha
    unfold stepTr at ha
    cases hc : N.callee tr with
    | none =>
      simp only [hc, List.mem_singleton] at ha
      subst ha
      exact .inr ⟨tr, htr, rfl, .inl ⟨rfl, rfl⟩⟩
    | some j =>
      cases hq : (N.fst j).start with
      | none => simp [hc, hq] at ha
      | some q =>
        simp only [hc, hq, List.mem_singleton] at ha
        subst ha
        exact .inr ⟨tr, htr, rfl, .inr ⟨by rw [hc]; rfl, rfl, rfl⟩⟩

end RNet
end Verif
