import Verif.Lemmas.Sigma

/-! # C67: `compose_with_config` with sigma matchers -/

namespace Verif
universe u
variable {W : Type u}

/-- Whether the sigma transitions of `f` are rewritten on both sides. -/
def SigmaConfig.both (c : SigmaConfig) (f : Fst W) : Bool :=
  match c.mode with
  | .auto => f.props .acceptor
  | .always => true
  | .never => false

/-- Whether sigma stands for `l`. -/
def SigmaConfig.allows (c : SigmaConfig) (l : Label) : Bool :=
  match c.allowed with
  | some ls => decide (l ∈ ls)
  | none => true

/-- An operand with sigma as "rest" over the alphabet `L`; without a sigma matcher it is the operand. -/
def Fst.rest (f : Fst W) (c : Option SigmaConfig) (input : Bool) (L : List Label) : Fst W :=
  match c with
  | none => f
  | some c => f.withRest c.sigma (c.both f) input c.allows L

/-- An operand with sigma as "all" over the alphabet `L`. -/
def Fst.all (f : Fst W) (c : Option SigmaConfig) (input : Bool) (L : List Label) : Fst W :=
  match c with
  | none => f
  | some c => f.withAll c.sigma (c.both f) input c.allows L

/-- What `compose_with_config` may be called with: operands as for `compose`; sigma is not ε, the FST with the sigma matcher has its sort flag, the other FST
does not use sigma itself, and at most one of the two has sigma transitions. `L1` and `L2` are alphabets with the labels that the other FST has. -/
structure SigmaInputs (A B : Fst W) (c1 c2 : Option SigmaConfig) (L1 L2 : List Label) : Prop extends Operands A B where
  sigma1 : ∀ c, c1 = some c → c.sigma ≠ EPS ∧ (c.sigma ≠ NO_LABEL → A.props .oLabelSorted = true)
  sigma2 : ∀ c, c2 = some c → c.sigma ≠ EPS ∧ (c.sigma ≠ NO_LABEL → B.props .iLabelSorted = true)
  alphabet1 : L1.Nodup ∧ NO_LABEL ∉ L1
  alphabet2 : L2.Nodup ∧ NO_LABEL ∉ L2
  labels1 : ∀ s, ∀ b ∈ B.trsOf s, b.ilabel ≠ EPS → b.ilabel ∈ L1 ∧ ∀ c, c1 = some c → b.ilabel ≠ c.sigma
  labels2 : ∀ s, ∀ a ∈ A.trsOf s, a.olabel ≠ EPS → a.olabel ∈ L2 ∧ ∀ c, c2 = some c → a.olabel ≠ c.sigma
  oneSide : ∀ c c' s s', c1 = some c → c2 = some c' → (∀ a ∈ A.trsOf s, a.olabel ≠ c.sigma) ∨ (∀ b ∈ B.trsOf s', b.ilabel ≠ c'.sigma)

/-- The matcher for a configuration. -/
def SigmaConfig.matcher (c : SigmaConfig) (f : Fst W) : SigmaM := ⟨c.sigma, c.both f, c.allowed⟩

theorem createMatcher_ok (c : Option SigmaConfig) (f : Fst W) (h : ∀ c', c = some c' → c'.sigma ≠ EPS) : createMatcher c f = .ok (c.map (·.matcher f)) := by
  cases c with
  | none => rfl
  | some c => simp only [createMatcher, SigmaM.new, if_neg (h c rfl)]; rfl

theorem rest_eq (c : Option SigmaConfig) (f : Fst W) (input : Bool) (L : List Label) : restOf (c.map (·.matcher f)) input L f = f.rest c input L := by
  cases c with
  | none => rfl
  | some c => rfl

theorem SigmaInputs.operands {A B : Fst W} {c1 c2 L1 L2} (h : SigmaInputs A B c1 c2 L1 L2) :
    SigmaOperands A B (c1.map (·.matcher A)) (c2.map (·.matcher B)) L1 L2 where
  wf1 := h.wf1
  wf2 := h.wf2
  counters1 := h.counters1
  counters2 := h.counters2
  noLabel1 := h.noLabel1
  noLabel2 := h.noLabel2
  true1 := h.true1
  true2 := h.true2
  sorted := h.sorted
  sigma1 m hm := by obtain ⟨c, hc, rfl⟩ := Option.map_eq_some_iff.1 hm; exact (h.sigma1 c hc).1
  sigma2 m hm := by obtain ⟨c, hc, rfl⟩ := Option.map_eq_some_iff.1 hm; exact (h.sigma2 c hc).1
  sorted1 m hm := by obtain ⟨c, hc, rfl⟩ := Option.map_eq_some_iff.1 hm; exact (h.sigma1 c hc).2
  sorted2 m hm := by obtain ⟨c, hc, rfl⟩ := Option.map_eq_some_iff.1 hm; exact (h.sigma2 c hc).2
  nodup1 := h.alphabet1.1
  nodup2 := h.alphabet2.1
  no1 := h.alphabet1.2
  no2 := h.alphabet2.2
  labels1 s b hb h0 := ⟨(h.labels1 s b hb h0).1, fun m hm => by obtain ⟨c, hc, rfl⟩ := Option.map_eq_some_iff.1 hm; exact (h.labels1 s b hb h0).2 c hc⟩
  labels2 s b hb h0 := ⟨(h.labels2 s b hb h0).1, fun m hm => by obtain ⟨c, hc, rfl⟩ := Option.map_eq_some_iff.1 hm; exact (h.labels2 s b hb h0).2 c hc⟩
  oneSide m m' s s' hm hm' := by
    obtain ⟨c, hc, rfl⟩ := Option.map_eq_some_iff.1 hm
    obtain ⟨c', hc', rfl⟩ := Option.map_eq_some_iff.1 hm'
    exact h.oneSide c c' s s' hc hc'

section
variable [CommMonoidWithZero W] [DecidableEq W] {A B : Fst W} {c1 c2 : Option SigmaConfig} {L1 L2 : List Label}

/-- C67: with sigma matchers `compose_with_config` ends without error, and its result is the composition of the operands with sigma as "rest": at a state, a sigma
transition is read as any allowed label that no transition of the state has. -/
theorem C67_rest (h : SigmaInputs A B c1 c2 L1 L2) (connect : Bool) (F : ComposeFilter Nat W) (hF : F = seqFilter ∨ F = altFilter ∨ F = matchFilter) :
    ∃ C, EndsWith (composeConfig F connect c1 c2 A B) (.ok C) ∧ C.WF ∧ C.AllCounters ∧ IsComposition (A.rest c1 false L1) (B.rest c2 true L2) C := by
  have ho := h.operands
  have e1 := createMatcher_ok c1 A fun c hc => (h.sigma1 c hc).1
  have e2 := createMatcher_ok c2 B fun c hc => (h.sigma2 c hc).1
  have i1 : ∀ s, epsInfo (restOf (c1.map (·.matcher A)) false L1 A) false s = epsInfo A false s := restOf_epsInfo h.counters1 ho.sigma1
  have i2 : ∀ s, epsInfo (restOf (c2.map (·.matcher B)) true L2 B) true s = epsInfo B true s := restOf_epsInfo h.counters2 ho.sigma2
  rw [← rest_eq, ← rest_eq]
  rcases hF with rfl | rfl | rfl
  · exact sigma_static e1 e2 ho (seqFilter_law ho.joinable (restOf_counters h.counters1)) (fun s1 s2 fs => by simp only [seqFilter, i1]) (Set.finite_Iic 1) connect
  · exact sigma_static e1 e2 ho (altFilter_law ho.joinable (restOf_counters h.counters2)) (fun s1 s2 fs => by simp only [altFilter, i2]) (Set.finite_Iic 1) connect
  · exact sigma_static e1 e2 ho (matchFilter_law ho.joinable (restOf_counters h.counters1) (restOf_counters h.counters2))
      (fun s1 s2 fs => by simp only [matchFilter, i1, i2]) (Set.finite_Iic 2) connect

/-- C67 for the filters that do not take care of ε: the trivial and the no-match filter when one side has no ε on the middle tape, the null filter when neither has. -/
theorem C67_plain_filters (h : SigmaInputs A B c1 c2 L1 L2) (connect : Bool) (F : ComposeFilter Unit W)
    (hF : (F = nullFilter ∧ NoEps Tr.olabel A ∧ NoEps Tr.ilabel B) ∨ ((F = trivialFilter ∨ F = noMatchFilter) ∧ (NoEps Tr.olabel A ∨ NoEps Tr.ilabel B))) :
    ∃ C, EndsWith (composeConfig F connect c1 c2 A B) (.ok C) ∧ C.WF ∧ C.AllCounters ∧ IsComposition (A.rest c1 false L1) (B.rest c2 true L2) C := by
  have ho := h.operands
  have e1 := createMatcher_ok c1 A fun c hc => (h.sigma1 c hc).1
  have e2 := createMatcher_ok c2 B fun c hc => (h.sigma2 c hc).1
  have n1 : NoEps Tr.olabel A → NoEps Tr.olabel (restOf (c1.map (·.matcher A)) false L1 A) := fun hn s => restOf_noEps (input := false) (hn s)
  have n2 : NoEps Tr.ilabel B → NoEps Tr.ilabel (restOf (c2.map (·.matcher B)) true L2 B) := fun hn s => restOf_noEps (input := true) (hn s)
  rw [← rest_eq, ← rest_eq]
  rcases hF with ⟨rfl, ha, hb⟩ | ⟨rfl | rfl, hab⟩
  · exact sigma_static e1 e2 ho (nullFilter_law ho.joinable (n1 ha) (n2 hb)) (fun _ _ _ => rfl) (Set.toFinite _) connect
  · exact sigma_static e1 e2 ho (trivialFilter_law (hab.imp n1 n2)) (fun _ _ _ => rfl) (Set.toFinite _) connect
  · exact sigma_static e1 e2 ho (noMatchFilter_law (hab.imp n1 n2)) (fun _ _ _ => rfl) (Set.toFinite _) connect

end

/-! ### Sigma as "all" -/

/-- No state has both a sigma transition and a transition with one of the labels that sigma stands for. -/
def Fst.SigmaAlone (f : Fst W) (c : Option SigmaConfig) (input : Bool) (L : List Label) : Prop :=
  ∀ c', c = some c' → ∀ s, ∀ t ∈ f.trsOf s, t.labelOn input = c'.sigma → ∀ u ∈ f.trsOf s, u.labelOn input ∈ L → u.labelOn input = EPS ∨ u.labelOn input = c'.sigma ∨ c'.allows (u.labelOn input) = false

theorem rest_eq_all {f : Fst W} {c : Option SigmaConfig} {input : Bool} {L : List Label} (h : f.SigmaAlone c input L) : f.rest c input L = f.all c input L := by
  cases c with
  | none => rfl
  | some c =>
    simp only [Fst.rest, Fst.all, Fst.withRest, Fst.withAll, Fst.withMore]
    congr 1
    refine List.map_congr_left fun st hst => ?_
    obtain ⟨s, hs, rfl⟩ := List.getElem_of_mem hst
    have ht : f.trsOf s = f.states[s].trs := by simp [Fst.trsOf, hs]
    have key : sigmaCopies c.sigma (c.both f) input L (fun l => decide (l ≠ EPS) && decide (l ≠ c.sigma) && c.allows l && f.states[s].trs.all fun t => decide (t.labelOn input ≠ l)) f.states[s].trs =
        sigmaCopies c.sigma (c.both f) input L (fun l => decide (l ≠ EPS) && decide (l ≠ c.sigma) && c.allows l) f.states[s].trs := by
      by_cases hsig : ∃ t ∈ f.states[s].trs, t.labelOn input = c.sigma
      · obtain ⟨t, htm, hts⟩ := hsig
        unfold sigmaCopies
        congr 1
        refine List.filter_congr fun l hl => ?_
        cases hx : (decide (l ≠ EPS) && decide (l ≠ c.sigma) && c.allows l) with
        | false => simp
        | true =>
          simp only [Bool.true_and, List.all_eq_true, decide_eq_true_eq]
          intro u hu e
          simp only [Bool.and_eq_true, decide_eq_true_eq] at hx
          rcases h c rfl s t (ht ▸ htm) hts u (ht ▸ hu) (e ▸ hl) with h' | h' | h'
          · exact hx.1.1 (e ▸ h')
          · exact hx.1.2 (e ▸ h')
          · rw [e, hx.2] at h'; cases h'
      · have e : f.states[s].trs.filter (fun t => decide (t.labelOn input = c.sigma)) = [] := by
          refine List.filter_eq_nil_iff.2 fun t ht' => ?_
          simpa using fun e => hsig ⟨t, ht', e⟩
        have z : ∀ K : List Label, K.flatMap (fun _ => ([] : List (Tr W))) = [] := fun K => List.flatMap_eq_nil_iff.2 fun _ _ => rfl
        simp only [sigmaCopies, e, List.map_nil, z]
    simp only [key]

section
variable [CommMonoidWithZero W] [DecidableEq W] {A B : Fst W} {c1 c2 : Option SigmaConfig} {L1 L2 : List Label}

/-- C67, the part of "sigma stands for every allowed label" that holds: it does where no state has, beside a sigma transition, one with a label that sigma stands for. Without this
condition the statement is false (`C67_all_defect`). -/
theorem C67_all_partial (h : SigmaInputs A B c1 c2 L1 L2) (ha1 : A.SigmaAlone c1 false L1) (ha2 : B.SigmaAlone c2 true L2) (connect : Bool) (F : ComposeFilter Nat W)
    (hF : F = seqFilter ∨ F = altFilter ∨ F = matchFilter) :
    ∃ C, EndsWith (composeConfig F connect c1 c2 A B) (.ok C) ∧ C.WF ∧ C.AllCounters ∧ IsComposition (A.all c1 false L1) (B.all c2 true L2) C := by
  rw [← rest_eq_all ha1, ← rest_eq_all ha2]
  exact C67_rest h connect F hF

end

/-! ### Errors -/

section
variable [CommMonoidWithZero W] [DecidableEq W] {FS : Type} [DecidableEq FS] (F : ComposeFilter FS W) (connect : Bool) (A B : Fst W) (n : Nat)

/-- C67: ε cannot be sigma. -/
theorem C67_sigma_zero (c1 c2 : Option SigmaConfig) (c : SigmaConfig) (hc : c1 = some c ∨ c2 = some c) (h : c.sigma = EPS) :
    composeConfig F connect c1 c2 A B n = some (.error .err) := by
  have bad : ∀ f : Fst W, createMatcher (some c) f = .error .err := fun f => by simp [createMatcher, SigmaM.new, h]
  have any : ∀ (c' : Option SigmaConfig) (f : Fst W), createMatcher c' f = .error .err ∨ ∃ m, createMatcher c' f = .ok m := by
    intro c' f
    cases c' with
    | none => exact .inr ⟨_, rfl⟩
    | some c' => by_cases h : c'.sigma = EPS <;> simp [createMatcher, SigmaM.new, h]
  rcases hc with rfl | rfl
  · simp only [composeConfig, bad]
  · rcases any c1 A with e | ⟨m, e⟩ <;> simp only [composeConfig, e, bad]

/-- C67: an FST with a sigma matcher must have the flag that it is sorted. -/
theorem C67_unsorted (c1 c2 : Option SigmaConfig)
    (h : (∃ c, c1 = some c ∧ c.sigma ≠ NO_LABEL ∧ A.props .oLabelSorted = false) ∨ (∃ c, c2 = some c ∧ c.sigma ≠ NO_LABEL ∧ B.props .iLabelSorted = false)) :
    composeConfig F connect c1 c2 A B n = some (.error .err) := by
  by_cases h1 : ∃ c, (c1 = some c ∨ c2 = some c) ∧ c.sigma = EPS
  · obtain ⟨c, hc, h0⟩ := h1
    exact C67_sigma_zero F connect A B n c1 c2 c hc h0
  · push Not at h1
    have e1 := createMatcher_ok c1 A fun c hc => h1 c (.inl hc)
    have e2 := createMatcher_ok c2 B fun c hc => h1 c (.inr hc)
    have key : composeMatchTypeM A B (c1.map (·.matcher A)) (c2.map (·.matcher B)) = .error .err := by
      rcases h with ⟨c, rfl, hs, hu⟩ | ⟨c, rfl, hs, hu⟩
      · have := requireOk_err (m := c.matcher A) (f := A) (input := false) hs hu
        simp only [composeMatchTypeM, Option.map_some, this]
      · have r2 := requireOk_err (m := c.matcher B) (f := B) (input := true) hs hu
        have r1 : requireOk (c1.map (·.matcher A)) A false = .ok () ∨ requireOk (c1.map (·.matcher A)) A false = .error .err := by
          cases c1 with
          | none => exact .inl rfl
          | some c1 =>
            by_cases hn : c1.sigma = NO_LABEL
            · exact .inl (requireOk_ok _ _ _ fun m hm hs => by cases hm; exact (hs hn).elim)
            · cases hp : A.props .oLabelSorted with
              | true => exact .inl (requireOk_ok _ _ _ fun m hm hs => hp)
              | false => exact .inr (requireOk_err (m := c1.matcher A) hn hp)
        rcases r1 with r1 | r1
        · simp only [composeMatchTypeM, r1, Option.map_some, r2]
        · simp only [composeMatchTypeM, r1]
    simp only [composeConfig, e1, e2, key]

end

/-! ### Concrete cases -/

/-- Reads `5`, then `6`. -/
def exFiveSix : Fst Nat := ⟨[⟨none, [⟨5, 5, 2, 1⟩], 0, 0⟩, ⟨none, [⟨6, 6, 3, 2⟩], 0, 0⟩, ⟨some 1, [], 0, 0⟩], some 0, Props.of [.acceptor, .oLabelSorted]⟩

/-- Reads anything with sigma `9`; first `5` is also read explicitly. -/
def exAnything : Fst Nat := ⟨[⟨none, [⟨5, 5, 5, 1⟩, ⟨9, 9, 7, 1⟩], 0, 0⟩, ⟨none, [⟨9, 9, 11, 2⟩], 0, 0⟩, ⟨some 1, [], 0, 0⟩], some 0, Props.of [.acceptor, .iLabelSorted]⟩

def exConfig (mode : RewriteMode) : SigmaConfig := ⟨9, mode, none⟩

theorem exSigmaInputs (c : SigmaConfig) (hc : c.sigma = 9) : SigmaInputs exFiveSix exAnything none (some c) [5, 9] [5, 6] := by
  have h1 : ∀ s, exFiveSix.trsOf s = [⟨5, 5, 2, 1⟩] ∨ exFiveSix.trsOf s = [⟨6, 6, 3, 2⟩] ∨ exFiveSix.trsOf s = [] := by
    intro s; rcases s with _ | _ | _ | s <;> simp [exFiveSix, Fst.trsOf]
  have h2 : ∀ s, exAnything.trsOf s = [⟨5, 5, 5, 1⟩, ⟨9, 9, 7, 1⟩] ∨ exAnything.trsOf s = [⟨9, 9, 11, 2⟩] ∨ exAnything.trsOf s = [] := by
    intro s; rcases s with _ | _ | _ | s <;> simp [exAnything, Fst.trsOf]
  have n1 : exFiveSix.numStates = 3 := rfl
  have n2 : exAnything.numStates = 3 := rfl
  refine ⟨⟨⟨?_, ?_⟩, ⟨?_, ?_⟩, ?_, ?_, ?_, ?_, ?_, ?_, .inl rfl⟩, ?_, ?_, ?_, ?_, ?_, ?_, ?_⟩
  · intro s hs; cases hs; decide
  · intro s t ht; rcases h1 s with e | e | e <;> simp [e] at ht <;> subst ht <;> simp [n1]
  · intro s hs; cases hs; decide
  · intro s t ht
    rcases h2 s with e | e | e <;> simp [e] at ht
    · rcases ht with rfl | rfl <;> simp [n2]
    · subst ht; simp [n2]
  · intro s st hst
    rcases s with _ | _ | _ | s <;> simp [exFiveSix] at hst <;> subst hst <;> exact ⟨rfl, rfl⟩
  · intro s st hst
    rcases s with _ | _ | _ | s <;> simp [exAnything] at hst <;> subst hst <;> exact ⟨rfl, rfl⟩
  · intro s t ht; rcases h1 s with e | e | e <;> simp [e] at ht <;> subst ht <;> simp [NO_LABEL]
  · intro s t ht
    rcases h2 s with e | e | e <;> simp [e] at ht
    · rcases ht with rfl | rfl <;> simp [NO_LABEL]
    · subst ht; simp [NO_LABEL]
  · intro _ s; rcases h1 s with e | e | e <;> simp [e]
  · intro _ s; rcases h2 s with e | e | e <;> simp [e]
  · intro c hc; cases hc
  · intro c' hc'; cases hc'; exact ⟨by rw [hc]; decide, fun _ => rfl⟩
  · decide
  · decide
  · intro s t ht _
    refine ⟨?_, fun c hc => by cases hc⟩
    rcases h2 s with e | e | e <;> simp [e] at ht
    · rcases ht with rfl | rfl <;> simp
    · subst ht; simp
  · intro s t ht _
    rcases h1 s with e | e | e <;> simp [e] at ht <;> subst ht <;> refine ⟨by simp, fun c' hc' => ?_⟩ <;> cases hc' <;> simp [hc]
  · intro c c' s s' hc; cases hc

/-- Where only `6` is allowed for sigma, no state of `exAnything` has a sigma transition beside an explicit one for it. -/
example : ∃ C, EndsWith (composeConfig seqFilter true none (some ⟨9, .auto, some [6]⟩) exFiveSix exAnything) (.ok C) ∧ C.Accepts [5, 6] [5, 6] (6 * 55) := by
  have h2 : ∀ s, exAnything.trsOf s = [⟨5, 5, 5, 1⟩, ⟨9, 9, 7, 1⟩] ∨ exAnything.trsOf s = [⟨9, 9, 11, 2⟩] ∨ exAnything.trsOf s = [] := by
    intro s; rcases s with _ | _ | _ | s <;> simp [exAnything, Fst.trsOf]
  obtain ⟨C, hC, _, _, hi⟩ := C67_all_partial (exSigmaInputs ⟨9, .auto, some [6]⟩ rfl) (fun c hc => by cases hc) (fun c hc s t ht _ u hu _ => by
    cases hc
    rcases h2 s with e | e | e <;> rw [e] at hu
    · simp only [List.mem_cons, List.not_mem_nil, or_false] at hu
      rcases hu with rfl | rfl <;> decide
    · simp only [List.mem_cons, List.not_mem_nil, or_false] at hu
      subst hu; decide
    · cases hu) true seqFilter (.inl rfl)
  exact ⟨C, hC, (C39_relation hi _ _ _ (by decide)).2 ⟨[5, 6], 6, 55, ⟨2, by decide⟩, ⟨2, by decide⟩, rfl⟩⟩

/-- The sigma transitions read `6`, and the explicit one reads `5`. -/
example : (composeConfig seqFilter true none (some (exConfig .auto)) exFiveSix exAnything 10).map (fun r => r.toOption.map fun C => (C.states, C.start)) = some (some (
    [⟨none, [⟨5, 5, 10, 1⟩], 0, 0⟩, ⟨none, [⟨6, 6, 33, 2⟩], 0, 0⟩, ⟨some 1, [], 0, 0⟩], some 0)) := by rfl

/-- The rewritten operand reads `5` by sigma only where it has no transition for it. -/
example : (exAnything.rest (some (exConfig .auto)) true [5, 6]).states.map (·.trs) = [[⟨5, 5, 5, 1⟩, ⟨9, 9, 7, 1⟩, ⟨6, 6, 7, 1⟩], [⟨9, 9, 11, 2⟩, ⟨5, 5, 11, 2⟩, ⟨6, 6, 11, 2⟩], []] := by rfl

/-- Not everything that sigma should read is read: with sigma as "all" the second FST accepts `5 6` with weight 77 beside 55, the first FST accepts `5 6` with weight 6, but the
result only has the path with the explicit transition. -/
theorem C67_all_defect : exFiveSix.Accepts [5, 6] [5, 6] 6 ∧ (exAnything.all (some (exConfig .auto)) true [5, 6]).Accepts [5, 6] [5, 6] 77 ∧
    ∃ C, EndsWith (composeConfig seqFilter true none (some (exConfig .auto)) exFiveSix exAnything) (.ok C) ∧
      ¬ C.Accepts [5, 6] [5, 6] (6 * 77) ∧ ¬ IsComposition exFiveSix (exAnything.all (some (exConfig .auto)) true [5, 6]) C := by
  have a1 : exFiveSix.Accepts [5, 6] [5, 6] 6 := ⟨2, by decide⟩
  have a2 : (exAnything.all (some (exConfig .auto)) true [5, 6]).Accepts [5, 6] [5, 6] 77 := ⟨2, by decide⟩
  obtain ⟨C, hC, _, _, hi⟩ := C67_rest (exSigmaInputs (exConfig .auto) rfl) true seqFilter (.inl rfl)
  have hno : ¬ C.Accepts [5, 6] [5, 6] (6 * 77) := by
    intro hk
    obtain ⟨y, w1, w2, ⟨n, hn⟩, ⟨m, hm⟩, e⟩ := (C39_relation hi _ _ _ (by decide)).1 hk
    have t3 : ∀ n, exFiveSix.accPaths (n + 3) = 0 := fun n => rfl
    have r3 : ∀ n, (exAnything.rest (some (exConfig .auto)) true [5, 6]).accPaths (n + 3) = 0 := fun n => rfl
    have t : ∀ n < 3, ∀ p ∈ exFiveSix.accPaths n, p = ([5, 6], [5, 6], 6) := by decide
    have r : ∀ n < 3, ∀ p ∈ (exAnything.rest (some (exConfig .auto)) true [5, 6]).accPaths n, p.1 = [5, 6] → p.2.2 = 55 := by decide
    have hn3 : n < 3 := by
      by_contra hc
      obtain ⟨k, rfl⟩ : ∃ k, n = k + 3 := ⟨n - 3, by omega⟩
      change _ ∈ exFiveSix.accPaths (k + 3) at hn
      rw [t3] at hn; exact Multiset.notMem_zero _ hn
    have hm3 : m < 3 := by
      by_contra hc
      obtain ⟨k, rfl⟩ : ∃ k, m = k + 3 := ⟨m - 3, by omega⟩
      change _ ∈ (exAnything.rest (some (exConfig .auto)) true [5, 6]).accPaths (k + 3) at hm
      rw [r3] at hm; exact Multiset.notMem_zero _ hm
    have hp := t n hn3 _ hn
    simp only [Prod.mk.injEq, true_and] at hp
    obtain ⟨rfl, rfl⟩ := hp
    have hq : w2 = 55 := r m hm3 _ hm rfl
    subst hq
    revert e; decide
  exact ⟨a1, a2, C, hC, hno, fun h => hno ((C39_relation h _ _ _ (by decide)).2 ⟨_, _, _, a1, a2, rfl⟩)⟩

/-- The flag defect: both operands are acceptors and have the flag, sigma is rewritten on the input side only, and the result has the flag but is no acceptor. -/
theorem C67_acceptor_defect : ∃ C, composeConfig seqFilter true none (some (exConfig .never)) exFiveSix exAnything 10 = some (.ok C) ∧ C.props .acceptor = true ∧ ¬ C.Holds .acceptor := by
  refine ⟨_, rfl, by rfl, fun h => ?_⟩
  have := h 1 ⟨6, 9, 33, 2⟩ (by decide)
  revert this; decide

/-- Two states that both have sigma transitions cannot be combined. -/
example : composeConfig seqFilter true (some (exConfig .auto)) (some ⟨8, .auto, none⟩)
    (⟨[⟨none, [⟨9, 9, 1, 0⟩], 0, 0⟩], some 0, Props.of [.oLabelSorted]⟩ : Fst Nat) ⟨[⟨none, [⟨8, 8, 1, 0⟩], 0, 0⟩], some 0, Props.of [.iLabelSorted]⟩ 10 = some (.error .err) := by rfl

/-- Sigma cannot be read as itself. -/
example : composeConfig seqFilter true none (some (exConfig .auto))
    (⟨[⟨none, [⟨9, 9, 1, 0⟩], 0, 0⟩], some 0, Props.of [.oLabelSorted]⟩ : Fst Nat) exAnything 10 = some (.error .err) := by rfl

end Verif
