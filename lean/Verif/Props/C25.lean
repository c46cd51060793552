import Verif.Lemmas.Text
import Verif.Lemmas.Relabel
import Verif.Lemmas.Trim
import Verif.Props.C07
import Verif.Props.C24

/-!
# C25: text FST format; C26: text symbol table format
-/

namespace Verif
universe u
variable {W : Type u}

/-! ## Symbol tables (C26) -/

/-- **C26 (text).** A table whose symbols contain no space, tab or line break, and whose labels fit `u32`, is read back from
its text exactly. -/
theorem C26_text_round_trip (t : SymTable) (ht : t.Ok) (hl : t.len ≤ 2 ^ 32) (hs : ∀ s ∈ t.symbols, TextSym s) :
    symtOfText (symtText t) = .ok t := by
  have hi : ∀ p ∈ t.iter, TextSym p.2 ∧ p.1 < 2 ^ 32 := by
    intro p hp
    simp only [SymTable.iter, List.mem_map, Prod.exists] at hp
    obtain ⟨a, b, hab, rfl⟩ := hp
    have hab := List.mem_zipIdx_iff_getElem?.1 hab
    have hb := (List.getElem?_eq_some_iff.1 hab).1
    unfold SymTable.len at hl
    exact ⟨hs _ (List.mem_of_getElem? hab), by simp only at hb ⊢; omega⟩
  unfold symtOfText symtText
  rw [symtRows_print t.iter hi _ (length_le_flatten_lines _ _ (by simp; omega)), addTextRows_eq _ fun p hp => (hi p hp).2]
  have := addRows_spec ht hl t.names SymTable.empty SymTable.ok_empty rfl
  rw [← this]
  simp only [SymTable.iter, List.map_map]
  rfl

/-- The hypotheses hold of a table with three symbols. -/
example : ∃ t : SymTable, t.Ok ∧ t.len = 3 ∧ (∀ s ∈ t.symbols, TextSym s) ∧ symtOfText (symtText t) = .ok t := by
  have hk : (SymTable.new.addSymbols ["a", "bc"]).Ok := (SymTable.runs_ok SymTable.new (SymTable.ok_start true) [.addSymbols ["a", "bc"]]).1
  have hs : ∀ s ∈ (SymTable.new.addSymbols ["a", "bc"]).symbols, TextSym s := by
    have : (SymTable.new.addSymbols ["a", "bc"]).symbols = ["<eps>", "a", "bc"] := by decide
    rw [this]; unfold TextSym; decide
  exact ⟨_, hk, by decide, hs, C26_text_round_trip _ hk (by decide) hs⟩

/-- **C26 (defect).** A table containing a symbol with a space is written without complaint, and reading the text succeeds with
a shorter table: the row and everything after it are dropped. -/
theorem C26_text_space_defect : ∃ t u : SymTable, t.Ok ∧ t.len = 4 ∧ symtOfText (symtText t) = .ok u ∧ u.len = 2 := by
  refine ⟨SymTable.new.addSymbols ["a", "b c", "d"], _, (SymTable.runs_ok SymTable.new (SymTable.ok_start true) [.addSymbols ["a", "b c", "d"]]).1,
    by decide, rfl, by decide⟩

/-! ## FSTs (C25) -/

section
variable [Zero W] [One W] [DecidableEq W]

/-- Adding transitions one after the other. -/
theorem foldAddTr (l : List (StateId × Tr W)) : ∀ (f : Fst W), (∀ p ∈ l, p.1 < f.numStates) → f.AllCounters → f.Truthful →
    let g := l.foldl (fun f p => f.addTr p.1 p.2) f
    g.numStates = f.numStates ∧ g.start = f.start ∧ (∀ q, g.finOf q = f.finOf q) ∧ g.AllCounters ∧ g.Truthful ∧
      ∀ q, g.trsOf q = f.trsOf q ++ (l.filter fun p => p.1 = q).map Prod.snd := by
  induction l with
  | nil => intro f _ hc ht; exact ⟨rfl, rfl, fun _ => rfl, hc, ht, fun q => by simp⟩
  | cons p l ih =>
    intro f hl hc ht
    have hp := hl p (List.mem_cons_self ..)
    obtain ⟨h1, h2, h3, h4, h5, h6⟩ := ih (f.addTr p.1 p.2)
      (fun q hq => by rw [Fst.addTr_numStates]; exact hl q (List.mem_cons_of_mem _ hq)) (Fst.allCounters_addTr hc _ _)
      (Fst.truthful_addTr ht hp _)
    refine ⟨by simpa using h1, h2, fun q => (h3 q).trans (by simp), h4, h5, fun q => ?_⟩
    simp only [List.foldl_cons]
    rw [h6 q, Fst.addTr_trsOf]
    by_cases hq : q = p.1
    · subst hq; simp [hp]
    · rw [if_neg (fun h => hq h.1), List.filter_cons, if_neg (by simpa using fun h => hq h.symm)]

/-- Setting final weights one after the other, all taken from one assignment `F`. -/
theorem foldSetFinal (F : StateId → Option W) (l : List (StateId × W)) : ∀ (f : Fst W),
    (∀ p ∈ l, p.1 < f.numStates ∧ F p.1 = some p.2) → f.AllCounters → f.Truthful →
    let g := l.foldl (fun f p => f.setFinal p.1 p.2) f
    g.numStates = f.numStates ∧ g.start = f.start ∧ (∀ q, g.trsOf q = f.trsOf q) ∧ g.AllCounters ∧ g.Truthful ∧
      ∀ q, g.finOf q = if q ∈ l.map Prod.fst then F q else f.finOf q := by
  induction l with
  | nil => intro f _ hc ht; exact ⟨rfl, rfl, fun _ => rfl, hc, ht, fun q => by simp⟩
  | cons p l ih =>
    intro f hl hc ht
    obtain ⟨hp, hF⟩ := hl p (List.mem_cons_self ..)
    obtain ⟨h1, h2, h3, h4, h5, h6⟩ := ih (f.setFinal p.1 p.2)
      (fun q hq => by rw [Fst.setFinal_numStates]; exact hl q (List.mem_cons_of_mem _ hq)) (Fst.allCounters_setFinal hc _ _)
      (Fst.truthful_setFinal ht hp _)
    refine ⟨by simpa using h1, h2, fun q => (h3 q).trans (by simp), h4, h5, fun q => ?_⟩
    simp only [List.foldl_cons]
    rw [h6 q, Fst.setFinal_finOf]
    by_cases hq : q = p.1
    · subst hq; simp [hp, hF]
    · by_cases hm : q ∈ l.map Prod.fst
      · rw [if_pos hm, if_pos (by simp only [List.map_cons, List.mem_cons]; exact .inr hm)]
      · rw [if_neg hm, if_neg (fun h => hq h.1), if_neg]
        simp only [List.map_cons, List.mem_cons, not_or]
        exact ⟨hq, hm⟩

end

/-- Choosing one state out of a duplicate-free list of blocks. -/
theorem filter_flatMap_block {α : Type u} (g : Nat → List (Nat × α)) (hg : ∀ s, ∀ p ∈ g s, p.1 = s) (q : Nat) :
    ∀ l : List Nat, l.Nodup → (l.flatMap g).filter (fun p => p.1 = q) = if q ∈ l then g q else [] := by
  intro l
  induction l with
  | nil => intro _; rfl
  | cons a l ih =>
    intro hn
    have hn' := List.nodup_cons.1 hn
    rw [List.flatMap_cons, List.filter_append, ih hn'.2]
    by_cases ha : q = a
    · subst ha
      rw [if_neg hn'.1, if_pos (by simp), List.append_nil, List.filter_eq_self.2]
      intro p hp
      simpa using hg q p hp
    · rw [List.filter_eq_nil_iff.2, List.nil_append]
      · simp [ha]
      · intro p hp
        have := hg a p hp
        simp only [decide_eq_true_eq]
        omega

theorem foldMax_le (l : List Nat) : ∀ a N : Nat, l.foldl (fun n s => max n (s + 1)) a ≤ N ↔ a ≤ N ∧ ∀ s ∈ l, s < N := by
  induction l with
  | nil => intro a N; simp
  | cons b l ih =>
    intro a N
    simp only [List.foldl_cons, ih, List.mem_cons, forall_eq_or_imp]
    constructor
    · rintro ⟨h1, h2⟩; exact ⟨by omega, by omega, h2⟩
    · rintro ⟨h1, h2, h3⟩; exact ⟨by omega, h3⟩

section
variable [TextCodec W]

/-- The FSTs the text format can carry. -/
structure TextFits (f : Fst W) : Prop where
  states : f.numStates ≤ 2 ^ 32
  labels : ∀ s, ∀ t ∈ f.trsOf s, t.ilabel < 2 ^ 32 ∧ t.olabel < 2 ^ 32
  weights : ∀ s, ∀ t ∈ f.trsOf s, TextReads t.weight '\n'
  finals : ∀ s w, f.finOf s = some w → FinText w

/-- State `s` occurs in the text: it has a transition, is the target of one, or is final. -/
def Mentioned (f : Fst W) (s : StateId) : Prop :=
  f.trsOf s ≠ [] ∨ (∃ q, ∃ t ∈ f.trsOf q, t.nextstate = s) ∨ f.finOf s ≠ none

omit [TextCodec W] in
theorem mem_trRows {f : Fst W} {s : StateId} {r : Row W} : r ∈ trRows f s ↔
    ∃ t ∈ f.trsOf s, r = .tr s t.ilabel t.olabel (some t.weight) t.nextstate := by
  simp only [trRows, List.mem_map]
  exact ⟨fun ⟨t, h1, h2⟩ => ⟨t, h1, h2.symm⟩, fun ⟨t, h1, h2⟩ => ⟨t, h1, h2.symm⟩⟩

omit [TextCodec W] in
theorem mem_finRows {f : Fst W} {s : StateId} {r : Row W} : r ∈ finRows f s ↔ ∃ w, f.finOf s = some w ∧ r = .fin s (some w) := by
  unfold finRows
  cases f.finOf s with
  | none => simp
  | some w => simp

omit [TextCodec W] in
theorem mem_fstRows {f : Fst W} {i : StateId} {r : Row W} : r ∈ fstRows f i ↔
    (∃ s, r ∈ trRows f s) ∨ ∃ s, r ∈ finRows f s := by
  simp only [fstRows, List.mem_append, List.mem_flatMap, List.mem_filter, List.mem_range]
  constructor
  · rintro (h | ⟨s, -, h⟩ | ⟨s, -, h⟩)
    · exact .inl ⟨i, h⟩
    · exact .inl ⟨s, h⟩
    · exact .inr ⟨s, h⟩
  · rintro (⟨s, h⟩ | ⟨s, h⟩)
    · by_cases hs : s = i
      · subst hs; exact .inl h
      · obtain ⟨t, ht, -⟩ := mem_trRows.1 h
        exact .inr (.inl ⟨s, ⟨Fst.lt_of_mem_trsOf ht, by simpa using hs⟩, h⟩)
    · obtain ⟨w, hw, -⟩ := mem_finRows.1 h
      exact .inr (.inr ⟨s, Fst.lt_of_finOf hw, h⟩)

theorem rowsRead {f : Fst W} (hw : f.WF) (hf : TextFits f) (i : StateId) : ∀ r ∈ fstRows f i, RowReads r := by
  intro r hr
  have hn := hf.states
  rcases mem_fstRows.1 hr with ⟨s, h⟩ | ⟨s, h⟩
  · obtain ⟨t, ht, rfl⟩ := mem_trRows.1 h
    have h1 := Fst.lt_of_mem_trsOf ht
    have h2 := hw.next_lt s t ht
    obtain ⟨h3, h4⟩ := hf.labels s t ht
    exact rowReads_tr (by omega) (by omega) h3 h4 (hf.weights s t ht)
  · obtain ⟨w, h1, rfl⟩ := mem_finRows.1 h
    have := Fst.lt_of_finOf h1
    exact rowReads_fin (by omega) (hf.finals s w h1)

omit [TextCodec W] in
/-- The states below `rowsNumStates` cover everything mentioned. -/
theorem rowsNumStates_spec {f : Fst W} (hw : f.WF) (i : StateId) :
    (∀ s, Mentioned f s → s < rowsNumStates (fstRows f i)) ∧ rowsNumStates (fstRows f i) ≤ f.numStates ∧
    (∀ s, rowsStart (fstRows f i) = some s → s < rowsNumStates (fstRows f i)) ∧
    (0 < rowsNumStates (fstRows f i) → Mentioned f (rowsNumStates (fstRows f i) - 1)) := by
  obtain ⟨l, hl⟩ : ∃ l, l = (fstRows f i).flatMap Row.ids ++ (rowsStart (fstRows f i)).toList := ⟨_, rfl⟩
  have hN : rowsNumStates (fstRows f i) = l.foldl (fun n s => max n (s + 1)) 0 := by rw [hl]; rfl
  have hstart : ∀ s, rowsStart (fstRows f i) = some s → ∃ r ∈ fstRows f i, s ∈ r.ids ∨ ∃ q, r = .inf q := by
    intro s hs
    cases hr : fstRows f i with
    | nil => rw [hr] at hs; cases hs
    | cons r rs =>
      rw [hr] at hs
      refine ⟨r, by simp, ?_⟩
      cases r <;> simp [rowsStart, Row.ids] at hs ⊢
      · exact .inl hs.symm
      · exact hs.symm
  have hids : ∀ r ∈ fstRows f i, ∀ s ∈ r.ids, Mentioned f s := by
    intro r hr s hs
    rcases mem_fstRows.1 hr with ⟨q, h⟩ | ⟨q, h⟩
    · obtain ⟨t, ht, rfl⟩ := mem_trRows.1 h
      simp only [Row.ids, List.mem_cons, List.not_mem_nil, or_false] at hs
      rcases hs with rfl | rfl
      · exact .inl (List.ne_nil_of_mem ht)
      · exact .inr (.inl ⟨q, t, ht, rfl⟩)
    · obtain ⟨w, h1, rfl⟩ := mem_finRows.1 h
      simp only [Row.ids, List.mem_cons, List.not_mem_nil, or_false] at hs
      subst hs
      exact .inr (.inr (by rw [h1]; simp))
  have hnoinf : ∀ r ∈ fstRows f i, ∀ q, r ≠ .inf q := by
    intro r hr q
    rcases mem_fstRows.1 hr with ⟨s, h⟩ | ⟨s, h⟩
    · obtain ⟨t, ht, rfl⟩ := mem_trRows.1 h; simp
    · obtain ⟨w, h1, rfl⟩ := mem_finRows.1 h; simp
  have hmem : ∀ s ∈ l, Mentioned f s := by
    intro s hs
    rw [hl, List.mem_append] at hs
    rcases hs with hs | hs
    · obtain ⟨r, hr, hs⟩ := List.mem_flatMap.1 hs
      exact hids r hr s hs
    · obtain ⟨r, hr, h⟩ := hstart s (by simpa using hs)
      rcases h with h | ⟨q, h⟩
      · exact hids r hr s h
      · exact absurd h (hnoinf r hr q)
  have hlt : ∀ s ∈ l, s < rowsNumStates (fstRows f i) := by
    rw [hN]; exact ((foldMax_le l 0 _).1 (Nat.le_refl _)).2
  have hbound : ∀ s, Mentioned f s → s < f.numStates := by
    rintro s (h | ⟨q, t, ht, rfl⟩ | h)
    · obtain ⟨t, ht⟩ := List.exists_mem_of_ne_nil _ h
      exact Fst.lt_of_mem_trsOf ht
    · exact hw.next_lt q t ht
    · obtain ⟨w, hw⟩ := Option.ne_none_iff_exists'.1 h
      exact Fst.lt_of_finOf hw
  have hconv : ∀ s, Mentioned f s → s ∈ l := by
    have aux : ∀ r ∈ fstRows f i, ∀ s ∈ r.ids, s ∈ l := by
      intro r hr s hs
      rw [hl]
      exact List.mem_append_left _ (List.mem_flatMap.2 ⟨r, hr, hs⟩)
    rintro s (h | ⟨q, t, ht, rfl⟩ | h)
    · obtain ⟨t, ht⟩ := List.exists_mem_of_ne_nil _ h
      exact aux _ (mem_fstRows.2 (.inl ⟨s, mem_trRows.2 ⟨t, ht, rfl⟩⟩)) s (by simp [Row.ids])
    · exact aux _ (mem_fstRows.2 (.inl ⟨q, mem_trRows.2 ⟨t, ht, rfl⟩⟩)) t.nextstate (by simp [Row.ids])
    · obtain ⟨w, hw⟩ := Option.ne_none_iff_exists'.1 h
      exact aux _ (mem_fstRows.2 (.inr ⟨s, mem_finRows.2 ⟨w, hw, rfl⟩⟩)) s (by simp [Row.ids])
  refine ⟨fun s hs => hlt s (hconv s hs), ?_, ?_, ?_⟩
  · rw [hN]; exact (foldMax_le l 0 _).2 ⟨Nat.zero_le _, fun s hs => hbound s (hmem s hs)⟩
  · intro s hs
    exact hlt s (by rw [hl]; simp [hs])
  · intro hpos
    by_contra hcon
    have : rowsNumStates (fstRows f i) ≤ rowsNumStates (fstRows f i) - 1 := by
      conv_lhs => rw [hN]
      refine (foldMax_le l 0 _).2 ⟨Nat.zero_le _, fun s hs => ?_⟩
      have h1 := hlt s hs
      have h2 : s ≠ rowsNumStates (fstRows f i) - 1 := fun e => hcon (e ▸ hmem s hs)
      omega
    omega

end

section
variable [Zero W] [One W] [DecidableEq W]

/-- What `from_parsed_fst_text` builds from the rows of an FST. -/
theorem fromRows_fstRows {f : Fst W} (hw : f.WF) (hc : f.AllCounters) (i : StateId) :
    ∃ h : Fst W, h.states = f.states.take (rowsNumStates (fstRows f i)) ∧ h.start = rowsStart (fstRows f i) ∧ h.Truthful ∧
      h.WF ∧ (h.start ≠ none ∨ h.numStates = 0) ∧
      fromRows (fstRows f i) = match h.computeAndUpdate Props.allMask with | .ok (f, _) => .ok f | .error e => .error e := by
  obtain ⟨hm, hle, hst, -⟩ := rowsNumStates_spec hw i
  obtain ⟨n, hn⟩ : ∃ n, n = rowsNumStates (fstRows f i) := ⟨_, rfl⟩
  rw [← hn] at hm hle hst
  obtain ⟨f0, hf0⟩ : ∃ f0 : Fst W, f0 = ⟨List.replicate n State.new, rowsStart (fstRows f i), Props.empty⟩ := ⟨_, rfl⟩
  have h0n : f0.numStates = n := by rw [hf0]; simp [Fst.numStates]
  have h0t : ∀ q, f0.trsOf q = [] := by
    intro q
    rw [Fst.trsOf_eq, hf0]
    simp only [List.getElem?_replicate]
    split <;> rfl
  have h0f : ∀ q, f0.finOf q = none := by
    intro q
    rw [Fst.finOf_eq, hf0]
    simp only [List.getElem?_replicate]
    split <;> rfl
  have h0c : f0.AllCounters := by
    intro s st hs
    rw [hf0] at hs
    simp only at hs
    rw [List.getElem?_replicate] at hs
    split at hs
    · cases hs; exact ⟨rfl, rfl⟩
    · cases hs
  have h0p : f0.Truthful := by intro b hb; rw [hf0] at hb; cases hb
  -- the transitions
  obtain ⟨lt, hlt⟩ : ∃ lt, lt = (fstRows f i).filterMap rowTr := ⟨_, rfl⟩
  have hlt1 : ∀ p ∈ lt, p.1 < f0.numStates := by
    intro p hp
    rw [hlt] at hp
    obtain ⟨r, hr, hrp⟩ := List.mem_filterMap.1 hp
    rw [h0n]
    rcases mem_fstRows.1 hr with ⟨q, h⟩ | ⟨q, h⟩
    · obtain ⟨t, ht, rfl⟩ := mem_trRows.1 h
      simp only [rowTr, Option.some.injEq] at hrp
      subst hrp
      exact hm q (.inl (List.ne_nil_of_mem ht))
    · obtain ⟨w, h1, rfl⟩ := mem_finRows.1 h; cases hrp
  have hblock : ∀ s, (trRows f s).filterMap rowTr = (f.trsOf s).map fun t => (s, t) := by
    intro s
    simp only [trRows, List.filterMap_map]
    rw [← List.filterMap_eq_map]
    rfl
  have hfinb : ∀ s, (finRows f s).filterMap rowTr = [] := by
    intro s; unfold finRows; cases f.finOf s <;> rfl
  have hsel : ∀ q, (lt.filter fun p => p.1 = q).map Prod.snd = f.trsOf q := by
    intro q
    have e : lt = ((f.trsOf i).map fun t => (i, t)) ++
        ((List.range f.numStates).filter (· ≠ i)).flatMap fun s => (f.trsOf s).map fun t => (s, t) := by
      rw [hlt, fstRows]
      simp only [List.filterMap_append, List.filterMap_flatMap, hblock, hfinb]
      simp
    rw [e, List.filter_append, filter_flatMap_block (fun s => (f.trsOf s).map fun t => (s, t)) (by simp) q _
      (List.nodup_range.filter _)]
    by_cases hq : q = i
    · subst hq
      rw [if_neg (by simp), List.filter_eq_self.2 (by simp), List.append_nil, List.map_map]
      simp [Function.comp_def]
    · rw [List.filter_eq_nil_iff.2 (by simp; omega), List.nil_append]
      by_cases hqn : q < f.numStates
      · rw [if_pos (by simp [hqn, hq]), List.map_map]; simp [Function.comp_def]
      · rw [if_neg (by simp [hqn]), Fst.trsOf_of_ge (by omega)]; rfl
  obtain ⟨a1, a2, a3, a4, a5, a6⟩ := foldAddTr lt f0 hlt1 h0c h0p
  obtain ⟨g, hg⟩ : ∃ g, g = lt.foldl (fun f p => f.addTr p.1 p.2) f0 := ⟨_, rfl⟩
  rw [← hg] at a1 a2 a3 a4 a5 a6
  -- the final weights
  obtain ⟨lf, hlf⟩ : ∃ lf, lf = (fstRows f i).filterMap (rowFin (W := W)) := ⟨_, rfl⟩
  have hlf1 : ∀ p, p ∈ lf ↔ f.finOf p.1 = some p.2 := by
    intro p
    rw [hlf, List.mem_filterMap]
    constructor
    · rintro ⟨r, hr, hrp⟩
      rcases mem_fstRows.1 hr with ⟨q, h⟩ | ⟨q, h⟩
      · obtain ⟨t, ht, rfl⟩ := mem_trRows.1 h; cases hrp
      · obtain ⟨w, h1, rfl⟩ := mem_finRows.1 h
        simp only [rowFin, Option.some.injEq] at hrp
        subst hrp
        exact h1
    · intro h
      exact ⟨.fin p.1 (some p.2), mem_fstRows.2 (.inr ⟨p.1, mem_finRows.2 ⟨p.2, h, rfl⟩⟩), rfl⟩
  obtain ⟨b1, b2, b3, b4, b5, b6⟩ := foldSetFinal f.finOf lf g (fun p hp => by
    have h1 := (hlf1 p).1 hp
    exact ⟨by rw [a1, h0n]; exact hm p.1 (.inr (.inr (by rw [h1]; simp))), h1⟩) a4 a5
  obtain ⟨h, hh⟩ : ∃ h, h = lf.foldl (fun f p => f.setFinal p.1 p.2) g := ⟨_, rfl⟩
  rw [← hh] at b1 b2 b3 b4 b5 b6
  have hhn : h.numStates = n := by rw [b1, a1, h0n]
  have hht : ∀ q, h.trsOf q = f.trsOf q := by
    intro q; rw [b3, a6, h0t, hsel]; rfl
  have hhf : ∀ q, h.finOf q = f.finOf q := by
    intro q
    rw [b6]
    split
    · rfl
    · next hq =>
      rw [a3, h0f]
      cases hqf : f.finOf q with
      | none => rfl
      | some w => exact absurd (List.mem_map.2 ⟨(q, w), (hlf1 (q, w)).2 hqf, rfl⟩) hq
  have htake : h.states = f.states.take n := by
    obtain ⟨k, hk⟩ : ∃ k : Fst W, k = { f with states := f.states.take n } := ⟨_, rfl⟩
    have hks : k.states = f.states.take n := by rw [hk]
    rw [← hks]
    apply Fst.states_ext
    · intro s st hs
      rw [hks, List.getElem?_take] at hs
      split at hs
      · exact hc s st hs
      · cases hs
    · exact b4
    · rw [hhn]; unfold Fst.numStates at hle ⊢; rw [hks, List.length_take]; omega
    · intro s
      rw [hht]
      by_cases hs : s < n
      · simp only [Fst.trsOf, hks, List.getElem?_take, hs, if_true]
      · rw [show k.trsOf s = [] by simp [Fst.trsOf, hks, List.getElem?_take, hs]]
        by_contra hne
        exact hs (hm s (.inl hne))
    · intro s
      rw [hhf]
      by_cases hs : s < n
      · simp only [Fst.finOf, hks, List.getElem?_take, hs, if_true]
      · rw [show k.finOf s = none by simp [Fst.finOf, hks, List.getElem?_take, hs]]
        by_contra hne
        exact hs (hm s (.inr (.inr hne)))
  have hhs : h.start = rowsStart (fstRows f i) := by rw [b2, a2, hf0]
  refine ⟨h, by rw [htake, hn], hhs, b5, ⟨?_, ?_⟩, ?_, ?_⟩
  · intro s hs; rw [hhn]; exact hst s (by rw [← hhs, hs])
  · intro s t ht
    rw [hht] at ht
    rw [hhn]
    exact hm _ (.inr (.inl ⟨s, t, ht, rfl⟩))
  · rw [hhs, hhn, hn]
    cases hr : fstRows f i with
    | nil => exact .inr rfl
    | cons r rs => left; cases r <;> simp [rowsStart]
  · have : fromRows (fstRows f i) = match (lf.foldl (fun f p => f.setFinal p.1 p.2) (lt.foldl (fun f p => f.addTr p.1 p.2)
        f0)).computeAndUpdate Props.allMask with | .ok (f, _) => .ok f | .error e => .error e := by
      rw [hf0, hlt, hlf, hn]; rfl
    rw [this, ← hg, ← hh]

variable [TextCodec W]

/-- **C25, general form.** Reading the text of a well-formed FST with a start state always succeeds and gives the FST cut after
the last state that the text mentions, the start being the state of the first row; the states cut off have no transition in or
out and are not final. -/
theorem C25_general (f : Fst W) (hw : f.WF) (hc : f.AllCounters) (i : StateId) (hi : f.start = some i) (hf : TextFits f) :
    ∃ g n, fstOfText (fstText f) = .ok g ∧ n ≤ f.numStates ∧ g.states = f.states.take n ∧
      (∀ s, Mentioned f s → s < n) ∧ (0 < n → Mentioned f (n - 1)) ∧ (f.trsOf i ≠ [] → g.start = some i) := by
  obtain ⟨h, h1, h2, h3, h4, h5, h6⟩ := fromRows_fstRows hw hc i
  obtain ⟨hm, hle, -, hlast⟩ := rowsNumStates_spec hw i
  have hok : ∃ r, h.computeProps Props.allMask true = .ok r := by
    unfold Fst.computeProps
    rw [Fst.targetsOk_of_wf h4]
    split
    · exact ⟨_, rfl⟩
    · exact ⟨_, rfl⟩
  obtain ⟨r, hr⟩ := hok
  have : fstOfText (fstText f) = .ok (h.setPropsMask r.1 r.2) := by
    unfold fstOfText
    rw [fstText_eq f hi, textRows_print _ (rowsRead hw hf i), h6, Fst.computeAndUpdate, hr]
  refine ⟨_, _, this, hle, h1, hm, hlast, fun hne => ?_⟩
  show h.start = some i
  rw [h2]
  obtain ⟨t, l, ht⟩ : ∃ t l, f.trsOf i = t :: l := by
    cases ht : f.trsOf i with
    | nil => exact absurd ht hne
    | cons t l => exact ⟨t, l, rfl⟩
  simp [fstRows, trRows, ht, rowsStart]

/-- **C25.** An FST whose start state has a transition and whose last state occurs in its text (it has a transition, is the
target of one or is final) is read back from its text with the same states, transitions, final weights and start. -/
theorem C25_round_trip (f : Fst W) (hw : f.WF) (hc : f.AllCounters) (i : StateId) (hi : f.start = some i) (hf : TextFits f)
    (hs : f.trsOf i ≠ []) (hl : Mentioned f (f.numStates - 1)) :
    ∃ g, fstOfText (fstText f) = .ok g ∧ g.states = f.states ∧ g.start = f.start := by
  obtain ⟨g, n, h1, h2, h3, h4, -, h5⟩ := C25_general f hw hc i hi hf
  refine ⟨g, h1, ?_, by rw [h5 hs, hi]⟩
  rw [h3]
  apply List.take_of_length_le
  have := h4 _ hl
  unfold Fst.numStates at this
  omega

/-- The flags of the FST read are exactly the true ones, when no final weight is zero. -/
theorem C25_flags (f : Fst W) (hw : f.WF) (hc : f.AllCounters) (i : StateId) (hi : f.start = some i) (hf : TextFits f)
    (hz : ∀ s, f.finOf s ≠ some 0) (g : Fst W) (hg : fstOfText (fstText f) = .ok g) (b : PropBit) :
    g.props b = true ↔ g.Holds b := by
  obtain ⟨h, h1, h2, h3, h4, h5, h6⟩ := fromRows_fstRows hw hc i
  have hz' : ∀ s, h.finOf s ≠ some 0 := by
    intro s
    rw [Fst.finOf_eq, h1, List.getElem?_take]
    split
    · rw [← Fst.finOf_eq]; exact hz s
    · simp
  obtain ⟨k, p, k1, -, k3, k4, -, k6⟩ := C07_update h h4 h3 h5 Props.allMask (fun _ => hz')
  unfold fstOfText at hg
  rw [fstText_eq f hi, textRows_print _ (rowsRead hw hf i), h6, k1] at hg
  cases hg
  rw [k6 b rfl]
  have e : h = { g with props := h.props } := by
    cases h; cases g; simp only [Fst.mk.injEq] at k3 k4 ⊢; exact ⟨k3.symm, k4.symm, trivial⟩
  rw [e]
  rfl

end

/-! ## `IntegerWeight` -/

theorem textReads_int {v : Int} (h : -2 ^ 31 ≤ v ∧ v < 2 ^ 31) {c : Char} (hc : c.isDigit = false) : TextReads v c := by
  intro r
  show int32 (showInt v ++ c :: r) = _
  obtain ⟨h1, h2⟩ := takeWhile_append_stop (fun _ h => showNat_digit (n := v.natAbs) h) hc r
  have hne : showNat v.natAbs ≠ [] := Nat.toDigits_ne_nil
  have hv : Nat.ofDigitChars 10 (showNat v.natAbs) 0 = v.natAbs := Nat.ofDigitChars_ten_toDigits
  unfold showInt
  by_cases hneg : v < 0
  · rw [if_pos hneg, int32]
    rw [show sign ('-' :: showNat v.natAbs ++ c :: r) = (true, showNat v.natAbs ++ c :: r) from rfl]
    simp only [h1, h2, hv, if_true]
    rw [if_neg hne, if_pos (by omega)]
    congr 2; omega
  · rw [if_neg hneg, int32]
    have : sign (showNat v.natAbs ++ c :: r) = (false, showNat v.natAbs ++ c :: r) := by
      obtain ⟨d, l, hd⟩ : ∃ d l, showNat v.natAbs = d :: l := by
        cases he : showNat v.natAbs with
        | nil => exact absurd he hne
        | cons d l => exact ⟨d, l, rfl⟩
      have hdig : d.isDigit = true := showNat_digit (n := v.natAbs) (by rw [hd]; simp)
      rw [hd]
      unfold sign
      simp only [List.cons_append]
      split
      · next heq => cases heq; exact absurd hdig (by decide)
      · next heq => cases heq; exact absurd hdig (by decide)
      · rfl
    rw [this]
    simp only [h1, h2, hv, Bool.false_eq_true, if_false]
    rw [if_neg hne, if_pos (by omega)]
    congr 2; omega

theorem finText_int {v : Int} (h : -2 ^ 31 ≤ v ∧ v < 2 ^ 31) : FinText v where
  reads := textReads_int h (by decide)
  noTab := by
    show '\t' ∉ showInt v
    intro hm
    unfold showInt at hm
    split at hm
    · rcases List.mem_cons.1 hm with hm | hm
      · exact absurd hm (by decide)
      · exact absurd (showNat_digit hm) (by decide)
    · exact absurd (showNat_digit hm) (by decide)
  notInf := by
    show ¬ "Infinity".toList <+: showInt v
    intro hp
    have : 'I' ∈ showInt v := hp.subset (by decide)
    unfold showInt at this
    split at this
    · rcases List.mem_cons.1 this with hm | hm
      · exact absurd hm (by decide)
      · exact absurd (showNat_digit hm) (by decide)
    · exact absurd (showNat_digit this) (by decide)

/-- An FST over integer weights whose start is state 1. -/
def exText : Fst Int :=
  ((((((Fst.new.addStates 3).setStart 1).addTr 0 ⟨1, 2, -3, 1⟩).addTr 1 ⟨0, 12, 3, 2⟩).addTr 1 ⟨4, 0, 1, 0⟩).setFinal 2 15).setFinal 0 (-7)

/-- The hypotheses of `C25_round_trip` hold of a concrete FST with a cycle, negative weights and two final states. -/
example : exText.WF ∧ exText.AllCounters ∧ exText.start = some 1 ∧ TextFits exText ∧ exText.trsOf 1 ≠ [] ∧
    Mentioned exText (exText.numStates - 1) ∧
    fstText exText = "1\t2\t0\t12\t3\n1\t0\t4\t0\t1\n0\t1\t1\t2\t-3\n0\t-7\n2\t15\n".toList := by
  have htr : ∀ s, ∀ t ∈ exText.trsOf s, t.ilabel < 2 ^ 32 ∧ t.olabel < 2 ^ 32 ∧ -2 ^ 31 ≤ t.weight ∧ t.weight < 2 ^ 31 := by
    intro s t ht
    have hs := Fst.lt_of_mem_trsOf ht
    have hs : s < 3 := hs
    have key : ∀ s < 3, ∀ t ∈ exText.trsOf s, t.ilabel < 2 ^ 32 ∧ t.olabel < 2 ^ 32 ∧ -2 ^ 31 ≤ t.weight ∧ t.weight < 2 ^ 31 := by
      decide
    exact key s hs t ht
  have hfi : ∀ s w, exText.finOf s = some w → -2 ^ 31 ≤ w ∧ w < 2 ^ 31 := by
    intro s w h
    have hs : s < 3 := Fst.lt_of_finOf h
    have key : ∀ s < 3, ∀ w ∈ exText.finOf s, -2 ^ 31 ≤ w ∧ w < 2 ^ 31 := by decide
    exact key s hs w h
  refine ⟨Fst.wf_of_wfB (by decide), ?_, rfl, ⟨by decide, fun s t ht => ⟨(htr s t ht).1, (htr s t ht).2.1⟩,
    fun s t ht => textReads_int (htr s t ht).2.2 (by decide), fun s w h => finText_int (hfi s w h)⟩, by decide,
    .inr (.inr (by decide)), by decide⟩
  exact Fst.allCounters_setFinal (Fst.allCounters_setFinal (Fst.allCounters_addTr (Fst.allCounters_addTr
    (Fst.allCounters_addTr (Fst.allCounters_setStart (Fst.allCounters_addStates Fst.allCounters_new _) _) _ _) _ _) _ _) _ _) _ _

/-- **C25 (defect).** When the start state has no transition, the text names another state first: the FST with states 0 and 1,
start 1, both final and one transition `0 → 0` comes back with start 0, and accepts other strings. -/
theorem C25_start_defect : ∃ f g : Fst Int, f.WF ∧ f.start = some 1 ∧ fstOfText (fstText f) = .ok g ∧ g.states = f.states ∧
    g.start = some 0 := by
  refine ⟨((((Fst.new.addStates 2).setStart 1).addTr 0 ⟨1, 1, 1, 0⟩).setFinal 0 1).setFinal 1 1, _, Fst.wf_of_wfB (by decide), rfl,
    rfl, by decide, by decide⟩

/-- **C25 (defect).** States at the end that have no transition and are not final are lost, and an FST without a start state
comes back empty. -/
theorem C25_lost_states : ∃ f g h k : Fst Int, f.WF ∧ f.numStates = 3 ∧ fstOfText (fstText f) = .ok g ∧ g.numStates = 1 ∧
    h.WF ∧ h.numStates = 1 ∧ h.start = none ∧ fstOfText (fstText h) = .ok k ∧ k.numStates = 0 := by
  refine ⟨(((Fst.new.addStates 3).setStart 0).addTr 0 ⟨1, 1, 1, 0⟩).setFinal 0 1, _,
    ((Fst.new.addStates 1).addTr 0 ⟨1, 1, 1, 0⟩).setFinal 0 1, _, Fst.wf_of_wfB (by decide), rfl, rfl, by decide,
    Fst.wf_of_wfB (by decide), rfl, rfl, rfl, by decide⟩

/-- **C25 (defect).** Text with a malformed line is accepted: that line and everything after it are ignored. -/
theorem C25_garbage_ignored : ∃ g : Fst Int, fstOfText "0\t1\t1\t1\t5\nnot a row\n1\t7\n".toList = .ok g ∧ g.numStates = 2 ∧
    g.finOf 1 = none := ⟨_, rfl, by decide, by decide⟩

end Verif
