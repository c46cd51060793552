import Verif.Spec.Symbols
import Verif.Lemmas.SymFst
import Verif.Props.C47

/-!
# C73: `relabel_tables` keeps the strings of all paths; `string_paths_iter` yields them
-/

namespace Verif
set_option linter.unusedSectionVars false
universe u
variable {W : Type u}
open Fst

section
variable [Zero W] [One W] [DecidableEq W]

theorem newLabel_iff (old new : SymTable) (l a : Label) : newLabel old new l = some a ↔ SameSymbol old new l a := by
  unfold newLabel SameSymbol
  cases old.getSymbol l with
  | none => simp
  | some x => simp

theorem mappable_iff (oi ni oo no : SymTable) (t : Tr W) : Mappable (newLabel oi ni) (newLabel oo no) t ↔
    (∃ a, SameSymbol oi ni t.ilabel a) ∧ ∃ b, SameSymbol oo no t.olabel b := by
  unfold Mappable
  rw [Option.isSome_iff_exists, Option.isSome_iff_exists]
  simp only [newLabel_iff]

theorem same_mapLabels {oi ni oo no : SymTable} {t : Tr W} (h : Mappable (newLabel oi ni) (newLabel oo no) t) :
    SameSymbol oi ni t.ilabel (mapLabels (newLabel oi ni) (newLabel oo no) t).ilabel ∧
    SameSymbol oo no t.olabel (mapLabels (newLabel oi ni) (newLabel oo no) t).olabel := by
  obtain ⟨a, ha⟩ := Option.isSome_iff_exists.1 h.1
  obtain ⟨b, hb⟩ := Option.isSome_iff_exists.1 h.2
  unfold mapLabels
  rw [ha, hb]
  exact ⟨(newLabel_iff _ _ _ _).1 ha, (newLabel_iff _ _ _ _).1 hb⟩

/-- Both outcomes of `relabel_tables` when the old tables are known. -/
theorem relabelTables_cases {x : SymFst W} {oldI oldO : Option SymTable} {oi oo : SymTable} (hi : oldI.or x.isymt = some oi)
    (ho : oldO.or x.osymt = some oo) (newI newO : SymTable) (attachI attachO : Bool) :
    (∃ g, x.relabelTables oldI newI attachI oldO newO attachO =
        (⟨g, if attachI then some newI else none, if attachO then some newO else none⟩, .ok ()) ∧
      Between (newLabel oi newI) (newLabel oo newO) x.fst g ∧ Relab x.fst g (mapLabels (newLabel oi newI) (newLabel oo newO)) ∧
      ∀ s, ∀ t ∈ x.fst.trsOf s, Mappable (newLabel oi newI) (newLabel oo newO) t) ∨
    (∃ g, x.relabelTables oldI newI attachI oldO newO attachO = ({ x with fst := g }, .error .err) ∧
      Between (newLabel oi newI) (newLabel oo newO) x.fst g ∧
      ∃ s, ∃ t ∈ x.fst.trsOf s, ¬ Mappable (newLabel oi newI) (newLabel oo newO) t) := by
  unfold SymFst.relabelTables
  simp only [hi, ho]
  rcases relabelTables_loop (newLabel oi newI) (newLabel oo newO) x.fst with ⟨g, e, h⟩ | ⟨g, e, h⟩
  · rw [e]; exact Or.inl ⟨g, rfl, h⟩
  · rw [e]; exact Or.inr ⟨g, rfl, h⟩

/-- C73: with old tables at hand, given or attached, `relabel_tables` succeeds exactly when every label of every transition has a symbol in
its old table that also is in the new table. On success each label is replaced by the label of the same symbol; weights, targets, the order
of transitions, final weights and the start state stay; the new tables are attached where asked for and the old ones removed. Counters
stay exact and flags true. -/
theorem C73_relabel_tables (x : SymFst W) (oldI oldO : Option SymTable) (oi oo newI newO : SymTable) (attachI attachO : Bool)
    (hi : oldI.or x.isymt = some oi) (ho : oldO.or x.osymt = some oo) :
    ((x.relabelTables oldI newI attachI oldO newO attachO).2 = .ok () ↔
      ∀ s, ∀ t ∈ x.fst.trsOf s, (∃ a, SameSymbol oi newI t.ilabel a) ∧ ∃ b, SameSymbol oo newO t.olabel b) ∧
    ((x.relabelTables oldI newI attachI oldO newO attachO).2 = .ok () →
      let g := (x.relabelTables oldI newI attachI oldO newO attachO).1
      (∀ s, List.Forall₂ (fun t t' => SameSymbol oi newI t.ilabel t'.ilabel ∧ SameSymbol oo newO t.olabel t'.olabel ∧
        t'.weight = t.weight ∧ t'.nextstate = t.nextstate) (x.fst.trsOf s) (g.fst.trsOf s)) ∧
      (∀ s, g.fst.finOf s = x.fst.finOf s) ∧ g.fst.start = x.fst.start ∧ g.fst.numStates = x.fst.numStates ∧
      (x.fst.AllCounters → g.fst.AllCounters) ∧ (x.fst.Truthful → g.fst.Truthful) ∧
      g.isymt = (if attachI then some newI else none) ∧ g.osymt = (if attachO then some newO else none)) := by
  rcases relabelTables_cases hi ho newI newO attachI attachO with ⟨g, e, h1, h2, h3⟩ | ⟨g, e, h1, s, t, ht, h2⟩
  · rw [e]
    refine ⟨⟨fun _ s t ht => (mappable_iff _ _ _ _ t).1 (h3 s t ht), fun _ => rfl⟩, fun _ => ⟨fun s => ?_, h1.fin, h1.start, h1.num, h1.counters,
      h1.truthful, rfl, rfl⟩⟩
    simp only [h2.trs, List.forall₂_map_right_iff]
    refine List.forall₂_same.2 fun t ht => ?_
    exact ⟨(same_mapLabels (h3 s t ht)).1, (same_mapLabels (h3 s t ht)).2, rfl, rfl⟩
  · rw [e]
    refine ⟨⟨fun h => (by cases h), fun h => absurd ((mappable_iff _ _ _ _ t).2 (h s t ht)) h2⟩, fun h => (by cases h)⟩

/-- C73: otherwise it fails with an error. The tables stay as they were and so do final weights, the start state and the states; each
transition is as before or already relabelled. Counters stay exact and flags true. -/
theorem C73_failure (x : SymFst W) (oldI oldO : Option SymTable) (oi oo newI newO : SymTable) (attachI attachO : Bool)
    (hi : oldI.or x.isymt = some oi) (ho : oldO.or x.osymt = some oo)
    (hbad : ¬ ∀ s, ∀ t ∈ x.fst.trsOf s, (∃ a, SameSymbol oi newI t.ilabel a) ∧ ∃ b, SameSymbol oo newO t.olabel b) :
    (x.relabelTables oldI newI attachI oldO newO attachO).2 = .error .err ∧
    let g := (x.relabelTables oldI newI attachI oldO newO attachO).1
    g.isymt = x.isymt ∧ g.osymt = x.osymt ∧ (∀ s, g.fst.finOf s = x.fst.finOf s) ∧ g.fst.start = x.fst.start ∧
    g.fst.numStates = x.fst.numStates ∧ (∀ s, (g.fst.trsOf s).length = (x.fst.trsOf s).length) ∧
    (∀ (s i : Nat) (t t' : Tr W), (x.fst.trsOf s)[i]? = some t → (g.fst.trsOf s)[i]? = some t' →
      t' = t ∨ t' = { t with
        ilabel := (newLabel oi newI t.ilabel).getD t.ilabel, olabel := (newLabel oo newO t.olabel).getD t.olabel }) ∧
    (x.fst.AllCounters → g.fst.AllCounters) ∧ (x.fst.Truthful → g.fst.Truthful) := by
  rcases relabelTables_cases hi ho newI newO attachI attachO with ⟨g, e, h1, h2, h3⟩ | ⟨g, e, h1, s, t, ht, h2⟩
  · exact absurd (fun s t ht => (mappable_iff _ _ _ _ t).1 (h3 s t ht)) hbad
  · rw [e]
    refine ⟨rfl, rfl, rfl, h1.fin, h1.start, h1.num, fun s => ?_, fun s i t t' h h' => ?_, h1.counters, h1.truthful⟩
    · have key : ∀ i : Nat, (g.trsOf s)[i]? = none ↔ (x.fst.trsOf s)[i]? = none := by
        intro i
        rcases h1.trs s i with h | h <;> rw [h]
        rw [Option.map_eq_none_iff]
      simp only [List.getElem?_eq_none_iff] at key
      have a := (key (g.trsOf s).length).1 le_rfl
      have b := (key (x.fst.trsOf s).length).2 le_rfl
      exact le_antisymm b a
    · rcases h1.trs s i with h2 | h2 <;> rw [h2, h] at h'
      · cases h'; exact Or.inl rfl
      · cases h'; exact Or.inr rfl

/-- C73: without an old table on either side it fails and nothing changes. -/
theorem C73_missing (x : SymFst W) (oldI oldO : Option SymTable) (newI newO : SymTable) (attachI attachO : Bool)
    (h : (oldI = none ∧ x.isymt = none) ∨ (oldO = none ∧ x.osymt = none)) :
    x.relabelTables oldI newI attachI oldO newO attachO = (x, .error .err) := by
  unfold SymFst.relabelTables
  rcases h with ⟨rfl, h⟩ | ⟨rfl, h⟩
  · rw [h]; rfl
  · cases oldI.or x.isymt with
    | none => rfl
    | some oi => simp [h]

/-- C73: after a successful call the paths spell, with the new tables, the strings they spelled with the old ones, with the same weights and
multiplicities, and none of them lacks a symbol. This needs tables in which label 0 is the same symbol, as in all tables made by
`SymbolTable::new`. -/
theorem C73_strings [Mul W] (x : SymFst W) (oldI oldO : Option SymTable) (oi oo newI newO : SymTable) (attachI attachO : Bool)
    (hi : oldI.or x.isymt = some oi) (ho : oldO.or x.osymt = some oo) (hoi : oi.Ok) (hoo : oo.Ok) (hni : newI.Ok) (hno : newO.Ok)
    {ei eo : String} (hoi0 : oi.getSymbol EPS = some ei) (hni0 : newI.getSymbol EPS = some ei)
    (hoo0 : oo.getSymbol EPS = some eo) (hno0 : newO.getSymbol EPS = some eo)
    (hok : (x.relabelTables oldI newI attachI oldO newO attachO).2 = .ok ()) (n : Nat) :
    ((x.relabelTables oldI newI attachI oldO newO attachO).1.fst.accPaths n).map (spellPath newI newO) =
      (x.fst.accPaths n).map (spellPath oi oo) ∧
    ∀ p ∈ x.fst.accPaths n, ∃ a b, Spells oi p.1 a ∧ Spells oo p.2.1 b ∧ spellPath oi oo p = (.ok a, .ok b, p.2.2) := by
  rcases relabelTables_cases hi ho newI newO attachI attachO with ⟨g, e, h1, h2, h3⟩ | ⟨g, e, h1, s, t, ht, h2⟩
  swap
  · rw [e] at hok; cases hok
  rw [e]
  have hacc := h2.accPaths (fun p => (mapString (newLabel oi newI) p.1, mapString (newLabel oo newO) p.2.1, p.2.2)) (fun t p => by
    have key : ∀ (m : Label → Option Label) l, m EPS = some EPS → mapString m (strip l) = strip ((m l).getD l) := by
      intro m l h0
      unfold mapString
      by_cases hl : l = EPS
      · subst hl; rw [h0]; rfl
      · unfold strip; rw [if_neg hl]; simp
    have happ : ∀ (m : Label → Option Label) x y, mapString m (x ++ y) = mapString m x ++ mapString m y := by
      intro m x y; simp [mapString]
    simp only [PathT.cat, Tr.asPath, happ, mapLabels, key _ _ (newLabel_eps hni hoi0 hni0), key _ _ (newLabel_eps hno hoo0 hno0)])
    (fun _ => rfl) n
  have hlab : ∀ p ∈ x.fst.accPaths n, (∀ l ∈ p.1, l ≠ EPS ∧ (newLabel oi newI l).isSome = true) ∧
      (∀ l ∈ p.2.1, l ≠ EPS ∧ (newLabel oo newO l).isSome = true) := by
    intro p hp
    obtain ⟨k1, k2⟩ := labels_of_accPaths x.fst n p hp
    refine ⟨fun l hl => ⟨(k1 l hl).1, ?_⟩, fun l hl => ⟨(k2 l hl).1, ?_⟩⟩
    · obtain ⟨-, q, t, ht, rfl⟩ := k1 l hl
      exact (h3 q t ht).1
    · obtain ⟨-, q, t, ht, rfl⟩ := k2 l hl
      exact (h3 q t ht).2
  constructor
  · show (g.accPaths n).map _ = _
    rw [hacc, Multiset.map_map]
    refine Multiset.map_congr rfl fun p hp => ?_
    obtain ⟨k1, k2⟩ := hlab p hp
    obtain ⟨a1, -⟩ := symbolsOf_mapString hoi hni hoi0 hni0 _ k1
    obtain ⟨a2, -⟩ := symbolsOf_mapString hoo hno hoo0 hno0 _ k2
    simp only [Function.comp_apply, spellPath, spellLabels, a1, a2]
  · intro p hp
    obtain ⟨k1, k2⟩ := hlab p hp
    obtain ⟨-, xs, a1⟩ := symbolsOf_mapString hoi hni hoi0 hni0 _ k1
    obtain ⟨-, ys, a2⟩ := symbolsOf_mapString hoo hno hoo0 hno0 _ k2
    refine ⟨_, _, ⟨xs, (symbolsOf_ok _ _ _).1 a1, rfl⟩, ⟨ys, (symbolsOf_ok _ _ _).1 a2, rfl⟩, ?_⟩
    simp only [spellPath, spellLabels, a1, a2]

end

/-! ## The strings of paths -/

theorem spellLabels_spec (t : SymTable) (ls : List Label) :
    (∀ s, spellLabels t ls = .ok s ↔ Spells t ls s) ∧ ((∃ l ∈ ls, t.getSymbol l = none) → spellLabels t ls = .error .err) := by
  unfold spellLabels
  refine ⟨fun s => ?_, fun h => by rw [symbolsOf_err t ls h]⟩
  cases h : symbolsOf t ls with
  | error e =>
    simp only
    refine ⟨fun h => (by cases h), ?_⟩
    rintro ⟨xs, h1, -⟩
    rw [(symbolsOf_ok t ls xs).2 h1] at h
    cases h
  | ok xs =>
    simp only
    constructor
    · intro h'
      cases h'
      exact ⟨xs, (symbolsOf_ok t ls xs).1 h, rfl⟩
    · rintro ⟨ys, h1, rfl⟩
      rw [(symbolsOf_ok t ls ys).2 h1] at h
      cases h
      rfl

/-- C73: `istring` and `ostring` give the symbols of the labels separated by spaces, and an error if a label has none. -/
theorem C73_string_path (p : StringPath W) :
    (∀ s, p.istring = .ok s ↔ Spells p.isymt p.path.ilabels s) ∧ (∀ s, p.ostring = .ok s ↔ Spells p.osymt p.path.olabels s) ∧
    ((∃ l ∈ p.path.ilabels, p.isymt.getSymbol l = none) → p.istring = .error .err) ∧
    ((∃ l ∈ p.path.olabels, p.osymt.getSymbol l = none) → p.ostring = .error .err) :=
  ⟨(spellLabels_spec _ _).1, (spellLabels_spec _ _).1, (spellLabels_spec _ _).2, (spellLabels_spec _ _).2⟩

/-- C73: `string_paths_iter` is an error unless both tables are attached. With them, on an FST without cycle among its accessible states, it
yields every accepting path exactly once, with its two strings and its weight, and then `None` for ever. -/
theorem C73_iter [Monoid W] {x : SymFst W} (hw : x.fst.WF) (hac : ∀ s, x.fst.Accessible s → ¬ x.fst.OnCycle s) :
    ((x.isymt = none ∨ x.osymt = none) → x.stringPathsIter = .error .err) ∧
    ∀ i o, x.isymt = some i → x.osymt = some o → ∃ it, x.stringPathsIter = .ok it ∧ ∃ ps : List (StringPath W),
      (∀ j, EndsWith (fun n => it.nexts x.fst n (ps.length + j)) (ps.map some ++ List.replicate j none)) ∧
      ((ps : Multiset (StringPath W)).map fun p => (p.istring, p.ostring, p.path.weight)) =
        (∑ n ∈ Finset.range x.fst.numStates, x.fst.accPaths n).map (spellPath i o) ∧
      ∀ n, x.fst.numStates ≤ n → x.fst.accPaths n = 0 := by
  constructor
  · rintro (h | h) <;> unfold SymFst.stringPathsIter
    · rw [h]
    · rw [h]; cases x.isymt <;> rfl
  · intro i o hi ho
    refine ⟨⟨i, o, x.fst.pathsIter⟩, by simp only [SymFst.stringPathsIter, hi, ho], ?_⟩
    obtain ⟨ps, h1, h2, h3⟩ := C47_paths_iter hw hac
    refine ⟨ps.map fun p => ⟨p, i, o⟩, fun j => ?_, ?_, h3⟩
    · obtain ⟨N, hN⟩ := h1 j
      refine ⟨N, fun n hn => ?_⟩
      show StringPaths.nexts _ _ _ _ = _
      have := hN n hn
      simp only at this
      rw [nexts_eq, List.length_map, this]
      simp [List.map_append, List.map_replicate, Function.comp_def]
    · rw [← h2, Multiset.map_map, ← Multiset.map_coe, Multiset.map_map]
      rfl

/-! ## Examples -/

def exSymOld : SymTable := SymTable.new.addSymbols ["a", "b", "c"]
def exSymNew : SymTable := SymTable.new.addSymbols ["x", "c", "a", "b"]

/-- Two paths: `a` to `b c` (with an ε input) and `b` to `a`. -/
def exSym : Fst Nat :=
  ((((((Fst.new.addStates 3).setStart 0).addTr 0 ⟨1, 2, 2, 1⟩).addTr 1 ⟨0, 3, 3, 2⟩).addTr 0 ⟨2, 1, 5, 2⟩).setFinal 2 1)

def exSymFst : SymFst Nat := ⟨exSym, some exSymOld, some exSymOld⟩

theorem exSymTables : exSymOld.Ok ∧ exSymNew.Ok ∧ exSymOld.getSymbol EPS = some "<eps>" ∧ exSymNew.getSymbol EPS = some "<eps>" :=
  ⟨(SymTable.foldl_addSymbol _ SymTable.ok_new _).1, (SymTable.foldl_addSymbol _ SymTable.ok_new _).1, by decide +kernel, by decide +kernel⟩

theorem exSym_relabel : (exSymFst.relabelTables none exSymNew true none exSymNew false).2 = .ok () ∧
    (exSymFst.relabelTables none exSymNew true none exSymNew false).1.fst.trsOf 0 = [⟨3, 4, 2, 1⟩, ⟨4, 3, 5, 2⟩] ∧
    (exSymFst.relabelTables none exSymNew true none exSymNew false).1.fst.trsOf 1 = [⟨0, 2, 3, 2⟩] := by decide +kernel

/-- The hypotheses of `C73_strings` hold here. -/
example (n : Nat) : ((exSymFst.relabelTables none exSymNew true none exSymNew false).1.fst.accPaths n).map (spellPath exSymNew exSymNew) =
    (exSym.accPaths n).map (spellPath exSymOld exSymOld) :=
  (C73_strings exSymFst none none exSymOld exSymOld exSymNew exSymNew true false rfl rfl exSymTables.1 exSymTables.1 exSymTables.2.1
    exSymTables.2.1 exSymTables.2.2.1 exSymTables.2.2.2 exSymTables.2.2.1 exSymTables.2.2.2 exSym_relabel.1 n).1

/-- The strings themselves. -/
example : (match exSymFst.stringPathsIter with
    | .error _ => none
    | .ok it => (it.nexts exSym 9 3).map fun l => l.map fun r => r.map fun p => (p.istring.toOption, p.ostring.toOption, p.path.weight)) =
    some [some (some "b", some "a", 5), some (some "a", some "b c", 6), none] := by decide +kernel

example : exSym.WF ∧ ∀ s, exSym.Accessible s → ¬ exSym.OnCycle s := by
  refine ⟨Fst.wf_of_wfB (by decide), fun s _ => ?_⟩
  have hw : exSym.WF := Fst.wf_of_wfB (by decide)
  have key : ∀ a b, Relation.TransGen exSym.Edge a b → a < b := by
    intro a b h
    induction h with
    | single h =>
      obtain ⟨t, ht, rfl⟩ := h
      have : ∀ s < 3, ∀ t ∈ exSym.trsOf s, s < t.nextstate := by decide +kernel
      exact this _ (lt_of_mem_trsOf ht) t ht
    | tail _ h ih =>
      obtain ⟨t, ht, rfl⟩ := h
      have : ∀ s < 3, ∀ t ∈ exSym.trsOf s, s < t.nextstate := by decide +kernel
      exact lt_trans ih (this _ (lt_of_mem_trsOf ht) t ht)
  intro h
  exact lt_irrefl _ (key s s h)

/-- Lacks the symbol `c`. -/
def exSymShort : SymTable := SymTable.new.addSymbols ["x", "a", "b"]
/-- Two paths, `b` to `a` and `c` to `c`. -/
def exSymTwo : SymFst Nat :=
  ⟨((((Fst.new.addStates 2).setStart 0).addTr 0 ⟨2, 1, 5, 1⟩).addTr 0 ⟨3, 3, 4, 1⟩).setFinal 1 1, some exSymOld, some exSymOld⟩

/-- The strings of the first three paths. -/
def exSymSpell (x : SymFst Nat) : Option (List (Option (Option String × Option String × Nat))) :=
  match x.stringPathsIter with
  | .error _ => none
  | .ok it => (it.nexts x.fst 9 3).map fun l => l.map fun r => r.map fun p => (p.istring.toOption, p.ostring.toOption, p.path.weight)

set_option synthInstance.maxSize 1000 in
/-- Code defect: a failing call is not undone. The symbol `c` is not in the new table, the call fails, and with its old tables still attached
the FST now spells the path from `b` to `a` as a path from `c` to `b`. -/
theorem C73_not_atomic_defect :
    (exSymTwo.relabelTables none exSymShort true none exSymShort true).2 = .error .err ∧
    exSymSpell exSymTwo = some [some (some "b", some "a", 5), some (some "c", some "c", 4), none] ∧
    exSymSpell (exSymTwo.relabelTables none exSymShort true none exSymShort true).1 =
      some [some (some "c", some "b", 5), some (some "c", some "c", 4), none] := by decide +kernel

end Verif
