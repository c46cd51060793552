import Verif.Model.SymTable
import Mathlib.Data.List.Nodup

/-!
# C08, C09: symbol tables are bijections and labels are stable
-/

namespace Verif
open SymTable

/-- The hash map and the vector agree. -/
def SymTable.Ok (t : SymTable) : Prop :=
  ∀ s n, t.getLabel s = some n ↔ t.getSymbol n = some s

namespace SymTable

theorem ok_empty : empty.Ok := by
  intro s n; simp [getLabel, getSymbol, empty]

theorem addSymbol_of_some {t : SymTable} {v : String} {n : Nat} (h : t.getLabel v = some n) :
    t.addSymbol v = (t, n) := by
  simp only [addSymbol, getIdOrInsert, getLabel] at h ⊢
  rw [h]

theorem addSymbol_of_none {t : SymTable} {v : String} (h : t.getLabel v = none) :
    t.addSymbol v = (⟨insertId t.ids v t.names.length, t.names ++ [v]⟩, t.len) := by
  simp only [addSymbol, getIdOrInsert, getLabel, len] at h ⊢
  rw [h]

theorem ok_addSymbol {t : SymTable} (ht : t.Ok) (v : String) : (t.addSymbol v).1.Ok := by
  cases h : t.getLabel v with
  | some n => rw [addSymbol_of_some h]; exact ht
  | none =>
    rw [addSymbol_of_none h]
    intro s n
    simp only [getLabel, getSymbol, insertId]
    have hlt : ∀ s n, t.ids s = some n → n < t.names.length := fun s n hs =>
      (List.getElem?_eq_some_iff.1 ((ht s n).1 hs)).1
    by_cases hs : s = v
    · subst hs
      rw [if_pos rfl]
      constructor
      · intro e; cases e; simp
      · intro e
        by_cases hn : n < t.names.length
        · rw [List.getElem?_append_left hn] at e
          have := (ht s n).2 e
          rw [h] at this; cases this
        · have : n < (t.names ++ [s]).length := (List.getElem?_eq_some_iff.1 e).1
          simp at this
          congr 1; omega
    · rw [if_neg hs]
      constructor
      · intro e
        rw [List.getElem?_append_left (hlt s n e)]
        exact (ht s n).1 e
      · intro e
        by_cases hn : n < t.names.length
        · rw [List.getElem?_append_left hn] at e
          exact (ht s n).2 e
        · have : n < (t.names ++ [v]).length := (List.getElem?_eq_some_iff.1 e).1
          simp at this
          obtain rfl : n = t.names.length := by omega
          simp at e
          exact absurd e.symm hs

/-- `t'` extends `t`: old labels and symbols keep their meaning. -/
def Extends (t t' : SymTable) : Prop := ∃ l, t'.names = t.names ++ l

theorem Extends.refl (t : SymTable) : Extends t t := ⟨[], by simp⟩

theorem Extends.trans {a b c : SymTable} (h : Extends a b) (k : Extends b c) : Extends a c := by
  obtain ⟨l, hl⟩ := h; obtain ⟨m, hm⟩ := k
  exact ⟨l ++ m, by rw [hm, hl, List.append_assoc]⟩

theorem extends_addSymbol (t : SymTable) (v : String) : Extends t (t.addSymbol v).1 := by
  cases h : t.getLabel v with
  | some n => rw [addSymbol_of_some h]; exact Extends.refl t
  | none => rw [addSymbol_of_none h]; exact ⟨[v], rfl⟩

theorem foldl_addSymbol (t : SymTable) (ht : t.Ok) (l : List String) :
    (l.foldl (fun t v => (t.addSymbol v).1) t).Ok ∧
      Extends t (l.foldl (fun t v => (t.addSymbol v).1) t) := by
  induction l generalizing t with
  | nil => exact ⟨ht, Extends.refl t⟩
  | cons a l ih =>
    have := ih _ (ok_addSymbol ht a)
    exact ⟨this.1, (extends_addSymbol t a).trans this.2⟩

theorem ok_new : new.Ok := ok_addSymbol ok_empty _

theorem run_ok (t : SymTable) (ht : t.Ok) (o : SymOp) :
    (o.run t).Ok ∧ Extends t (o.run t) := by
  cases o with
  | addSymbol s => rw [SymOp.run]; exact ⟨ok_addSymbol ht s, extends_addSymbol t s⟩
  | addSymbols l => rw [SymOp.run]; exact foldl_addSymbol t ht l
  | addTable fr h => rw [SymOp.run]; exact foldl_addSymbol t ht _

theorem runs_ok (t : SymTable) (ht : t.Ok) (h : List SymOp) :
    (runSymOps t h).Ok ∧ Extends t (runSymOps t h) := by
  induction h generalizing t with
  | nil => rw [runSymOps]; exact ⟨ht, Extends.refl t⟩
  | cons o os ih =>
    rw [runSymOps]
    have h1 := run_ok t ht o
    have h2 := ih _ h1.1
    exact ⟨h2.1, h1.2.trans h2.2⟩

theorem ok_start (fresh : Bool) : (if fresh then new else empty).Ok := by
  cases fresh
  · exact ok_empty
  · exact ok_new

/-- The labels given out by a lookup after adding one symbol to a good table. -/
theorem getSymbol_extends {t t' : SymTable} (e : Extends t t') {n : Nat} {s : String}
    (h : t.getSymbol n = some s) : t'.getSymbol n = some s := by
  obtain ⟨l, hl⟩ := e
  simp only [getSymbol] at h ⊢
  rw [hl, List.getElem?_append_left (List.getElem?_eq_some_iff.1 h).1]
  exact h

theorem getLabel_extends {t t' : SymTable} (ht : t.Ok) (ht' : t'.Ok) (e : Extends t t') {n : Nat}
    {s : String} (h : t.getLabel s = some n) : t'.getLabel s = some n :=
  (ht' s n).2 (getSymbol_extends e ((ht s n).1 h))

/-- After adding `v`, the symbols present are the old ones and `v`. -/
theorem mem_addSymbol {t : SymTable} (ht : t.Ok) (v s : String) :
    s ∈ (t.addSymbol v).1.symbols ↔ s ∈ t.symbols ∨ s = v := by
  cases h : t.getLabel v with
  | some n =>
    rw [addSymbol_of_some h]
    refine ⟨Or.inl, fun k => k.elim id ?_⟩
    rintro rfl
    exact List.mem_of_getElem? ((ht s n).1 h)
  | none =>
    rw [addSymbol_of_none h]
    simp [symbols]

theorem mem_foldl_addSymbol {t : SymTable} (ht : t.Ok) (l : List String) (s : String) :
    s ∈ (l.foldl (fun t v => (t.addSymbol v).1) t).symbols ↔ s ∈ t.symbols ∨ s ∈ l := by
  induction l generalizing t with
  | nil => simp
  | cons a l ih =>
    rw [List.foldl_cons, ih (ok_addSymbol ht a), mem_addSymbol ht]
    simp only [List.mem_cons]
    constructor
    · rintro ((h | h) | h)
      · exact .inl h
      · exact .inr (.inl h)
      · exact .inr (.inr h)
    · rintro (h | h | h)
      · exact .inl (.inl h)
      · exact .inl (.inr h)
      · exact .inr h

end SymTable

mutual
/-- The strings a call passes in (for `add_table`: those of the table that is added). -/
def SymOp.Adds : SymOp → String → Prop
  | .addSymbol v, s => s = v
  | .addSymbols l, s => s ∈ l
  | .addTable fresh h, s => (fresh = true ∧ s = EPS_SYMBOL) ∨ AddsAny h s
/-- The strings a history passes in. -/
def AddsAny : List SymOp → String → Prop
  | [], _ => False
  | o :: os, s => SymOp.Adds o s ∨ AddsAny os s
end

theorem mem_start (fresh : Bool) (s : String) :
    s ∈ (if fresh then SymTable.new else SymTable.empty).symbols ↔ (fresh = true ∧ s = EPS_SYMBOL) := by
  cases fresh
  · simp [SymTable.empty, SymTable.symbols]
  · have : s ∈ SymTable.new.symbols ↔ _ := SymTable.mem_addSymbol SymTable.ok_empty EPS_SYMBOL s
    simp only [if_true, true_and]
    rw [this]
    simp [SymTable.empty, SymTable.symbols]

mutual
theorem mem_run (t : SymTable) (ht : t.Ok) (s : String) : (o : SymOp) →
    (s ∈ (o.run t).symbols ↔ s ∈ t.symbols ∨ o.Adds s)
  | .addSymbol v => by rw [SymOp.run, SymOp.Adds]; exact SymTable.mem_addSymbol ht v s
  | .addSymbols l => by rw [SymOp.run, SymOp.Adds]; exact SymTable.mem_foldl_addSymbol ht l s
  | .addTable fresh h => by
    rw [SymOp.run, SymOp.Adds]
    refine (SymTable.mem_foldl_addSymbol ht _ s).trans (or_congr Iff.rfl ?_)
    rw [mem_runs _ (SymTable.ok_start fresh) s h, mem_start]
theorem mem_runs (t : SymTable) (ht : t.Ok) (s : String) : (h : List SymOp) →
    (s ∈ (runSymOps t h).symbols ↔ s ∈ t.symbols ∨ AddsAny h s)
  | [] => by rw [runSymOps, AddsAny]; simp
  | o :: os => by
    rw [runSymOps, AddsAny, mem_runs _ (SymTable.run_ok t ht o).1 s os, mem_run t ht s o, or_assoc]
end

/-- **C08.** Whatever history of `add_symbol` / `add_symbols` / `add_table` calls built the table
(starting from `new()` or `empty()`):
`get_label` and `get_symbol` are mutually inverse; the labels in use are exactly `0..len()`;
the symbols present are exactly the ones that were added; `labels()`, `symbols()` and `iter()`
list this same bijection; and a table started with `new()` has `<eps>` at label 0. -/
theorem C08_bijection (fresh : Bool) (h : List SymOp) (t : SymTable)
    (e : t = runSymOps (if fresh then SymTable.new else SymTable.empty) h) :
    (∀ s n, t.getLabel s = some n ↔ t.getSymbol n = some s) ∧
      (∀ n, (∃ s, t.getSymbol n = some s) ↔ n < t.len) ∧
      (∀ s, (∃ n, t.getLabel s = some n) ↔ (fresh = true ∧ s = EPS_SYMBOL) ∨ AddsAny h s) ∧
      (∀ n s, (n, s) ∈ t.iter ↔ t.getSymbol n = some s) ∧
      t.iter.map (·.1) = t.labels ∧ t.iter.map (·.2) = t.symbols ∧
      t.labels = List.range t.len ∧ t.symbols.Nodup ∧
      (fresh = true → t.getSymbol 0 = some EPS_SYMBOL ∧ t.getLabel EPS_SYMBOL = some 0) := by
  subst e
  have hst := SymTable.ok_start fresh
  obtain ⟨hok, hext⟩ := SymTable.runs_ok _ hst h
  have hmem := mem_runs _ hst
  obtain ⟨t, ht⟩ : ∃ t, t = runSymOps (if fresh then SymTable.new else SymTable.empty) h := ⟨_, rfl⟩
  rw [← ht] at hok hext ⊢
  refine ⟨hok, ?_, ?_, ?_, ?_, ?_, rfl, ?_, ?_⟩
  · intro n
    simp only [SymTable.getSymbol, SymTable.len]
    exact ⟨fun ⟨s, hs⟩ => (List.getElem?_eq_some_iff.1 hs).1, fun hn => ⟨_, List.getElem?_eq_getElem hn⟩⟩
  · intro s
    have := hmem s h
    rw [mem_start, ← ht] at this
    rw [← this]
    constructor
    · rintro ⟨n, hn⟩; exact List.mem_of_getElem? ((hok s n).1 hn)
    · intro hs
      obtain ⟨n, hn⟩ := List.getElem?_of_mem hs
      exact ⟨n, (hok s n).2 hn⟩
  · intro n s
    simp only [SymTable.iter, List.mem_map, Prod.mk.injEq, Prod.exists, SymTable.getSymbol]
    constructor
    · rintro ⟨a, b, hm, rfl, rfl⟩
      exact List.mem_zipIdx_iff_getElem?.1 hm
    · intro hs
      exact ⟨s, n, List.mem_zipIdx_iff_getElem?.2 hs, rfl, rfl⟩
  · simp only [SymTable.iter, List.map_map, SymTable.labels, Function.comp_def]
    rw [List.zipIdx_map_snd]
    simp [List.range_eq_range']
  · simp only [SymTable.iter, List.map_map, SymTable.symbols, Function.comp_def]
    simp
  · rw [List.nodup_iff_getElem?_ne_getElem?]
    intro i j hij hj hne
    obtain ⟨s, hs⟩ : ∃ s, t.names[i]? = some s := ⟨_, List.getElem?_eq_getElem (by
      have : j < t.names.length := hj
      omega)⟩
    have h1 := (hok s i).2 hs
    have h2 := (hok s j).2 (show t.names[j]? = some s by rw [← hs]; exact hne.symm)
    rw [h1] at h2; cases h2; omega
  · rintro rfl
    have h0 : SymTable.getSymbol (if true = true then SymTable.new else SymTable.empty) 0
        = some EPS_SYMBOL := rfl
    have := SymTable.getSymbol_extends hext h0
    exact ⟨this, (hok _ _).2 this⟩

/-- **C09.** Let a table be built by any history `h`, and continue with any further history `k`.
Every symbol keeps its label and every label its symbol; adding a symbol that is present changes
nothing and returns its label; adding a new symbol returns `len()` and gives exactly that symbol
that label. -/
theorem C09_stability (fresh : Bool) (h k : List SymOp) (t t' : SymTable)
    (e : t = runSymOps (if fresh then SymTable.new else SymTable.empty) h)
    (e' : t' = runSymOps t k) (v : String) :
    (∀ s n, t.getLabel s = some n → t'.getLabel s = some n) ∧
      (∀ n s, t.getSymbol n = some s → t'.getSymbol n = some s) ∧ t.len ≤ t'.len ∧
      (∀ n, t.getLabel v = some n → t.addSymbol v = (t, n)) ∧
      (t.getLabel v = none →
        (t.addSymbol v).2 = t.len ∧ (t.addSymbol v).1.len = t.len + 1 ∧
        (t.addSymbol v).1.getLabel v = some t.len ∧
        ∀ s, s ≠ v → (t.addSymbol v).1.getLabel s = t.getLabel s) := by
  subst e' e
  obtain ⟨hok, -⟩ := SymTable.runs_ok _ (SymTable.ok_start fresh) h
  obtain ⟨t, ht⟩ : ∃ t, t = runSymOps (if fresh then SymTable.new else SymTable.empty) h := ⟨_, rfl⟩
  rw [← ht] at hok ⊢
  obtain ⟨hok', hext⟩ := SymTable.runs_ok t hok k
  refine ⟨fun s n => SymTable.getLabel_extends hok hok' hext, fun n s => SymTable.getSymbol_extends hext,
    ?_, fun n hn => SymTable.addSymbol_of_some hn, fun hn => ?_⟩
  · obtain ⟨l, hl⟩ := hext
    simp only [SymTable.len, hl, List.length_append]; omega
  · rw [SymTable.addSymbol_of_none hn]
    refine ⟨rfl, by simp [SymTable.len], by simp [SymTable.getLabel, SymTable.insertId, SymTable.len],
      fun s hs => by simp [SymTable.getLabel, SymTable.insertId, hs]⟩

/-- Non-vacuity: a history with a repeated symbol and an added table. -/
example : (runSymOps SymTable.new
      [.addSymbol "a", .addSymbols ["b", "a"], .addTable true [.addSymbol "c"]]).symbols
    = ["<eps>", "a", "b", "c"] := by decide

example : (runSymOps SymTable.new [.addSymbol "a"]).getLabel "b" = none ∧
    (runSymOps SymTable.new [.addSymbol "a"]).getLabel "a" = some 1 := by decide

end Verif
