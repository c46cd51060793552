import Verif.Model.Core

/-!
# Symbol tables (`symbol_table.rs`)

`BiHashMapString` (symbol_table.rs 336-340) holds a hash map from strings to ids and a vector from
ids to strings. The hash map is modelled by its content: a function to `Option`. Ids are `usize` and
labels `u32` in the code; both are `Nat` here, so `as Label` is the identity (a table with `2^32`
symbols or more is outside the model).
-/

namespace Verif

/-- `EPS_SYMBOL` (lib.rs). -/
def EPS_SYMBOL : String := "<eps>"

/-- `SymbolTable` with its `BiHashMapString` (symbol_table.rs 17-21, 336-340). -/
structure SymTable where
  /-- `string_to_id` -/
  ids : String → Option Nat
  /-- `id_to_string` -/
  names : List String

namespace SymTable

/-- `SymbolTable::empty` / `BiHashMapString::new` (45-49, 348-355). -/
def empty : SymTable := ⟨fun _ => none, []⟩

/-- `HashMap::insert`. -/
def insertId (m : String → Option Nat) (k : String) (n : Nat) : String → Option Nat :=
  fun x => if x = k then some n else m x

/-- `BiHashMapString::get_id_or_insert` (370-380): the new table and the id. -/
def getIdOrInsert (t : SymTable) (v : String) : SymTable × Nat :=
  match t.ids v with
  | some n => (t, n)
  | none => (⟨insertId t.ids v t.names.length, t.names ++ [v]⟩, t.names.length)

/-- `SymbolTable::add_symbol` (119-121). -/
def addSymbol (t : SymTable) (v : String) : SymTable × Label := t.getIdOrInsert v

/-- `SymbolTable::add_symbols` (123-127). -/
def addSymbols (t : SymTable) (vs : List String) : SymTable :=
  vs.foldl (fun t v => (t.addSymbol v).1) t

/-- `SymbolTable::symbols` (236-238). -/
def symbols (t : SymTable) : List String := t.names

/-- `SymbolTable::add_table` (247-251). -/
def addTable (t : SymTable) (o : SymTable) : SymTable :=
  o.symbols.foldl (fun t v => (t.addSymbol v).1) t

/-- `SymbolTable::new` and `with_hasher` (37-43, 95-99). -/
def new : SymTable := (empty.addSymbol EPS_SYMBOL).1

/-- `SymbolTable::len` (138-140). -/
def len (t : SymTable) : Nat := t.names.length

/-- `SymbolTable::get_label` (155-157). -/
def getLabel (t : SymTable) (s : String) : Option Label := t.ids s

/-- `SymbolTable::get_symbol` (172-174). -/
def getSymbol (t : SymTable) (l : Label) : Option String := t.names[l]?

/-- `SymbolTable::contains_symbol` (186-188). -/
def containsSymbol (t : SymTable) (s : String) : Bool := (t.getLabel s).isSome

/-- `SymbolTable::contains_label` (201-203). -/
def containsLabel (t : SymTable) (l : Label) : Bool := (t.getSymbol l).isSome

/-- `SymbolTable::labels` (223-225). -/
def labels (t : SymTable) : List Label := List.range t.names.length

/-- `SymbolTable::iter` (242-244). -/
def iter (t : SymTable) : List (Label × String) := (t.names.zipIdx).map fun p => (p.2, p.1)

end SymTable

/-- One call that can change a table. The tables passed to `add_table` are themselves built by a
history. -/
inductive SymOp where
  | addSymbol (s : String)
  | addSymbols (l : List String)
  | addTable (fresh : Bool) (h : List SymOp)

mutual
/-- Run one call. -/
def SymOp.run (t : SymTable) : SymOp → SymTable
  | .addSymbol s => (t.addSymbol s).1
  | .addSymbols l => t.addSymbols l
  | .addTable fresh h => t.addTable (runSymOps (if fresh then SymTable.new else SymTable.empty) h)
/-- Run a history of calls. -/
def runSymOps (t : SymTable) : List SymOp → SymTable
  | [] => t
  | o :: os => runSymOps (SymOp.run t o) os
end

end Verif
