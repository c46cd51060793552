import Verif.Model.BinFst

/-!
# Text formats (`parsers/text_fst/*`, `parsers/text_symt/*`, `fst_traits/macros.rs`)

Text is a list of characters. Parsers are `nom` parsers over `&str` with the default error type: they
return a value and the remaining text, or fail (`nom::Err::Error`); none of them panics.
-/

namespace Verif
universe u v
variable {W : Type u}

/-- A `nom` parser over text. -/
abbrev T (α : Type u) := List Char → Option (α × List Char)

/-- `Display` of an unsigned integer. -/
def showNat (n : Nat) : List Char := Nat.toDigits 10 n

/-- `num` (parsers/nom_utils.rs 32-34) at type `u32`: `digit1`, then `parse::<u32>()`. -/
def num : T Nat := fun i =>
  let ds := i.takeWhile Char.isDigit
  if ds = [] then none
  else if Nat.ofDigitChars 10 ds 0 < 2 ^ 32 then some (Nat.ofDigitChars 10 ds 0, i.dropWhile Char.isDigit)
  else none

/-- `tag` / `tab`: a fixed text. -/
def tag (t : List Char) : T Unit := fun i => if t.isPrefixOf i then some ((), i.drop t.length) else none

/-! ## Symbol tables -/

/-- The characters of a `word` (nom_utils.rs 36-39). -/
def wordChar (c : Char) : Bool := c != ' ' && c != '\t' && c != '\n'

/-- `word` (nom_utils.rs 36-39): may be empty. -/
def word : T String := fun i => some (String.ofList (i.takeWhile wordChar), i.dropWhile wordChar)

/-- `space1`: one or more spaces or tabs. -/
def space1 : T Unit := fun i =>
  if (i.takeWhile fun c => c == ' ' || c == '\t') = [] then none
  else some ((), i.dropWhile fun c => c == ' ' || c == '\t')

/-- `terminated(row, tag("\n"))` (text_symt/nom_parser.rs 13-22). -/
def symtRow : T (String × Label) := fun i =>
  match word i with
  | none => none
  | some (s, i) =>
    match space1 i with
    | none => none
    | some (_, i) =>
      match num i with
      | none => none
      | some (l, i) =>
        match tag ['\n'] i with
        | none => none
        | some (_, i) => some ((s, l), i)

/-- `many0` (text_symt/nom_parser.rs 20-22): rows until one does not parse; the rest of the text is dropped by the
callers. Every row reads at least one character, so the length of the text is enough fuel. -/
def symtRows : Nat → List Char → List (String × Label)
  | 0, _ => []
  | n + 1, i =>
    match symtRow i with
    | none => []
    | some (r, i) => r :: symtRows n i

/-- `SymbolTable::from_parsed_symt_text` (symbol_table.rs 51-61). -/
def addTextRows (t : SymTable) : List (String × Label) → R SymTable
  | [] => .ok t
  | (s, l) :: rows =>
      let (t', n) := t.getIdOrInsert s
      if n ≠ l then .error .err else addTextRows t' rows

/-- `SymbolTable::from_text_string` (symbol_table.rs 63-66). -/
def symtOfText (i : List Char) : R SymTable := addTextRows SymTable.empty (symtRows i.length i)

/-- `Display for SymbolTable` (symbol_table.rs 284-300), `text`, `write_text`. `iter` is already sorted by label. -/
def symtText (t : SymTable) : List Char :=
  (t.iter.map fun p => p.2.toList ++ ('\t' :: (showNat p.1 ++ ['\n']))).flatten

/-! ## FSTs -/

/-- `SerializableSemiring`: the text half (`Display` and `parse_text`). -/
class TextCodec (W : Type u) where
  /-- `Display` -/
  show' : W → List Char
  /-- `parse_text` -/
  parse : T W

/-- `RowParsed` (text_fst/parsed_text_fst.rs 10-15). -/
inductive Row (W : Type u) where
  | tr (state ilabel olabel : Nat) (weight : Option W) (nextstate : Nat)
  | fin (state : Nat) (weight : Option W)
  | inf (state : Nat)
deriving DecidableEq, Repr

section
variable [TextCodec W]

/-- `opt(preceded(tab, W::parse_text))` (text_fst/nom_parser.rs 13-15). -/
def optWeight (i : List Char) : Option W × List Char :=
  match tag ['\t'] i with
  | none => (none, i)
  | some (_, j) =>
    match TextCodec.parse (W := W) j with
    | none => (none, i)
    | some (w, k) => (some w, k)

/-- `transition` (17-38). -/
def transitionRow : T (Row W) := fun i =>
  match num i with
  | none => none
  | some (s, i) =>
  match tag ['\t'] i with
  | none => none
  | some (_, i) =>
  match num i with
  | none => none
  | some (ns, i) =>
  match tag ['\t'] i with
  | none => none
  | some (_, i) =>
  match num i with
  | none => none
  | some (il, i) =>
  match tag ['\t'] i with
  | none => none
  | some (_, i) =>
  match num i with
  | none => none
  | some (ol, i) => some (.tr s il ol (optWeight i).1 ns, (optWeight (W := W) i).2)

/-- `final_state` (39-43). -/
def finalRow : T (Row W) := fun i =>
  match num i with
  | none => none
  | some (s, i) => some (.fin s (optWeight i).1, (optWeight (W := W) i).2)

/-- `infinity_final_state` (45-50). -/
def infRow : T (Row W) := fun i =>
  match num i with
  | none => none
  | some (s, i) =>
  match tag ['\t'] i with
  | none => none
  | some (_, i) =>
  match tag "Infinity".toList i with
  | none => none
  | some (_, i) => some (.inf s, i)

/-- `row_parsed` (52-54): `alt((transition, infinity_final_state, final_state))`. -/
def rowParsed : T (Row W) := fun i =>
  match transitionRow i with
  | some r => some r
  | none =>
    match infRow i with
    | some r => some r
    | none => finalRow i

/-- The loop of `separated_list0(tag("\n"), row_parsed)` (56-58) after the first row. Every round reads at least two
characters, so the length of the text is enough fuel. -/
def moreRows : Nat → List Char → List (Row W)
  | 0, _ => []
  | n + 1, i =>
    match tag ['\n'] i with
    | none => []
    | some (_, i) =>
      match rowParsed i with
      | none => []
      | some (r, i) => r :: moreRows n i

/-- `vec_rows_parsed` (56-58). The rest of the text is dropped by `ParsedTextFst::from_string`. -/
def textRows (i : List Char) : List (Row W) :=
  match rowParsed i with
  | none => []
  | some (r, j) => r :: moreRows i.length j

end

/-- `ParsedTextFst::start` (parsed_text_fst.rs 94-101, 142-144). -/
def rowsStart : List (Row W) → Option StateId
  | [] => none
  | .tr s _ _ _ _ :: _ => some s
  | .fin s _ :: _ => some s
  | .inf s :: _ => some s

/-- The state ids that `ParsedTextFst::num_states` looks at for one row (146-157). -/
def Row.ids : Row W → List StateId
  | .tr s _ _ _ ns => [s, ns]
  | .fin s _ => [s]
  | .inf _ => []

/-- `ParsedTextFst::num_states` (146-157): the largest id mentioned plus one. -/
def rowsNumStates (rows : List (Row W)) : Nat :=
  ((rows.flatMap Row.ids) ++ (rowsStart rows).toList).foldl (fun n s => max n (s + 1)) 0

/-- The transitions of the parsed text, in order (`transitions`). -/
def rowTr [One W] : Row W → Option (StateId × Tr W)
  | .tr s il ol w ns => some (s, ⟨il, ol, w.getD 1, ns⟩)
  | _ => none

/-- The final states of the parsed text, in order (`final_states`). -/
def rowFin [One W] : Row W → Option (StateId × W)
  | .fin s w => some (s, w.getD 1)
  | _ => none

/-- `VectorFst::from_parsed_fst_text` (vector_fst/serializable_fst.rs 90-124). `add_tr` and `set_final` are the methods of
`VectorFst`; the states exist, so they cannot fail (their failure is an error). -/
def fromRows [Zero W] [One W] [DecidableEq W] (rows : List (Row W)) : R (Fst W) :=
  let f : Fst W := ⟨List.replicate (rowsNumStates rows) State.new, rowsStart rows, Props.empty⟩
  let f := (rows.filterMap rowTr).foldl (fun f p => f.addTr p.1 p.2) f
  let f := (rows.filterMap rowFin).foldl (fun f p => f.setFinal p.1 p.2) f
  match f.computeAndUpdate Props.allMask with
  | .ok (f, _) => .ok f
  | .error e => .error e

/-- `from_text_string` (fst_traits/serializable_fst.rs 57-60). -/
def fstOfText [TextCodec W] [Zero W] [One W] [DecidableEq W] (i : List Char) : R (Fst W) := fromRows (textRows i)

/-- A line for one transition (fst_traits/macros.rs 26-43, `show_weight_one = true`, `use_symt = false`). -/
def trLine [TextCodec W] (s : StateId) (t : Tr W) : List Char :=
  showNat s ++ '\t' :: (showNat t.nextstate ++ '\t' :: (showNat t.ilabel ++ '\t' :: (showNat t.olabel ++
    '\t' :: (TextCodec.show' t.weight ++ ['\n']))))

/-- A line for one final state (macros.rs 58-67). -/
def finLine [TextCodec W] (s : StateId) (w : W) : List Char :=
  showNat s ++ '\t' :: (TextCodec.show' w ++ ['\n'])

/-- The line of one state in the loop over the final states (macros.rs 59-68): `final_states_iter` yields the states with a
stored final weight (fst_traits/fst.rs 253-262, `is_final_unchecked` 131-133). -/
def finText [TextCodec W] (f : Fst W) (s : StateId) : List Char :=
  match f.finOf s with
  | some w => finLine s w
  | none => []

/-- `write_fst!` (macros.rs 46-71): the transitions of the start state, those of the other states, the final states.
`text()` and `write_text` (serializable_fst.rs 69-83). -/
def fstText [TextCodec W] (f : Fst W) : List Char :=
  match f.start with
  | none => []
  | some i =>
    ((f.trsOf i).map (trLine i)).flatten ++
    ((((List.range f.numStates).filter (· ≠ i)).map fun s => ((f.trsOf s).map (trLine s)).flatten).flatten ++
    ((List.range f.numStates).map (finText f)).flatten)

/-! ## `IntegerWeight` -/

/-- `nom::character::complete::sign`. -/
def sign : List Char → Bool × List Char
  | '-' :: r => (true, r)
  | '+' :: r => (false, r)
  | i => (false, i)

/-- `nom::character::complete::i32`: an optional sign and digits, within the range of `i32`. -/
def int32 : T Int := fun i =>
  let ds := (sign i).2.takeWhile Char.isDigit
  let v : Int := if (sign i).1 then -(Nat.ofDigitChars 10 ds 0) else Nat.ofDigitChars 10 ds 0
  if ds = [] then none
  else if -2 ^ 31 ≤ v ∧ v < 2 ^ 31 then some (v, (sign i).2.dropWhile Char.isDigit) else none

/-- `Display` of an `i32`. -/
def showInt (v : Int) : List Char := if v < 0 then '-' :: showNat v.natAbs else showNat v.natAbs

/-- `IntegerWeight` (semirings/integer_weight.rs 98-121; `display_semiring!` prints the value). -/
instance : TextCodec Int where
  show' := showInt
  parse := int32

end Verif
