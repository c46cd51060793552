import Verif.Model.SymTable

/-!
# Byte-level reading and writing (`parsers/utils_parsing.rs`, `parsers/utils_serialization.rs`)

Writers produce a list of bytes (writing to memory never fails). Parsers take the bytes that are left
and return a value and the remaining bytes, or fail (`nom::IResult`). Machine integers are modelled by
`Nat`/`Int` values; every `as` cast of the code is written out with `toU` / `toI`.
-/

namespace Verif
universe u v

/-- The bytes of a stream. -/
abbrev Bytes := List UInt8

/-- A `nom` parser over bytes: `IResult<&[u8], α>`; panics are explicit. -/
def P (α : Type u) := Bytes → R (α × Bytes)

/-- Success without reading. -/
def P.pure {α : Type u} (a : α) : P α := fun i => .ok (a, i)

/-- `let (i, x) = p(i)?; …`. -/
def P.bind {α : Type u} {β : Type v} (p : P α) (f : α → P β) : P β := fun i =>
  match p i with
  | .ok (a, r) => f a r
  | .error e => .error e

/-- Failure. -/
def P.fail {α : Type u} (e : Fail) : P α := fun _ => .error e

/-- `nom::combinator::verify`. -/
def P.verify {α : Type u} (p : P α) (c : α → Bool) : P α :=
  p.bind fun a => if c a then P.pure a else P.fail .err

/-- `nom::multi::count`. -/
def P.count {α : Type u} (p : P α) : Nat → P (List α)
  | 0 => P.pure []
  | n + 1 => p.bind fun a => (P.count p n).bind fun l => P.pure (a :: l)

/-- `nom::bytes::complete::take`. -/
def P.take (n : Nat) : P Bytes := fun i =>
  if i.length < n then .error .err else .ok (i.take n, i.drop n)

/-- The `k` low bytes of `n`, least significant first (`to_le_bytes`). -/
def leBytes : Nat → Nat → Bytes
  | 0, _ => []
  | k + 1, n => UInt8.ofNat n :: leBytes k (n / 256)

/-- The number with the given little-endian bytes. -/
def ofLe : Bytes → Nat
  | [] => 0
  | b :: bs => b.toNat + 256 * ofLe bs

/-- Reinterpret a number as a signed integer of `k` bits (`as i32`, `as i64`). -/
def toI (k : Nat) (n : Nat) : Int := if n < 2 ^ (k - 1) then n else (n : Int) - 2 ^ k

/-- Reinterpret a signed integer as an unsigned integer of `k` bits (`as u32`, `as usize`). -/
def toU (k : Nat) (x : Int) : Nat := (x % 2 ^ k).toNat

/-- `write_bin_u8/u32/u64` (utils_serialization.rs): `k` bytes. -/
def putU (k : Nat) (n : Nat) : Bytes := leBytes k n
/-- `write_bin_i32/i64`: `k` bytes, two's complement. -/
def putI (k : Nat) (x : Int) : Bytes := leBytes k (toU (8 * k) x)
/-- `parse_bin_u8/u32/u64` (utils_parsing.rs). -/
def getU (k : Nat) : P Nat := (P.take k).bind fun b => P.pure (ofLe b)
/-- `parse_bin_i32/i64`. -/
def getI (k : Nat) : P Int := (P.take k).bind fun b => P.pure (toI (8 * k) (ofLe b))

/-- `OpenFstString::new(s).write` (parsers/bin_fst/fst_header.rs 139-145, 158-162): the length
`as i32`, then the UTF-8 bytes. -/
def putStr (s : String) : Bytes :=
  putI 4 (toI 32 (s.toUTF8.data.toList.length % 2 ^ 32)) ++ s.toUTF8.data.toList

/-- `String::from_utf8(s.to_vec()).unwrap()`: panics on invalid UTF-8. -/
def fromUtf8 (b : Bytes) : R String :=
  match String.fromUTF8? ⟨b.toArray⟩ with
  | some s => .ok s
  | none => .error .panic

/-- Lift a result into a parser that reads nothing. -/
def P.lift {α : Type u} (r : R α) : P α := fun i =>
  match r with
  | .ok a => .ok (a, i)
  | .error e => .error e

/-- `OpenFstString::parse` (fst_header.rs 146-157). -/
def getStr : P String :=
  (getI 4).bind fun n => (P.take (toU 64 n)).bind fun b => P.lift (fromUtf8 b)

/-! ## Symbol tables (`parsers/bin_symt/nom_parser.rs`) -/

/-- `SYMBOL_TABLE_MAGIC_NUMBER` (14). -/
def SYMT_MAGIC : Int := 2125658996

/-- `write_bin_symt` (48-65). -/
def putSymt (t : SymTable) : Bytes :=
  putI 4 SYMT_MAGIC ++ (putStr "rustfst_symboltable" ++ (putI 8 (toI 64 t.len) ++ (putI 8 (toI 64 t.len)
    ++ (t.iter.map fun p => putStr p.2 ++ putI 8 (p.1 : Int)).flatten)))

/-- `parse_row_symt` (16-20). -/
def getRowSymt : P (Int × String) :=
  getStr.bind fun s => (getI 8).bind fun k => P.pure (k, s)

/-- The insertion loop of `parse_symbol_table_bin` (31-40). -/
def addRows (t : SymTable) : List (Int × String) → R SymTable
  | [] => .ok t
  | (k, s) :: rows =>
      let (t', l) := t.addSymbol s
      if l ≠ toU 32 k then .error .err else addRows t' rows

/-- `parse_symbol_table_bin` (22-43). -/
def getSymt : P SymTable :=
  ((getI 4).verify fun v => v == SYMT_MAGIC).bind fun _ =>
  getStr.bind fun _ =>
  (getI 8).bind fun _ =>
  (getI 8).bind fun n =>
  (P.count getRowSymt (toU 64 n)).bind fun rows =>
  P.lift (addRows SymTable.empty rows)

/-- `SymbolTable::read` (symbol_table.rs 73-92) on the content of the file: trailing bytes are
ignored. -/
def readSymt (b : Bytes) : R SymTable :=
  match getSymt b with
  | .ok (t, _) => .ok t
  | .error e => .error e

end Verif
