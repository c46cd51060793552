import Verif.Model.Weights
import Verif.Model.Text

/-!
# Reading and writing string, product and union weights

The `SerializableSemiring` implementations of string_weight.rs, product_weight.rs and union_weight.rs; the gallic weights delegate to
them (gallic_weight.rs 221-245, 481-505).
-/

namespace Verif
universe u v

/-! ## String weights (string_weight.rs 217-303) -/

namespace StrW

/-- `write_binary` (280-294). -/
def put : StrW → Bytes
  | inf => putI 4 1 ++ putI 4 (-1)
  | labels l => putI 4 (toI 32 (l.length % 2 ^ 32)) ++ (l.map fun x => putI 4 (toI 32 x)).flatten

/-- `parse_binary` (266-278). -/
def get : P StrW :=
  (getI 4).bind fun n => (P.count (getI 4) (toU 64 n)).bind fun ls =>
    P.pure (if ls = [-1] then inf else labels (ls.map (toU 32)))

/-- The binary half of `SerializableSemiring` (257-294); `ty` is `restricted_string`, `left_string` or `right_string`. -/
@[reducible] def codec (ty : String) : WeightCodec StrW := ⟨ty, put, get⟩

/-- The labels joined by `_` (225-232). -/
def showLabels : List Label → List Char
  | [] => []
  | [x] => showNat x
  | x :: l => showNat x ++ '_' :: showLabels l

/-- `Display` (217-237). -/
def showStr : StrW → List Char
  | inf => "Infinity".toList
  | labels [] => "Epsilon".toList
  | labels l => showLabels l

/-- The loop of `separated_list0(tag("_"), num)` after the first number; the length of the text is enough fuel. -/
def moreLabels : Nat → List Char → List Label × List Char
  | 0, i => ([], i)
  | n + 1, i =>
    match tag ['_'] i with
    | none => ([], i)
    | some (_, j) =>
      match num j with
      | none => ([], i)
      | some (x, k) => (x :: (moreLabels n k).1, (moreLabels n k).2)

/-- `parse_text_labels` (251-254). -/
def labelsText (i : List Char) : List Label × List Char :=
  match num i with
  | none => ([], i)
  | some (x, j) => (x :: (moreLabels j.length j).1, (moreLabels j.length j).2)

/-- `parse_text` (296-303): `alt` of the three; the last never fails. -/
def parseText : T StrW := fun i =>
  match tag "Infinity".toList i with
  | some (_, j) => some (inf, j)
  | none =>
    match tag "Epsilon".toList i with
    | some (_, j) => some (labels [], j)
    | none => some (labels (labelsText i).1, (labelsText i).2)

instance : TextCodec StrW := ⟨showStr, parseText⟩

end StrW

/-! ## Product weights (product_weight.rs 169-206) -/

section
variable {A : Type u} {B : Type v}

/-- `write_binary` (195-199). -/
def prodPut (a : A → Bytes) (b : B → Bytes) (w : A × B) : Bytes := a w.1 ++ b w.2

/-- `parse_binary` (189-193). -/
def prodGet (a : P A) (b : P B) : P (A × B) := a.bind fun x => b.bind fun y => P.pure (x, y)

/-- The binary half (185-199). -/
@[reducible] def prodCodec (a : WeightCodec A) (b : WeightCodec B) : WeightCodec (A × B) :=
  ⟨a.weightType ++ "_X_" ++ b.weightType, prodPut a.put b.put, prodGet a.get b.get⟩

/-- `parse_text` (201-206). -/
def prodParse [TextCodec A] [TextCodec B] : T (A × B) := fun i =>
  match TextCodec.parse (W := A) i with
  | none => none
  | some (x, i) =>
    match tag [','] i with
    | none => none
    | some (_, i) =>
      match TextCodec.parse (W := B) i with
      | none => none
      | some (y, i) => some ((x, y), i)

/-- `Display` (169-178) and `parse_text`. -/
instance instTextProd [TextCodec A] [TextCodec B] : TextCodec (A × B) :=
  ⟨fun w => TextCodec.show' w.1 ++ ',' :: TextCodec.show' w.2, prodParse⟩

end

/-! ## Union weights (union_weight.rs 260-323) -/

section
variable {W : Type u}

/-- `write_binary` (311-317). -/
def unionPut (c : W → Bytes) (l : List W) : Bytes := putI 4 (toI 32 (l.length % 2 ^ 32)) ++ (l.map c).flatten

/-- `parse_binary` (305-309). -/
def unionGet (p : P W) : P (List W) := (getI 4).bind fun n => P.count p (toU 64 n)

/-- The binary half (301-317). -/
@[reducible] def unionCodec (c : WeightCodec W) : WeightCodec (List W) :=
  ⟨c.weightType ++ "_union", unionPut c.put, unionGet c.get⟩

variable [TextCodec W]

/-- The weights joined by `,` (285-291). -/
def showWeights : List W → List Char
  | [] => []
  | [w] => TextCodec.show' w
  | w :: l => TextCodec.show' w ++ ',' :: showWeights l

/-- `Display` (276-294). -/
def showUnion (l : List W) : List Char := if l = [] then "EmptySet".toList else showWeights l

/-- The loop of `separated_list0(tag(","), W::parse_text)` after the first weight. -/
def moreWeights : Nat → List Char → List W × List Char
  | 0, i => ([], i)
  | n + 1, i =>
    match tag [','] i with
    | none => ([], i)
    | some (_, j) =>
      match TextCodec.parse (W := W) j with
      | none => ([], i)
      | some (x, k) => (x :: (moreWeights n k).1, (moreWeights n k).2)

/-- `parse_text` (319-322): `EmptySet`, or a list that may be empty (265-273). -/
def parseUnion : T (List W) := fun i =>
  match tag "EmptySet".toList i with
  | some (_, j) => some ([], j)
  | none =>
    match TextCodec.parse (W := W) i with
    | none => some ([], i)
    | some (x, j) => some (x :: (moreWeights j.length j).1, (moreWeights (W := W) j.length j).2)

/-- `UnionWeight` as text. -/
@[reducible] def unionText : TextCodec (List W) := ⟨showUnion, parseUnion⟩

end
end Verif
