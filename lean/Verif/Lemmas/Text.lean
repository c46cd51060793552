import Verif.Model.Text
import Verif.Lemmas.Parse

/-!
# Reading back printed text
-/

namespace Verif
universe u
variable {W : Type u}

theorem showNat_digit {n : Nat} {c : Char} (h : c ∈ showNat n) : c.isDigit = true :=
  Nat.isDigit_of_mem_toDigits (by omega) (by omega) h

theorem takeWhile_append_stop {α : Type u} {p : α → Bool} {l : List α} (h : ∀ c ∈ l, p c = true) {c : α}
    (hc : p c = false) (r : List α) : (l ++ c :: r).takeWhile p = l ∧ (l ++ c :: r).dropWhile p = c :: r := by
  induction l with
  | nil => simp [hc]
  | cons a l ih =>
    have := ih fun c hc => h c (List.mem_cons_of_mem _ hc)
    simp [h a (List.mem_cons_self ..), this]

/-- Reading a printed number followed by something else than a digit. -/
theorem num_showNat {n : Nat} (h : n < 2 ^ 32) {c : Char} (hc : c.isDigit = false) (r : List Char) :
    num (showNat n ++ c :: r) = some (n, c :: r) := by
  obtain ⟨h1, h2⟩ := takeWhile_append_stop (fun _ h => showNat_digit (n := n) h) hc r
  simp only [num, h1, h2]
  rw [if_neg (show showNat n ≠ [] from Nat.toDigits_ne_nil), showNat, Nat.ofDigitChars_ten_toDigits, if_pos h]

@[simp] theorem tag_self (t r : List Char) : tag t (t ++ r) = some ((), r) := by
  simp [tag, List.isPrefixOf_iff_prefix]

@[simp] theorem tag_single (c : Char) (r : List Char) : tag [c] (c :: r) = some ((), r) := tag_self [c] r

theorem tag_single_ne {c d : Char} (h : c ≠ d) (r : List Char) : tag [c] (d :: r) = none := by
  simp [tag, List.isPrefixOf, h]

@[simp] theorem tag_single_nil (c : Char) : tag [c] [] = none := rfl

/-- `tag t` fails on a line that does not begin with `t`. -/
theorem tag_line {t l : List Char} (hn : '\n' ∉ t) (h : ¬ t <+: l) (r : List Char) : tag t (l ++ '\n' :: r) = none := by
  unfold tag
  rw [if_neg]
  rw [List.isPrefixOf_iff_prefix]
  intro hp
  rcases Nat.lt_or_ge l.length t.length with hl | hl
  · obtain ⟨s, hs⟩ := hp
    have : (t ++ s)[l.length]? = some '\n' := by rw [hs]; simp
    rw [List.getElem?_append_left hl] at this
    exact hn (List.mem_of_getElem? this)
  · exact h ((List.prefix_append_right_inj []).1 (by
      simpa using List.prefix_of_prefix_length_le hp (List.prefix_append l _) hl))

/-! ## Symbol tables -/

/-- The symbols the text format can carry. -/
def TextSym (s : String) : Prop := ∀ c ∈ s.toList, c ≠ ' ' ∧ c ≠ '\t' ∧ c ≠ '\n'

theorem symtRow_print {s : String} {n : Nat} (hs : TextSym s) (hn : n < 2 ^ 32) (r : List Char) :
    symtRow (s.toList ++ ('\t' :: (showNat n ++ ['\n'])) ++ r) = some ((s, n), r) := by
  have h1 := takeWhile_append_stop (p := wordChar) (l := s.toList) (fun c hc => by
    obtain ⟨a, b, d⟩ := hs c hc; simp [wordChar, a, b, d]) (c := '\t') (by decide) (showNat n ++ '\n' :: r)
  have e : s.toList ++ ('\t' :: (showNat n ++ ['\n'])) ++ r = s.toList ++ '\t' :: (showNat n ++ '\n' :: r) := by simp
  rw [e]
  simp only [symtRow, word, h1.1, h1.2, String.ofList_toList]
  have h2 : ∃ c l, showNat n ++ '\n' :: r = c :: l ∧ (c == ' ' || c == '\t') = false := by
    cases hh : showNat n with
    | nil => exact absurd hh Nat.toDigits_ne_nil
    | cons c l =>
      refine ⟨c, l ++ '\n' :: r, rfl, ?_⟩
      have : c.isDigit = true := showNat_digit (n := n) (by rw [hh]; simp)
      cases hc : (c == ' ' || c == '\t') with
      | false => rfl
      | true =>
        exfalso
        simp only [Bool.or_eq_true, beq_iff_eq] at hc
        rcases hc with rfl | rfl <;> exact absurd this (by decide)
  obtain ⟨c, l, h3, h4⟩ := h2
  have h5 := takeWhile_append_stop (p := fun c => c == ' ' || c == '\t') (l := ['\t']) (by simp) h4 l
  have h6 : space1 ('\t' :: (showNat n ++ '\n' :: r)) = some ((), showNat n ++ '\n' :: r) := by
    rw [h3]
    simp only [List.cons_append, List.nil_append] at h5
    simp only [space1, h5.1, h5.2]
    rfl
  rw [h6]
  simp only [num_showNat hn (c := '\n') (by decide) r, tag_single]

theorem symtRows_print (l : List (Label × String)) (hl : ∀ p ∈ l, TextSym p.2 ∧ p.1 < 2 ^ 32) : ∀ n, l.length ≤ n →
    symtRows n (l.map fun p => p.2.toList ++ ('\t' :: (showNat p.1 ++ ['\n']))).flatten = l.map fun p => (p.2, p.1) := by
  induction l with
  | nil =>
    intro n _
    cases n with
    | zero => rfl
    | succ n => rfl
  | cons p l ih =>
    intro n hn
    cases n with
    | zero => simp at hn
    | succ n =>
      simp only [List.map_cons, List.flatten_cons, symtRows]
      obtain ⟨h1, h2⟩ := hl p (List.mem_cons_self ..)
      rw [symtRow_print h1 h2]
      simp only
      rw [ih (fun q hq => hl q (List.mem_cons_of_mem _ hq)) n (by simpa using hn)]

theorem addTextRows_eq (l : List (Label × String)) (hl : ∀ p ∈ l, p.1 < 2 ^ 32) : ∀ t : SymTable,
    addTextRows t (l.map fun p => (p.2, p.1)) = addRows t (l.map fun p => ((p.1 : Int), p.2)) := by
  induction l with
  | nil => intro t; rfl
  | cons p l ih =>
    intro t
    simp only [List.map_cons, addTextRows, addRows, SymTable.addSymbol]
    rw [toU_nat (hl p (List.mem_cons_self ..)), ih fun q hq => hl q (List.mem_cons_of_mem _ hq)]
    rfl

theorem length_le_flatten_lines {α : Type u} (l : List α) (g : α → List Char) (h : ∀ a, 1 ≤ (g a).length) :
    l.length ≤ (l.map g).flatten.length := by
  induction l with
  | nil => simp
  | cons a l ih => simp only [List.map_cons, List.flatten_cons, List.length_append, List.length_cons]; have := h a; omega

/-! ## FSTs -/

section
variable [TextCodec W]

/-- The weight is read back from its printed form when the line ends after it. -/
def TextReads (w : W) (c : Char) : Prop :=
  ∀ r, TextCodec.parse (W := W) (TextCodec.show' w ++ c :: r) = some (w, c :: r)

/-- The final weights that the text format can carry: read back, one field, and not taken for "no final weight". -/
structure FinText (w : W) : Prop where
  reads : TextReads w '\n'
  noTab : '\t' ∉ TextCodec.show' w
  notInf : ¬ "Infinity".toList <+: TextCodec.show' w

/-- A printed row, without the line break. -/
def Row.body : Row W → List Char
  | .tr s il ol w ns => showNat s ++ '\t' :: (showNat ns ++ '\t' :: (showNat il ++ '\t' :: (showNat ol ++
      (match w with | some w => '\t' :: TextCodec.show' w | none => []))))
  | .fin s w => showNat s ++ (match w with | some w => '\t' :: TextCodec.show' w | none => [])
  | .inf s => showNat s

/-- The row is read back. -/
def RowReads (r : Row W) : Prop := ∀ k, rowParsed (r.body ++ '\n' :: k) = some (r, '\n' :: k)

/-- The rows one after the other. -/
def rowsText (l : List (Row W)) : List Char := (l.map fun r => r.body ++ ['\n']).flatten

theorem optWeight_print {w : W} (hw : TextReads w '\n') (k : List Char) :
    optWeight (W := W) ('\t' :: (TextCodec.show' w ++ '\n' :: k)) = (some w, '\n' :: k) := by
  simp only [optWeight, tag_single, hw k]

theorem rowReads_tr {s il ol ns : Nat} {w : W} (hs : s < 2 ^ 32) (hns : ns < 2 ^ 32) (hil : il < 2 ^ 32)
    (hol : ol < 2 ^ 32) (hw : TextReads w '\n') : RowReads (Row.tr s il ol (some w) ns) := by
  intro k
  have ht : ('\t' : Char).isDigit = false := by decide
  have e : (Row.tr s il ol (some w) ns).body ++ '\n' :: k = showNat s ++ '\t' :: (showNat ns ++ '\t' :: (showNat il ++
      '\t' :: (showNat ol ++ '\t' :: (TextCodec.show' w ++ '\n' :: k)))) := by simp [Row.body]
  rw [e]
  simp only [rowParsed, transitionRow, num_showNat hs ht, num_showNat hns ht, num_showNat hil ht, num_showNat hol ht,
    tag_single, optWeight_print hw]

theorem takeWhile_mem_or {p : Char → Bool} : ∀ {l : List Char} {c : Char} {r}, l.dropWhile p = c :: r → c ∈ l
  | l, c, r, h => (List.dropWhile_suffix p).subset (by rw [h]; simp)

theorem rowReads_fin {s : Nat} {w : W} (hs : s < 2 ^ 32) (hw : FinText w) : RowReads (Row.fin s (some w)) := by
  intro k
  have ht : ('\t' : Char).isDigit = false := by decide
  have e : (Row.fin s (some w)).body ++ '\n' :: k = showNat s ++ '\t' :: (TextCodec.show' w ++ '\n' :: k) := by
    simp [Row.body]
  rw [e]
  have h1 : transitionRow (W := W) (showNat s ++ '\t' :: (TextCodec.show' w ++ '\n' :: k)) = none := by
    simp only [transitionRow, num_showNat hs ht, tag_single]
    cases hn : num (TextCodec.show' w ++ '\n' :: k) with
    | none => rfl
    | some p =>
      obtain ⟨n, i⟩ := p
      simp only
      have : tag ['\t'] i = none := by
        have hi : i = (TextCodec.show' w ++ '\n' :: k).dropWhile Char.isDigit := by
          unfold num at hn
          simp only at hn
          split at hn
          · cases hn
          · split at hn
            · cases hn; rfl
            · cases hn
        -- the digits stop inside the printed weight or at the line break
        have hstop : ∀ l : List Char, '\t' ∉ l → ∃ c r, (l ++ '\n' :: k).dropWhile Char.isDigit = c :: r ∧ c ≠ '\t' := by
          intro l
          induction l with
          | nil => intro _; exact ⟨'\n', k, rfl, by decide⟩
          | cons a l ih =>
            intro hl
            simp only [List.mem_cons, not_or] at hl
            simp only [List.cons_append, List.dropWhile_cons]
            split
            · exact ih hl.2
            · exact ⟨a, _, rfl, fun h => hl.1 h.symm⟩
        obtain ⟨c, r, h1, h2⟩ := hstop _ hw.noTab
        rw [hi, h1]
        exact tag_single_ne (Ne.symm h2) r
      rw [this]
  have h2 : infRow (W := W) (showNat s ++ '\t' :: (TextCodec.show' w ++ '\n' :: k)) = none := by
    simp only [infRow, num_showNat hs ht, tag_single, tag_line (t := "Infinity".toList) (by decide) hw.notInf k]
  simp only [rowParsed, h1, h2, finalRow, num_showNat hs ht, optWeight_print hw.reads]

theorem rowParsed_nil : rowParsed (W := W) [] = none := rfl

theorem moreRows_print (l : List (Row W)) (hl : ∀ r ∈ l, RowReads r) : ∀ n, l.length < n →
    moreRows n ('\n' :: rowsText l) = l := by
  induction l with
  | nil =>
    intro n hn
    cases n with
    | zero => omega
    | succ n => simp [moreRows, rowsText, rowParsed_nil]
  | cons r l ih =>
    intro n hn
    cases n with
    | zero => omega
    | succ n =>
      have e : rowsText (r :: l) = r.body ++ '\n' :: rowsText l := by simp [rowsText]
      simp only [moreRows, tag_single, e, hl r (List.mem_cons_self ..) (rowsText l)]
      rw [ih (fun q hq => hl q (List.mem_cons_of_mem _ hq)) n (by simpa using hn)]

/-- All the rows are read back. -/
theorem textRows_print (l : List (Row W)) (hl : ∀ r ∈ l, RowReads r) : textRows (rowsText l) = l := by
  cases l with
  | nil => rfl
  | cons r l =>
    have hlen : (r :: l).length ≤ (rowsText (r :: l)).length := length_le_flatten_lines (r :: l) (fun r : Row W => r.body ++ ['\n']) (by simp)
    have e : rowsText (r :: l) = r.body ++ '\n' :: rowsText l := by simp [rowsText]
    simp only [textRows]
    rw [show rowParsed (rowsText (r :: l)) = some (r, '\n' :: rowsText l) by
      rw [e]; exact hl r (List.mem_cons_self ..) (rowsText l)]
    simp only
    rw [moreRows_print l (fun q hq => hl q (List.mem_cons_of_mem _ hq)) _ (Nat.lt_of_lt_of_le (Nat.lt_succ_self _) hlen)]

/-- The rows of the transitions of a state. -/
def trRows (f : Fst W) (s : StateId) : List (Row W) :=
  (f.trsOf s).map fun t => .tr s t.ilabel t.olabel (some t.weight) t.nextstate

/-- The row of a final state. -/
def finRows (f : Fst W) (s : StateId) : List (Row W) :=
  match f.finOf s with
  | some w => [.fin s (some w)]
  | none => []

/-- All the rows of an FST with start state `i`. -/
def fstRows (f : Fst W) (i : StateId) : List (Row W) :=
  trRows f i ++ (((List.range f.numStates).filter (· ≠ i)).flatMap (trRows f) ++
    (List.range f.numStates).flatMap (finRows f))

theorem rowsText_append (a b : List (Row W)) : rowsText (a ++ b) = rowsText a ++ rowsText b := by simp [rowsText]
theorem rowsText_flatMap {α : Type} (l : List α) (g : α → List (Row W)) :
    rowsText (l.flatMap g) = (l.map fun a => rowsText (g a)).flatten := by
  induction l with
  | nil => rfl
  | cons a l ih => simp [List.flatMap_cons, rowsText_append, ih]

theorem fstText_eq (f : Fst W) {i : StateId} (hi : f.start = some i) : fstText f = rowsText (fstRows f i) := by
  have h1 : ∀ s, rowsText (trRows f s) = ((f.trsOf s).map (trLine s)).flatten := by
    intro s
    simp only [rowsText, trRows, List.map_map]
    congr 1
    apply List.map_congr_left
    intro t _
    simp [Row.body, trLine]
  have h2 : ∀ s, rowsText (finRows f s) = finText f s := by
    intro s
    unfold finRows finText
    cases f.finOf s with
    | none => rfl
    | some w => simp [rowsText, Row.body, finLine]
  unfold fstText
  rw [hi]
  simp only [fstRows, rowsText_append, rowsText_flatMap, h1, h2]

end
end Verif
