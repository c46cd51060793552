import Verif.Props.C28
import Verif.Model.WeightCodecs
import Verif.Props.C24
import Verif.Props.C25

/-!
# C30 Sums of string weights; string, product and union weights in files (C24, C25)
-/

namespace Verif
universe u v

/-- The sum of two left string weights is the longest common prefix: a prefix of both, of which every other common prefix is a
prefix. -/
theorem C30_left (a b : List Label) : ∃ p, StrW.leftOps.plus (.labels a) (.labels b) = .ok (.labels p) ∧
    p <+: a ∧ p <+: b ∧ ∀ q, q <+: a → q <+: b → q <+: p :=
  ⟨StrW.common a b, rfl, StrW.isLcp_common a b⟩

/-- The sum of two right string weights is the longest common suffix. -/
theorem C30_right (a b : List Label) : ∃ p, StrW.rightOps.plus (.labels a) (.labels b) = .ok (.labels p) ∧
    p <:+ a ∧ p <:+ b ∧ ∀ q, q <:+ a → q <:+ b → q <:+ p := by
  obtain ⟨h1, h2, h3⟩ := StrW.isLcp_common a.reverse b.reverse
  refine ⟨(StrW.common a.reverse b.reverse).reverse, rfl, ?_, ?_, fun q ha hb => ?_⟩
  · rw [← List.reverse_prefix, List.reverse_reverse]; exact h1
  · rw [← List.reverse_prefix, List.reverse_reverse]; exact h2
  · rw [← List.reverse_prefix, List.reverse_reverse]
    exact h3 _ (List.reverse_prefix.2 ha) (List.reverse_prefix.2 hb)

/-- The sum of restricted string weights exists only for equal or zero arguments. -/
theorem C30_restrict (a b s : StrW) : StrW.restrictOps.plus a b = .ok s ↔
    (a = .inf ∧ s = b) ∨ (b = .inf ∧ s = a) ∨ (a = b ∧ s = a) := by
  simp only [StrW.restrictOps]
  cases a <;> cases b <;> simp [StrW.plusRestrict]
  · exact eq_comm
  · exact eq_comm
  · exact eq_comm
  · rename_i l m
    by_cases h : l = m <;> simp [h, eq_comm]

/-- The natural order (`a ⊕ b = a`): of left string weights it is "prefix of", of right ones "suffix of"; zero is the largest. -/
theorem C30_natural_order (a b : List Label) :
    (StrW.leftOps.plus (.labels a) (.labels b) = .ok (.labels a) ↔ a <+: b) ∧
    (StrW.rightOps.plus (.labels a) (.labels b) = .ok (.labels a) ↔ a <:+ b) ∧
    (StrW.leftOps.plus (.labels a) .inf = .ok (.labels a)) ∧ (StrW.rightOps.plus (.labels a) .inf = .ok (.labels a)) := by
  refine ⟨⟨fun h => ?_, fun h => ?_⟩, ⟨fun h => ?_, fun h => ?_⟩, rfl, rfl⟩
  · obtain ⟨p, h1, h2, h3, h4⟩ := C30_left a b
    rw [h] at h1; cases h1; exact h3
  · obtain ⟨p, h1, h2, h3, h4⟩ := C30_left a b
    rw [h1, h2.eq_of_length_le (h4 a List.prefix_rfl h).length_le]
  · obtain ⟨p, h1, h2, h3, h4⟩ := C30_right a b
    rw [h] at h1; cases h1; exact h3
  · obtain ⟨p, h1, h2, h3, h4⟩ := C30_right a b
    rw [h1, h2.eq_of_length_le (h4 a List.suffix_rfl h).length_le]

example : StrW.leftOps.plus (.labels [1, 2, 3]) (.labels [1, 2, 4]) = .ok (.labels [1, 2]) ∧
    StrW.rightOps.plus (.labels [1, 2, 3]) (.labels [4, 2, 3]) = .ok (.labels [2, 3]) ∧
    StrW.restrictOps.plus (.labels [1]) (.labels [2]) = .error .err := by decide

/-! ## Binary files -/

theorem toI_eq_neg_one {x : Nat} (hx : x < 2 ^ 32) : toI 32 x = -1 ↔ x = 2 ^ 32 - 1 := by
  unfold toI
  split
  · constructor
    · intro h; omega
    · intro h; omega
  · constructor
    · intro h
      have : ((x : Int) - 2 ^ 32) = -1 := h
      norm_num at this; omega
    · intro h; subst h; norm_num

/-- Every string weight is read back from its bytes, except the one string that reads as `Infinity`. -/
theorem C24_string_weight (ty : String) (w : StrW)
    (h : ∀ l, w = .labels l → l.length < 2 ^ 31 ∧ (∀ x ∈ l, x < 2 ^ 32) ∧ l ≠ [2 ^ 32 - 1]) :
    @CodecOk StrW (StrW.codec ty) w := by
  change Reads StrW.get (StrW.put w) w
  cases w with
  | inf =>
    intro rest
    rfl
  | labels l =>
    obtain ⟨h1, h2, h3⟩ := h l rfl
    have hlen : l.length % 2 ^ 32 = l.length := Nat.mod_eq_of_lt (by omega)
    have hn : toI 32 (l.length % 2 ^ 32) = (l.length : Int) := by rw [hlen]; exact toI_small h1
    unfold StrW.get StrW.put
    have hl : Reads (P.count (getI 4) l.length) (l.map fun x => putI 4 (toI 32 x)).flatten (l.map (toI 32)) :=
      Reads.count (put := fun x => putI 4 (toI 32 x)) (g := toI 32) fun x hx => reads_getI_toI (by omega) (h2 x hx)
    refine Reads.bind (x := (l.length : Int)) (hn ▸ reads_getI_toI (n := l.length % 2 ^ 32) (by omega) (by omega)) ?_
    rw [toU_nat (by omega)]
    refine hl.map' ?_
    have hne : l.map (toI 32) ≠ [-1] := by
      intro he
      obtain ⟨x, rfl, hx⟩ := List.map_eq_singleton_iff.1 he
      exact h3 (by rw [(toI_eq_neg_one (h2 x (by simp))).1 hx])
    rw [if_neg hne, List.map_map]
    congr 1
    have : ∀ x ∈ l, (toU 32 ∘ toI 32) x = x := fun x hx => toU_toI (h2 x hx)
    rw [List.map_congr_left this, List.map_id'']
    intro x; rfl

example : @CodecOk StrW (StrW.codec "left_string") (.labels [5, 2 ^ 32 - 1]) :=
  C24_string_weight _ _ fun l h => by cases h; exact ⟨by decide, by decide, by decide⟩

/-- The string of the single label `u32::MAX` is written like `Infinity`. -/
theorem C24_string_weight_collision : StrW.put (.labels [2 ^ 32 - 1]) = StrW.put .inf ∧
    StrW.get (StrW.put (.labels [2 ^ 32 - 1])) = .ok (.inf, []) := by
  constructor <;> rfl

/-- Product weights are read back when their components are. -/
theorem C24_product_weight {A : Type u} {B : Type v} (ca : WeightCodec A) (cb : WeightCodec B) (w : A × B) (ha : CodecOk w.1)
    (hb : CodecOk w.2) : @CodecOk _ (prodCodec ca cb) w := by
  change Reads (prodGet ca.get cb.get) (prodPut ca.put cb.put w) w
  unfold prodGet prodPut
  exact Reads.bind ha (hb.map' rfl)

/-- Union weights (gallic weights) are read back when their elements are. -/
theorem C24_union_weight {W : Type u} (c : WeightCodec W) (l : List W) (hn : l.length < 2 ^ 31) (h : ∀ w ∈ l, CodecOk w) :
    @CodecOk _ (unionCodec c) l := by
  change Reads (unionGet c.get) (unionPut c.put l) l
  have hlen : l.length % 2 ^ 32 = l.length := Nat.mod_eq_of_lt (by omega)
  have hi : toI 32 (l.length % 2 ^ 32) = (l.length : Int) := by rw [hlen]; exact toI_small hn
  unfold unionGet unionPut
  refine Reads.bind (x := (l.length : Int)) (hi ▸ reads_getI_toI (n := l.length % 2 ^ 32) (by omega) (by omega)) ?_
  rw [toU_nat (by omega)]
  have := Reads.count (p := c.get) (put := c.put) (g := id) (l := l) fun w hw => h w hw
  simpa using this

/-! ## Text files -/

/-- The characters that end a string weight in a text. -/
def StrStop (c : Char) : Prop := c.isDigit = false ∧ c ≠ '_'

theorem moreLabels_show {c : Char} (hc : StrStop c) : ∀ (l : List Label), (∀ x ∈ l, x < 2 ^ 32) → ∀ n, l.length < n → ∀ r,
    StrW.moreLabels n ((l.map fun x => '_' :: showNat x).flatten ++ c :: r) = (l, c :: r)
  | [], _, n + 1, _, r => by
    simp [StrW.moreLabels, tag_single_ne (Ne.symm hc.2)]
  | [x], h, n + 1, hn, r => by
    have e : (([x] : List Label).map fun x => '_' :: showNat x).flatten ++ c :: r = '_' :: (showNat x ++ c :: r) := by simp
    rw [e]
    simp only [StrW.moreLabels, tag_single, num_showNat (h x (by simp)) hc.1]
    have := moreLabels_show hc [] (by simp) n (by simp at hn ⊢; omega) r
    simp only [List.map_nil, List.flatten_nil, List.nil_append] at this
    rw [this]
  | x :: y :: l, h, n + 1, hn, r => by
    have hu : ('_' : Char).isDigit = false := by decide
    have e : ((x :: y :: l).map fun x => '_' :: showNat x).flatten ++ c :: r =
        '_' :: (showNat x ++ '_' :: (showNat y ++ ((l.map fun x => '_' :: showNat x).flatten ++ c :: r))) := by simp
    have e2 : ((y :: l).map fun x => '_' :: showNat x).flatten ++ c :: r =
        '_' :: (showNat y ++ ((l.map fun x => '_' :: showNat x).flatten ++ c :: r)) := by simp
    have ih := moreLabels_show hc (y :: l) (fun z hz => h z (by simp [hz])) n (by simp at hn ⊢; omega) r
    rw [e2] at ih
    rw [e]
    simp only [StrW.moreLabels, tag_single, num_showNat (h x (by simp)) hu, ih]

theorem showLabels_eq (x : Label) (l : List Label) : StrW.showLabels (x :: l) = showNat x ++ (l.map fun x => '_' :: showNat x).flatten := by
  induction l generalizing x with
  | nil => simp [StrW.showLabels]
  | cons y l ih => rw [StrW.showLabels, ih]; simp; simp

theorem tag_digit {t : List Char} (ht : (t.head?.map Char.isDigit) = some false) (x : Nat) (r : List Char) :
    tag t (showNat x ++ r) = none := by
  cases t with
  | nil => cases ht
  | cons d t =>
  have hd : d.isDigit = false := by simpa using ht
  cases h : showNat x with
  | nil => exact absurd h Nat.toDigits_ne_nil
  | cons c s =>
    have hc := showNat_digit (c := c) (n := x) (by rw [h]; simp)
    have : d ≠ c := fun e => by rw [e, hc] at hd; cases hd
    simp [tag, List.isPrefixOf, this]

/-- String weights are read back from their text. -/
theorem C25_string_weight (w : StrW) (c : Char) (hc : StrStop c) (h : ∀ l, w = .labels l → ∀ x ∈ l, x < 2 ^ 32) :
    TextReads w c := by
  intro r
  change StrW.parseText (StrW.showStr w ++ c :: r) = _
  match w with
  | .inf =>
    have : StrW.showStr .inf = "Infinity".toList := rfl
    rw [this, StrW.parseText, tag_self]
  | .labels [] =>
    have h0 : StrW.showStr (.labels []) = "Epsilon".toList := rfl
    have h1 : tag "Infinity".toList ("Epsilon".toList ++ c :: r) = none := rfl
    rw [h0, StrW.parseText, h1, tag_self]
  | .labels (x :: l) =>
    have hx := h (x :: l) rfl
    have e : StrW.showStr (.labels (x :: l)) = StrW.showLabels (x :: l) := rfl
    rw [e, showLabels_eq, List.append_assoc]
    have h1 : tag "Infinity".toList (showNat x ++ ((l.map fun x => '_' :: showNat x).flatten ++ c :: r)) = none :=
      tag_digit (by decide) x _
    have h2 : tag "Epsilon".toList (showNat x ++ ((l.map fun x => '_' :: showNat x).flatten ++ c :: r)) = none :=
      tag_digit (by decide) x _
    have h3 : num (showNat x ++ ((l.map fun x => '_' :: showNat x).flatten ++ c :: r)) =
        some (x, (l.map fun x => '_' :: showNat x).flatten ++ c :: r) := by
      cases l with
      | nil => exact num_showNat (hx x (by simp)) hc.1 r
      | cons y l => exact num_showNat (hx x (by simp)) (by decide) _
    have h4 : l.length < ((l.map fun x => '_' :: showNat x).flatten ++ c :: r).length := by
      have := length_le_flatten_lines l (fun x => '_' :: showNat x) (fun a => by simp)
      simp only [List.length_append, List.length_cons]
      omega
    have h5 := moreLabels_show hc l (fun y hy => hx y (by simp [hy])) _ h4 r
    simp only [StrW.parseText, h1, h2, StrW.labelsText, h3, h5]

/-- A final weight that is a string (not `Infinity`) survives the text format. -/
theorem C25_string_final (l : List Label) (h : ∀ x ∈ l, x < 2 ^ 32) : FinText (StrW.labels l) where
  reads := C25_string_weight _ _ ⟨by decide, by decide⟩ fun _ e => by cases e; exact h
  noTab := by
    change '\t' ∉ StrW.showStr (.labels l)
    cases l with
    | nil => decide
    | cons x l =>
      have e : StrW.showStr (.labels (x :: l)) = StrW.showLabels (x :: l) := rfl
      rw [e, showLabels_eq]
      simp only [List.mem_append, List.mem_flatten, List.mem_map, not_or, not_exists, not_and]
      have hd : ∀ n, '\t' ∉ showNat n := fun n hm => by have := showNat_digit hm; revert this; decide
      refine ⟨hd x, ?_⟩
      rintro _ ⟨y, _, rfl⟩ hm
      rcases List.mem_cons.1 hm with hm | hm
      · revert hm; decide
      · exact hd y hm
  notInf := by
    change ¬ "Infinity".toList <+: StrW.showStr (.labels l)
    cases l with
    | nil => decide
    | cons x l =>
      have e : StrW.showStr (.labels (x :: l)) = StrW.showLabels (x :: l) := rfl
      rw [e, showLabels_eq]
      intro hp
      have := tag_digit (t := "Infinity".toList) (by decide) x (l.map fun x => '_' :: showNat x).flatten
      have hq : "Infinity".toList.isPrefixOf (showNat x ++ (l.map fun x => '_' :: showNat x).flatten) = true :=
        List.isPrefixOf_iff_prefix.2 hp
      simp only [tag, hq, if_true] at this
      cases this

/-- Product weights are read back when the first component stops at a comma. -/
theorem C25_product_weight {A : Type u} {B : Type v} [TextCodec A] [TextCodec B] (w : A × B) (c : Char) (ha : TextReads w.1 ',')
    (hb : TextReads w.2 c) : TextReads w c := by
  intro r
  change prodParse ((TextCodec.show' w.1 ++ ',' :: TextCodec.show' w.2) ++ c :: r) = _
  rw [List.append_assoc, List.cons_append]
  simp only [prodParse, ha _, tag_single, hb _]

example : TextReads ((.labels [1, 2], -3) : StrW × Int) '\n' :=
  C25_product_weight _ _ (C25_string_weight _ _ ⟨by decide, by decide⟩ fun l h => by cases h; decide)
    (textReads_int (v := -3) (by decide) (by decide))

theorem moreWeights_show {W : Type u} [TextCodec W] {c : Char} (hc : c ≠ ',') : ∀ (l : List W),
    (∀ w ∈ l, TextReads w ',' ∧ TextReads w c) → ∀ n, l.length < n → ∀ r,
    moreWeights n ((l.map fun w => ',' :: TextCodec.show' w).flatten ++ c :: r) = (l, c :: r)
  | [], _, n + 1, _, r => by simp [moreWeights, tag_single_ne (Ne.symm hc)]
  | [x], h, n + 1, hn, r => by
    have e : (([x] : List W).map fun x => ',' :: TextCodec.show' x).flatten ++ c :: r = ',' :: (TextCodec.show' x ++ c :: r) := by simp
    rw [e]
    have := moreWeights_show hc ([] : List W) (by simp) n (by simp at hn ⊢; omega) r
    simp only [List.map_nil, List.flatten_nil, List.nil_append] at this
    simp only [moreWeights, tag_single, (h x (by simp)).2 r, this]
  | x :: y :: l, h, n + 1, hn, r => by
    have e : ((x :: y :: l).map fun x => ',' :: TextCodec.show' x).flatten ++ c :: r =
        ',' :: (TextCodec.show' x ++ ',' :: (TextCodec.show' y ++ ((l.map fun x => ',' :: TextCodec.show' x).flatten ++ c :: r))) := by
      simp
    have e2 : ((y :: l).map fun x => ',' :: TextCodec.show' x).flatten ++ c :: r =
        ',' :: (TextCodec.show' y ++ ((l.map fun x => ',' :: TextCodec.show' x).flatten ++ c :: r)) := by simp
    have ih := moreWeights_show hc (y :: l) (fun z hz => h z (by simp [hz])) n (by simp at hn ⊢; omega) r
    rw [e2] at ih
    rw [e]
    simp only [moreWeights, tag_single, (h x (by simp)).1 _, ih]

theorem showWeights_eq {W : Type u} [TextCodec W] (x : W) (l : List W) :
    showWeights (x :: l) = TextCodec.show' x ++ (l.map fun x => ',' :: TextCodec.show' x).flatten := by
  induction l generalizing x with
  | nil => simp [showWeights]
  | cons y l ih => rw [showWeights, ih]; simp; simp

/-- Union weights are read back when their elements are, and no element is printed like the start of `EmptySet`. -/
theorem C25_union_weight {W : Type u} [TextCodec W] (l : List W) (c : Char) (hc : c ≠ ',')
    (h : ∀ w ∈ l, TextReads w ',' ∧ TextReads w c) (he : ∀ w ∈ l, ∃ d s, TextCodec.show' w = d :: s ∧ d ≠ 'E') :
    @TextReads _ unionText l c := by
  intro r
  change parseUnion (showUnion l ++ c :: r) = _
  cases l with
  | nil =>
    have : showUnion ([] : List W) = "EmptySet".toList := rfl
    rw [this, parseUnion, tag_self]
  | cons x l =>
    have e : showUnion (x :: l) ++ c :: r = TextCodec.show' x ++ ((l.map fun x => ',' :: TextCodec.show' x).flatten ++ c :: r) := by
      rw [showUnion, if_neg (by simp), showWeights_eq, List.append_assoc]
    rw [e]
    have h1 : tag "EmptySet".toList (TextCodec.show' x ++ ((l.map fun x => ',' :: TextCodec.show' x).flatten ++ c :: r)) = none := by
      obtain ⟨d, s, hd, hne⟩ := he x (by simp)
      rw [hd]
      simp [tag, List.isPrefixOf, Ne.symm hne]
    have h2 : TextCodec.parse (W := W) (TextCodec.show' x ++ ((l.map fun x => ',' :: TextCodec.show' x).flatten ++ c :: r)) =
        some (x, (l.map fun x => ',' :: TextCodec.show' x).flatten ++ c :: r) := by
      cases l with
      | nil => exact (h x (by simp)).2 r
      | cons y l => exact (h x (by simp)).1 _
    have h4 : l.length < ((l.map fun x => ',' :: TextCodec.show' x).flatten ++ c :: r).length := by
      have := length_le_flatten_lines l (fun x => ',' :: TextCodec.show' x) (fun a => by simp)
      simp only [List.length_append, List.length_cons]
      omega
    have h5 := moreWeights_show hc l (fun y hy => h y (by simp [hy])) _ h4 r
    simp only [parseUnion, h1, h2, h5]

instance : Zero StrW := ⟨.inf⟩
instance : One StrW := ⟨.labels []⟩

theorem same_of_computeAndUpdate {W : Type u} [Zero W] [One W] [DecidableEq W] {f g : Fst W} {mask p : Props}
    (h : f.computeAndUpdate mask = .ok (g, p)) : g.states = f.states ∧ g.start = f.start := by
  unfold Fst.computeAndUpdate at h
  split at h
  · cases h
  · cases h; exact ⟨rfl, rfl⟩

/-- A final state whose line says `Infinity` is not final after reading; the text of a final state of weight zero loses it. -/
theorem C25_infinity_row (f : Fst StrW) (h : fstOfText "0\t1\t3\t3\t5\n1\tInfinity\n".toList = .ok f) :
    f.finOf 1 = none ∧ f.numStates = 2 ∧ f.start = some 0 := by
  have e : (textRows "0\t1\t3\t3\t5\n1\tInfinity\n".toList : List (Row StrW)) = [.tr 0 3 3 (some (.labels [5])) 1, .inf 1] := by
    decide +kernel
  unfold fstOfText at h
  rw [e] at h
  unfold fromRows at h
  simp only at h
  split at h
  · rename_i g m hg
    injection h with h
    subst h
    have hs := same_of_computeAndUpdate hg
    refine ⟨?_, ?_, ?_⟩
    · rw [Fst.finOf_eq, hs.1]; rfl
    · rw [Fst.numStates, hs.1]; rfl
    · rw [hs.2]; rfl
  · cases h

example : (fstOfText (W := StrW) "0\t1\t3\t3\t5\n1\tInfinity\n".toList).toOption.isSome = true := by decide +kernel

/-- A final weight whose text only begins with `Infinity` (a product of a zero string and something else) is taken for an
infinity row; the rest of that line and every line after it are dropped. -/
theorem C25_product_infinity_defect :
    (textRows "0\t1\t3\t3\t5,6\n1\tInfinity,3\n0\t2\t4\t4\t5,6\n2\t7,8\n".toList : List (Row (StrW × Int))) =
      [.tr 0 3 3 (some (.labels [5], 6)) 1, .inf 1] := by decide +kernel

end Verif
