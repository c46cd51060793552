import Verif.Model.BinFst
import Verif.Props.C08
import Mathlib.Tactic.Common
import Mathlib.Tactic.Ring
import Mathlib.Tactic.Positivity
import Mathlib.Tactic.Linarith
import Mathlib.Tactic.NormNum
import Mathlib.Data.Nat.Bitwise

/-! # Parser combinators: reading back, and behaviour on cut streams -/

namespace Verif
universe u v

/-- `p` reads exactly the bytes `b` and returns `x`, whatever follows. -/
def Reads {α : Type u} (p : P α) (b : Bytes) (x : α) : Prop := ∀ rest, p (b ++ rest) = .ok (x, rest)

/-- Reading more bytes never changes a result that did not run out of input: successes and panics
are decided by the bytes already read. -/
def Stable {α : Type u} (p : P α) : Prop :=
  ∀ i e, (∀ x r, p i = .ok (x, r) → p (i ++ e) = .ok (x, r ++ e)) ∧
    (p i = .error .panic → p (i ++ e) = .error .panic)

section
variable {α : Type u} {β : Type v}

theorem reads_pure (a : α) : Reads (P.pure a) [] a := fun _ => rfl

theorem Reads.bind {p : P α} {f : α → P β} {b c : Bytes} {x : α} {y : β} (h : Reads p b x)
    (k : Reads (f x) c y) : Reads (p.bind f) (b ++ c) y := by
  intro rest
  simp only [P.bind, List.append_assoc]
  rw [h (c ++ rest)]
  exact k rest

/-- A last step that reads nothing. -/
theorem Reads.map {p : P α} {f : α → β} {b : Bytes} {x : α} (h : Reads p b x) :
    Reads (p.bind fun a => P.pure (f a)) b (f x) := by
  intro rest
  simp only [P.bind]
  rw [h rest]
  rfl

theorem Reads.map' {p : P α} {f : α → β} {b : Bytes} {x : α} {y : β} (h : Reads p b x) (e : f x = y) :
    Reads (p.bind fun a => P.pure (f a)) b y := e ▸ h.map

theorem Reads.verify {p : P α} {c : α → Bool} {b : Bytes} {x : α} (h : Reads p b x) (hc : c x = true) :
    Reads (p.verify c) b x := by
  intro rest
  simp only [P.verify, P.bind]
  rw [h rest]
  simp only [hc, if_true]
  rfl

theorem Reads.count {γ : Type v} {p : P α} {put : γ → Bytes} {g : γ → α} :
    ∀ {l : List γ}, (∀ x ∈ l, Reads p (put x) (g x)) →
      Reads (P.count p l.length) (l.map put).flatten (l.map g)
  | [], _ => reads_pure _
  | a :: l, h => by
    have h1 := h a (by simp)
    have h2 : Reads (P.count p l.length) _ _ := Reads.count fun x hx => h x (by simp [hx])
    exact Reads.bind (f := fun a => (P.count p l.length).bind fun l => P.pure (a :: l)) h1 h2.map

theorem reads_lift {r : R α} {x : α} (h : r = .ok x) : Reads (P.lift r) [] x := by
  subst h; exact fun _ => rfl

theorem reads_take (b : Bytes) : Reads (P.take b.length) b b := by
  intro rest
  simp [P.take]

theorem stable_pure (a : α) : Stable (P.pure a) := by
  intro i e
  refine ⟨fun x r h => ?_, fun h => by cases h⟩
  cases h; rfl

theorem stable_fail (f : Fail) : Stable (P.fail (α := α) f) := by
  intro i e
  exact ⟨fun x r h => (by cases h), fun h => h⟩

theorem Stable.bind {p : P α} {f : α → P β} (h : Stable p) (k : ∀ x, Stable (f x)) :
    Stable (p.bind f) := by
  intro i e
  simp only [P.bind]
  have := h i e
  cases hp : p i with
  | ok y =>
    obtain ⟨x, r⟩ := y
    rw [(this).1 x r hp]
    exact k x r e
  | error z =>
    cases z
    · exact ⟨fun x r h => (by cases h), fun h => by cases h⟩
    · rw [this.2 hp]
      exact ⟨fun x r h => (by cases h), fun _ => rfl⟩

theorem Stable.ite {p q : P α} {c : Prop} [Decidable c] (hp : Stable p) (hq : Stable q) :
    Stable (if c then p else q) := by
  split <;> assumption

theorem Stable.verify {p : P α} (h : Stable p) (c : α → Bool) : Stable (p.verify c) :=
  h.bind fun _ => (stable_pure _).ite (stable_fail _)

theorem Stable.count {p : P α} (h : Stable p) : ∀ n, Stable (P.count p n)
  | 0 => stable_pure _
  | n + 1 => h.bind fun _ => (Stable.count h n).bind fun _ => stable_pure _

theorem stable_take (n : Nat) : Stable (P.take n) := by
  intro i e
  simp only [P.take]
  by_cases hn : i.length < n
  · rw [if_pos hn]
    exact ⟨fun x r h => (by cases h), fun h => by cases h⟩
  · rw [if_neg hn, if_neg (by simp; omega)]
    refine ⟨fun x r h => ?_, fun h => by cases h⟩
    cases h
    rw [List.take_append_of_le_length (by omega), List.drop_append_of_le_length (by omega)]

theorem stable_lift (r : R α) : Stable (P.lift r) := by
  intro i e
  cases r with
  | ok a => exact ⟨fun x r h => (by cases h; rfl), fun h => by cases h⟩
  | error z =>
    cases z
    · exact ⟨fun x r h => (by cases h), fun h => by cases h⟩
    · exact ⟨fun x r h => (by cases h), fun _ => rfl⟩

/-- A stream cut short of what a stable parser reads is refused (with an error, not a panic). -/
theorem Stable.cut {p : P α} (h : Stable p) {b i : Bytes} {x : α} (hr : Reads p b x)
    (hi : i <+: b) (hne : i ≠ b) : p i = .error .err := by
  obtain ⟨e, rfl⟩ := hi
  have he : e ≠ [] := by rintro rfl; simp at hne
  have hfull := hr []
  rw [List.append_nil] at hfull
  cases hp : p i with
  | ok y =>
    obtain ⟨y, r⟩ := y
    rw [(h i e).1 y r hp] at hfull
    have : (y, r ++ e) = (x, []) := by injection hfull
    have : r ++ e = [] := (Prod.mk.inj this).2
    simp at this
    exact absurd this.2 he
  | error z =>
    cases z
    · rfl
    · rw [(h i e).2 hp] at hfull; cases hfull

/-- The same when only the part after the first step is known to be stable. -/
theorem cut_bind {p : P α} {f : α → P β} (hp : Stable p) {b c i : Bytes} {x : α} {y : β} (hr : Reads p b x)
    (hk : Stable (f x)) (hr2 : Reads (f x) c y) (hi : i <+: b ++ c) (hne : i ≠ b ++ c) :
    p.bind f i = .error .err := by
  have hb : b <+: b ++ c := ⟨c, rfl⟩
  have second : b <+: i → p.bind f i = .error .err := by
    rintro ⟨j, rfl⟩
    simp only [P.bind]
    rw [hr j]
    exact hk.cut hr2 ((List.prefix_append_right_inj b).1 hi) (fun h => hne (by rw [h]))
  rcases List.prefix_or_prefix_of_prefix hi hb with h | h
  · by_cases e : i = b
    · exact second (by rw [e])
    · simp only [P.bind]
      rw [hp.cut hr h e]
  · exact second h

end

/-! ## Numbers -/

theorem length_leBytes (k n : Nat) : (leBytes k n).length = k := by
  induction k generalizing n with
  | zero => rfl
  | succ k ih => simp [leBytes, ih]

theorem ofLe_leBytes (k n : Nat) (h : n < 256 ^ k) : ofLe (leBytes k n) = n := by
  induction k generalizing n with
  | zero => simp at h; simp [leBytes, ofLe, h]
  | succ k ih =>
    have : n / 256 < 256 ^ k := by
      rw [Nat.div_lt_iff_lt_mul (by decide)]; rw [Nat.pow_succ] at h; exact h
    simp only [leBytes, ofLe, ih _ this]
    have : (UInt8.ofNat n).toNat = n % 256 := by simp
    rw [this]; omega

theorem reads_getU {k n : Nat} (h : n < 256 ^ k) : Reads (getU k) (putU k n) n := by
  have h1 := reads_take (leBytes k n)
  rw [length_leBytes] at h1
  have := h1.map (f := ofLe)
  rwa [ofLe_leBytes k n h] at this

theorem toU_lt (k : Nat) (x : Int) : toU k x < 2 ^ k := by
  have h := Int.emod_lt_of_pos x (show (0 : Int) < 2 ^ k by positivity)
  have h0 := Int.emod_nonneg x (show (2 : Int) ^ k ≠ 0 by positivity)
  simp only [toU]
  have : ((x % 2 ^ k).toNat : Int) < ((2 ^ k : Nat) : Int) := by
    rw [Int.toNat_of_nonneg h0]; push_cast; exact h
  exact_mod_cast this

theorem toI_toU {k : Nat} (hk : 0 < k) (x : Int) (h1 : -(2 ^ (k - 1) : Int) ≤ x)
    (h2 : x < 2 ^ (k - 1)) : toI k (toU k x) = x := by
  obtain ⟨m, rfl⟩ : ∃ m, k = m + 1 := ⟨k - 1, by omega⟩
  simp only [Nat.add_sub_cancel] at h1 h2 ⊢
  have hp : (0 : Int) < 2 ^ m := by positivity
  have hp2 : (2 : Int) ^ (m + 1) = 2 * 2 ^ m := by ring
  have hcast : ((2 ^ m : Nat) : Int) = (2 : Int) ^ m := by push_cast; rfl
  simp only [toI, toU, Nat.add_sub_cancel]
  rw [hp2]
  by_cases hx : 0 ≤ x
  · have : x % (2 * 2 ^ m) = x := Int.emod_eq_of_lt hx (by linarith)
    rw [this, if_pos]
    · exact Int.toNat_of_nonneg hx
    · have : (x.toNat : Int) < ((2 ^ m : Nat) : Int) := by
        rw [Int.toNat_of_nonneg hx, hcast]; exact h2
      exact_mod_cast this
  · push Not at hx
    have : x % (2 * 2 ^ m) = x + 2 * 2 ^ m := by
      rw [← Int.add_emod_right]
      exact Int.emod_eq_of_lt (by linarith) (by linarith)
    rw [this]
    have hnn : (0 : Int) ≤ x + 2 * 2 ^ m := by linarith
    rw [if_neg]
    · rw [Int.toNat_of_nonneg hnn]; ring
    · have : ¬ ((x + 2 * 2 ^ m).toNat : Int) < ((2 ^ m : Nat) : Int) := by
        rw [Int.toNat_of_nonneg hnn, hcast]; linarith
      exact_mod_cast this

theorem toU_toI {k n : Nat} (h : n < 2 ^ k) : toU k (toI k n) = n := by
  simp only [toI, toU]
  have hcast : ((2 ^ k : Nat) : Int) = (2 : Int) ^ k := by push_cast; rfl
  have hlt : (n : Int) < 2 ^ k := by rw [← hcast]; exact_mod_cast h
  split
  · rw [Int.emod_eq_of_lt (by omega) hlt]; rfl
  · rw [Int.sub_emod_right, Int.emod_eq_of_lt (by omega) hlt]; rfl

theorem toI_range {k n : Nat} (hk : 0 < k) (h : n < 2 ^ k) :
    -(2 ^ (k - 1) : Int) ≤ toI k n ∧ toI k n < 2 ^ (k - 1) := by
  obtain ⟨m, rfl⟩ : ∃ m, k = m + 1 := ⟨k - 1, by omega⟩
  simp only [toI, Nat.add_sub_cancel]
  have hp2 : (2 : Int) ^ (m + 1) = 2 * 2 ^ m := by ring
  have hcast : ((2 ^ m : Nat) : Int) = (2 : Int) ^ m := by push_cast; rfl
  have hlt : (n : Int) < 2 * 2 ^ m := by
    rw [Nat.pow_succ] at h
    have : (n : Int) < ((2 ^ m * 2 : Nat) : Int) := by exact_mod_cast h
    push_cast at this; linarith
  have hp : (0 : Int) < 2 ^ m := by positivity
  rw [hp2]
  split
  · rename_i hc
    have : (n : Int) < ((2 ^ m : Nat) : Int) := by exact_mod_cast hc
    rw [hcast] at this
    constructor <;> [skip; exact this]
    have : (0 : Int) ≤ n := by omega
    linarith
  · rename_i hc
    have : ¬ (n : Int) < ((2 ^ m : Nat) : Int) := by exact_mod_cast hc
    rw [hcast] at this
    constructor <;> linarith

theorem reads_getI {k : Nat} (hk : 0 < k) {x : Int} (h1 : -(2 ^ (8 * k - 1) : Int) ≤ x)
    (h2 : x < 2 ^ (8 * k - 1)) : Reads (getI k) (putI k x) x := by
  have h := reads_take (leBytes k (toU (8 * k) x))
  rw [length_leBytes] at h
  have := h.map (f := fun b => toI (8 * k) (ofLe b))
  rw [ofLe_leBytes k _ (by
    have := toU_lt (8 * k) x
    rwa [Nat.pow_mul] at this), toI_toU (by omega) x h1 h2] at this
  exact this

/-- Reading a `k`-byte signed number that was cast from an unsigned one. -/
theorem reads_getI_toI {k n : Nat} (hk : 0 < k) (h : n < 2 ^ (8 * k)) :
    Reads (getI k) (putI k (toI (8 * k) n)) (toI (8 * k) n) :=
  reads_getI hk (toI_range (by omega) h).1 (toI_range (by omega) h).2

theorem stable_getU (k : Nat) : Stable (getU k) := (stable_take k).bind fun _ => stable_pure _
theorem stable_getI (k : Nat) : Stable (getI k) := (stable_take k).bind fun _ => stable_pure _

theorem toI_small {k n : Nat} (h : n < 2 ^ (k - 1)) : toI k n = n := by
  rw [toI, if_pos h]

theorem toU_nat {k n : Nat} (h : n < 2 ^ k) : toU k (n : Int) = n := by
  simp only [toU]
  rw [Int.emod_eq_of_lt (by omega) (by exact_mod_cast h)]; rfl

/-! ## Strings -/

theorem fromUtf8_toUTF8 (s : String) : fromUtf8 s.toUTF8.data.toList = .ok s := by
  have : String.fromUTF8? ⟨s.toUTF8.data.toList.toArray⟩ = some s := by
    rw [Array.toArray_toList]
    show String.fromUTF8? s.toByteArray = some s
    unfold String.fromUTF8?
    rw [dif_pos s.isValidUTF8]
    rfl
  rw [fromUtf8, this]

/-- The strings whose byte length fits the format. -/
def StrFits (s : String) : Prop := s.toUTF8.data.toList.length < 2 ^ 31

theorem reads_getStr {s : String} (h : StrFits s) : Reads getStr (putStr s) s := by
  unfold StrFits at h
  have hm : s.toUTF8.data.toList.length % 2 ^ 32 = s.toUTF8.data.toList.length :=
    Nat.mod_eq_of_lt (by omega)
  have h1 := reads_getI_toI (k := 4) (n := s.toUTF8.data.toList.length) (by omega) (by omega)
  unfold putStr getStr
  rw [hm]
  refine h1.bind ?_
  have : toU 64 (toI 32 s.toUTF8.data.toList.length) = s.toUTF8.data.toList.length := by
    rw [toI_small (by omega), toU_nat (by omega)]
  rw [show toI (8 * 4) _ = toI 32 _ from rfl, this]
  have := (reads_take s.toUTF8.data.toList).bind (f := fun b => P.lift (fromUtf8 b))
    (reads_lift (fromUtf8_toUTF8 s))
  rwa [List.append_nil] at this

theorem stable_getStr : Stable getStr :=
  (stable_getI 4).bind fun _ => (stable_take _).bind fun _ => stable_lift _

/-! ## Symbol tables -/

theorem SymTable.ext_ok {t u : SymTable} (ht : t.Ok) (hu : u.Ok) (h : t.names = u.names) : t = u := by
  have : t.ids = u.ids := by
    funext s
    have h1 := fun n => (ht s n)
    have h2 := fun n => (hu s n)
    simp only [SymTable.getLabel, SymTable.getSymbol, h] at h1 h2
    apply Option.ext
    intro n
    exact (h1 n).trans (h2 n).symm
  cases t; cases u; simp_all

/-- Reading back the rows of a good table, starting from a prefix of it. -/
theorem addRows_spec {t : SymTable} (ht : t.Ok) (hlen : t.len ≤ 2 ^ 32) :
    ∀ (l : List String) (p : SymTable), p.Ok → p.names ++ l = t.names →
      addRows p ((l.zipIdx p.names.length).map fun q => ((q.2 : Int), q.1)) = .ok t
  | [], p, hp, h => by
    have : p = t := SymTable.ext_ok hp ht (by simpa using h)
    rw [this]; rfl
  | s :: l, p, hp, h => by
    have hidx : t.getSymbol p.names.length = some s := by
      simp [SymTable.getSymbol, ← h]
    have hnone : p.getLabel s = none := by
      cases hl : p.getLabel s with
      | none => rfl
      | some n =>
        exfalso
        have h1 := (hp s n).1 hl
        have hn : n < p.names.length := (List.getElem?_eq_some_iff.1 h1).1
        have h2 : t.getSymbol n = some s := by
          simp only [SymTable.getSymbol] at h1 ⊢
          rw [← h, List.getElem?_append_left hn, h1]
        have := (ht s n).2 h2
        rw [(ht s _).2 hidx] at this
        cases this; omega
    have hlt : p.names.length < t.len := by
      rw [SymTable.len, ← h]; simp
    simp only [List.zipIdx_cons, List.map_cons, addRows]
    have hok := SymTable.ok_addSymbol hp s
    rw [SymTable.addSymbol_of_none hnone] at hok ⊢
    simp only [SymTable.len] at hlt hlen ⊢
    rw [toU_nat (by omega)]
    have := addRows_spec ht hlen l _ hok (by simpa using h)
    simpa [SymTable.len] using this

/-- The tables that fit the binary format. -/
structure SymTable.Fits (t : SymTable) : Prop where
  len_le : t.len ≤ 2 ^ 32
  str : ∀ s ∈ t.symbols, StrFits s

theorem reads_getRowSymt {n : Nat} {s : String} (hn : n < 2 ^ 32) (hs : StrFits s) :
    Reads getRowSymt (putStr s ++ putI 8 (n : Int)) ((n : Int), s) := by
  refine (reads_getStr hs).bind ?_
  exact (reads_getI (k := 8) (by omega) (by omega) (by omega)).map

theorem reads_getSymt {t : SymTable} (ht : t.Ok) (hf : t.Fits) : Reads getSymt (putSymt t) t := by
  unfold putSymt getSymt
  have hl := hf.len_le
  refine ((reads_getI (k := 4) (by omega) (by decide) (by decide)).verify (by decide)).bind ?_
  refine (reads_getStr (show StrFits _ by unfold StrFits; decide)).bind ?_
  refine (reads_getI_toI (k := 8) (by omega) (by omega)).bind ?_
  refine (reads_getI_toI (k := 8) (by omega) (by omega)).bind ?_
  have hn : toU 64 (toI (8 * 8) t.len) = t.iter.length := by
    rw [show (8 * 8) = 64 from rfl, toU_toI (by omega)]; simp [SymTable.iter, SymTable.len]
  rw [hn]
  have hr : Reads (P.count getRowSymt t.iter.length)
      (t.iter.map fun p => putStr p.2 ++ putI 8 (p.1 : Int)).flatten
      (t.iter.map fun p => ((p.1 : Int), p.2)) := by
    refine Reads.count fun p hp => ?_
    simp only [SymTable.iter, List.mem_map, Prod.exists] at hp
    obtain ⟨a, b, hab, rfl⟩ := hp
    have hab := List.mem_zipIdx_iff_getElem?.1 hab
    have hb := (List.getElem?_eq_some_iff.1 hab).1
    refine reads_getRowSymt ?_ (hf.str _ (List.mem_of_getElem? hab))
    simp only [SymTable.len] at hl
    simp only at hb ⊢
    omega
  have := hr.bind (f := fun rows => P.lift (addRows SymTable.empty rows)) (c := []) (y := t) (by
    apply reads_lift
    have := addRows_spec ht hl t.names SymTable.empty SymTable.ok_empty rfl
    rw [← this]
    simp only [SymTable.iter, List.map_map]
    rfl)
  rwa [List.append_nil] at this

theorem stable_getSymt : Stable getSymt :=
  ((stable_getI 4).verify _).bind fun _ => stable_getStr.bind fun _ => (stable_getI 8).bind fun _ =>
  (stable_getI 8).bind fun _ => ((stable_getStr.bind fun _ => (stable_getI 8).bind fun _ =>
    stable_pure _).count _).bind fun _ => stable_lift _

end Verif
