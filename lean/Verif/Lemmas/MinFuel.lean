import Verif.Model.MinimizeFull

/-! # More fuel does not change what minimization returns -/

namespace Verif
open Fst
universe u v
variable {W : Type u} {V : Type v}

theorem hopcroft_mono (merge : List (List (Tr V)) → List (Tr V)) (r : Fst V) : ∀ (n m : Nat) (p : Part) (q : List Nat) (x : R Part),
    hopcroft merge r n p q = some x → n ≤ m → hopcroft merge r m p q = some x
  | 0, _, _, _, _, h, _ => by cases h
  | n + 1, 0, _, _, _, _, hm => by omega
  | n + 1, m + 1, p, [], x, h, _ => h
  | n + 1, m + 1, p, c :: q, x, h, hm => by
    simp only [hopcroft] at h ⊢
    split
    · next e he => rw [he] at h; exact h
    · next p' q' he => rw [he] at h; exact hopcroft_mono merge r n m p' q' x h (by omega)

variable [Zero W] [One W] [DecidableEq W] [Zero V] [One V] [DecidableEq V]

theorem cyclicPartition_mono {rev : W → V} {merge : List (List (Tr V)) → List (Tr V)} {f : Fst W} {n m : Nat} {x : R Part}
    (h : f.cyclicPartition rev merge n = some x) (hm : n ≤ m) : f.cyclicPartition rev merge m = some x := by
  unfold cyclicPartition at h ⊢
  split
  · next e he => rw [he] at h; exact h
  · next r he =>
    rw [he] at h
    simp only at h ⊢
    split
    · next e he' => rw [he'] at h; exact h
    · next p he' => rw [he'] at h; exact hopcroft_mono _ _ _ _ _ _ _ h hm

theorem acceptorMinimize_mono {lt : W → W → Bool} {rev : W → V} {merge : List (List (Tr V)) → List (Tr V)} {allowAcyclic : Bool} {f : Fst W}
    {n m : Nat} {x : R (Fst W)} (h : acceptorMinimize lt rev merge allowAcyclic f n = some x) (hm : n ≤ m) :
    acceptorMinimize lt rev merge allowAcyclic f m = some x := by
  unfold acceptorMinimize at h ⊢
  split
  · next e he => rw [he] at h; exact h
  · next f' p he =>
    rw [he] at h
    simp only at h ⊢
    split
    · next hc => rw [if_pos hc] at h; exact h
    · next hc =>
      rw [if_neg hc] at h
      split
      · next e he' => rw [he'] at h; exact h
      · next g he' =>
        rw [he'] at h
        simp only at h
        split
        · next hc' => rw [if_pos hc'] at h; exact h
        · next hc' =>
          rw [if_neg hc'] at h
          split
          · next ha => rw [if_pos ha] at h; exact h
          · next ha =>
            rw [if_neg ha] at h
            cases hcp : g.cyclicPartition rev merge n with
            | none => rw [hcp] at h; cases h
            | some y => rw [hcp] at h; rw [cyclicPartition_mono hcp hm]; exact h

theorem minimizeEncoded_mono [Add W] [Mul W] {lt : W → W → Bool} {rev : W → V} {merge : List (List (Tr V)) → List (Tr V)} {allowAcyclic : Bool} {f : Fst W}
    {n m : Nat} {x : R (Fst W)} (h : f.minimizeEncoded lt rev merge allowAcyclic n = some x) (hm : n ≤ m) :
    f.minimizeEncoded lt rev merge allowAcyclic m = some x := by
  unfold minimizeEncoded at h ⊢
  split
  · next e he => rw [he] at h; exact h
  · next T e he =>
    rw [he] at h
    simp only at h
    cases hcp : acceptorMinimize lt rev merge allowAcyclic e n with
    | none => rw [hcp] at h; cases h
    | some y => rw [hcp] at h; rw [acceptorMinimize_mono hcp hm]; exact h

end Verif
