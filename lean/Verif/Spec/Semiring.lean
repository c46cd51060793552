import Verif.Model.Weights

/-!
# What a weight type promises (`semirings/semiring.rs`)

The laws that the documentation of `Semiring` and of the bits of `SemiringProperties` (semiring.rs 14-36) state, for operations that
may fail. An equation between two results says that both fail in the same way or both succeed with the same value.
`good` delimits the values the type is meant to hold.
-/

namespace Verif
universe u
variable {W : Type u}

/-- The laws of `Semiring`, with the distributivity, commutativity, idempotence and path laws that `flags` advertises. -/
structure Lawful (o : WeightOps W) (good : W → Prop) : Prop where
  good_zero : good o.zero
  good_one : good o.one
  good_plus : ∀ a b s, good a → good b → o.plus a b = .ok s → good s
  good_times : ∀ a b s, good a → good b → o.times a b = .ok s → good s
  plus_assoc : ∀ a b c, good a → good b → good c →
    (do let x ← o.plus a b; o.plus x c) = (do let y ← o.plus b c; o.plus a y)
  plus_comm : ∀ a b, good a → good b → o.plus a b = o.plus b a
  plus_zero : ∀ a, good a → o.plus a o.zero = .ok a
  zero_plus : ∀ a, good a → o.plus o.zero a = .ok a
  times_assoc : ∀ a b c, good a → good b → good c →
    (do let x ← o.times a b; o.times x c) = (do let y ← o.times b c; o.times a y)
  times_one : ∀ a, good a → o.times a o.one = .ok a
  one_times : ∀ a, good a → o.times o.one a = .ok a
  times_zero : ∀ a, good a → o.times a o.zero = .ok o.zero
  zero_times : ∀ a, good a → o.times o.zero a = .ok o.zero
  left : o.flags.left = true → ∀ a b c s, good a → good b → good c → o.plus a b = .ok s →
    o.times c s = (do let x ← o.times c a; let y ← o.times c b; o.plus x y)
  right : o.flags.right = true → ∀ a b c s, good a → good b → good c → o.plus a b = .ok s →
    o.times s c = (do let x ← o.times a c; let y ← o.times b c; o.plus x y)
  commutative : o.flags.commutative = true → ∀ a b, good a → good b → o.times a b = o.times b a
  idempotent : o.flags.idempotent = true → ∀ a, good a → o.plus a a = .ok a
  path : o.flags.path = true → ∀ a b, good a → good b → o.plus a b = .ok a ∨ o.plus a b = .ok b

/-- Every law of `SemiringProperties` that holds is advertised. -/
structure Advertised (o : WeightOps W) : Prop where
  left : (∀ a b c s, o.plus a b = .ok s → o.times c s = (do let x ← o.times c a; let y ← o.times c b; o.plus x y)) → o.flags.left = true
  right : (∀ a b c s, o.plus a b = .ok s → o.times s c = (do let x ← o.times a c; let y ← o.times b c; o.plus x y)) → o.flags.right = true
  commutative : (∀ a b, o.times a b = o.times b a) → o.flags.commutative = true
  idempotent : (∀ a, o.plus a a = .ok a) → o.flags.idempotent = true
  path : (∀ a b, o.plus a b = .ok a ∨ o.plus a b = .ok b) → o.flags.path = true

/-- Both operations always succeed. -/
def Total (o : WeightOps W) : Prop := ∀ a b, (∃ s, o.plus a b = .ok s) ∧ ∃ p, o.times a b = .ok p

end Verif
