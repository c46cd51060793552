import Verif.Model.Core

/-!
# Specification: numbering tables

What a user of a table that numbers tuples may rely on.
-/

namespace Verif
universe u v
variable {T : Type u} {τ : Type v}

/-- The answers to a sequence of requests, and the table afterwards. -/
def askAll (find : τ → T → StateId × τ) (m : τ) : List T → List StateId × τ
  | [] => ([], m)
  | t :: ts => ((find m t).1 :: (askAll find (find m t).2 ts).1, (askAll find (find m t).2 ts).2)

/-- The table numbers tuples one to one by `0, 1, 2, …`, in the order of their first request, and never changes its mind: for
every sequence `h` of requests, answered by `ids`,
* equal tuples get equal ids and different tuples get different ids;
* looking up the tuple of an id gives the tuple that was numbered, now and after any later requests `h'`;
* the ids in use are exactly those below some `n`, and looking up any other id gives nothing;
* later requests do not change the answers to the earlier ones, also when those are repeated. -/
def NumbersTuples (find : τ → T → StateId × τ) (tup : τ → StateId → Option T) (m : τ) : Prop :=
  ∀ h h' : List T, ∀ ids m', askAll find m h = (ids, m') →
    ids.length = h.length ∧
    (∀ (i j : Nat) t u a b, h[i]? = some t → h[j]? = some u → ids[i]? = some a → ids[j]? = some b → (t = u ↔ a = b)) ∧
    (∀ (i : Nat) t a, h[i]? = some t → ids[i]? = some a → tup m' a = some t ∧ tup (askAll find m' h').2 a = some t ∧
      (find (askAll find m' h').2 t).1 = a) ∧
    (∃ n, ∀ s, (s < n ↔ s ∈ ids) ∧ (s < n ↔ (tup m' s).isSome)) ∧
    (askAll find m (h ++ h')).1.take h.length = ids

end Verif
