import Verif.Spec.Graph
import Mathlib.Data.Set.Basic

/-!
# Specification of minimization

An acceptor reads strings of labels; here ε is a label like any other (minimization does not give it a special role). Equality of all
accepting paths, in which ε is the empty string, is stated with `accPaths` (Spec/Path).
-/

namespace Verif
universe u
variable {W : Type u}

namespace Fst

/-- No state has two transitions with the same input label. -/
def Deterministic (f : Fst W) : Prop := ∀ s, ((f.trsOf s).map (·.ilabel)).Nodup

/-- An acceptor in which all weights are one. -/
structure Plain [One W] (f : Fst W) : Prop where
  acceptor : ∀ s, ∀ t ∈ f.trsOf s, t.olabel = t.ilabel
  weight : ∀ s, ∀ t ∈ f.trsOf s, t.weight = 1
  fin : ∀ s w, f.finOf s = some w → w = 1

/-- Reading the labels `x` can lead from `s` to `q`. -/
inductive Reads (f : Fst W) : StateId → List Label → StateId → Prop
  | nil (s) : Reads f s [] s
  | cons {s t x q} : t ∈ f.trsOf s → Reads f t.nextstate x q → Reads f s (t.ilabel :: x) q

/-- The strings read from `s` to a final state. -/
def langFrom (f : Fst W) (s : StateId) : Set (List Label) := {x | ∃ q, f.Reads s x q ∧ f.IsFinal q}

/-- The strings read from the start state to a final state. -/
def language (f : Fst W) : Set (List Label) := {x | ∃ i, f.start = some i ∧ x ∈ f.langFrom i}

/-- The transitions of every state are in the order of their input labels. -/
def ILabelSorted (f : Fst W) : Prop := ∀ s, ((f.trsOf s).map (·.ilabel)).Pairwise (· ≤ ·)

/-- The transitions of every state are in the order `r` of their input labels. -/
def SortedBy (r : Label → Label → Prop) (f : Fst W) : Prop := ∀ s, ((f.trsOf s).map (·.ilabel)).Pairwise r

/-- There is one order of labels in which all states list their transitions: two labels do not occur in one order at one state and in the
other order at another. -/
def OneOrder (f : Fst W) : Prop := ∃ r : Label → Label → Prop, (∀ a b, r a b → r b a → a = b) ∧ f.SortedBy r

/-- No state has two transitions with the same labels and weight, and no state with final weight `w` has an ε-transition with weight `w`. -/
def UniqueTrs (f : Fst W) : Prop := ∀ s, ((f.trsOf s).map fun t => (t.ilabel, t.olabel, t.weight)).Nodup ∧
  ∀ w, f.finOf s = some w → ∀ t ∈ f.trsOf s, (t.ilabel, t.olabel, t.weight) ≠ (EPS, EPS, w)

theorem ILabelSorted.oneOrder {f : Fst W} (h : f.ILabelSorted) : f.OneOrder := ⟨(· ≤ ·), fun _ _ h1 h2 => Nat.le_antisymm h1 h2, h⟩

end Fst

/-- What a heap does that always gives the transition with the smallest label: it reads sorted lists into one sorted list. -/
def HeapMerge (merge : List (List (Tr W)) → List (Tr W)) : Prop :=
  ∀ its, (∀ l ∈ its, (l.map (·.ilabel)).Pairwise (· ≤ ·)) →
    (merge its).Perm its.flatten ∧ ((merge its).map (·.ilabel)).Pairwise (· ≤ ·)

end Verif
