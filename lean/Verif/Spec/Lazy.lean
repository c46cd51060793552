import Verif.Model.Lazy

/-!
# Specification: lazy FSTs

What is asked of a cache and of an operation, and what the answers of a lazy FST must be.
-/

namespace Verif
universe u v w x
variable {W : Type u} {C : Type v} {σ : Type w} {T : Type x}

/-- A cache stores what is inserted, forgets nothing, and keeps the counters of what it stores. -/
structure CacheLaw (K : CacheOps W C) (inv : C → Prop) : Prop where
  inv_empty : inv K.empty
  start_empty : K.getStart K.empty = none
  trs_empty : ∀ s, K.getTrs K.empty s = none
  fin_empty : ∀ s, K.getFinal K.empty s = none
  known_empty : K.numKnown K.empty = 0
  inv_start : ∀ c r, inv c → inv (K.insertStart c r)
  start_start : ∀ c r, inv c → K.getStart (K.insertStart c r) = some r
  trs_start : ∀ c r s, inv c → K.getTrs (K.insertStart c r) s = K.getTrs c s
  fin_start : ∀ c r s, inv c → K.getFinal (K.insertStart c r) s = K.getFinal c s
  known_start : ∀ c r, inv c → K.numKnown (K.insertStart c r) = max (K.numKnown c) (r.elim 0 (· + 1))
  inv_trs : ∀ c s l, inv c → inv (K.insertTrs c s l)
  start_trs : ∀ c s l, inv c → K.getStart (K.insertTrs c s l) = K.getStart c
  trs_trs : ∀ c s l q, inv c → K.getTrs (K.insertTrs c s l) q = if q = s then some l else K.getTrs c q
  fin_trs : ∀ c s l q, inv c → K.getFinal (K.insertTrs c s l) q = K.getFinal c q
  known_trs : ∀ c s l, inv c → K.numKnown (K.insertTrs c s l) = l.foldl (fun k t => max k (t.nextstate + 1)) (K.numKnown c)
  inv_fin : ∀ c s w, inv c → inv (K.insertFinal c s w)
  start_fin : ∀ c s w, inv c → K.getStart (K.insertFinal c s w) = K.getStart c
  trs_fin : ∀ c s w q, inv c → K.getTrs (K.insertFinal c s w) q = K.getTrs c q
  fin_fin : ∀ c s w q, inv c → K.getFinal (K.insertFinal c s w) q = if q = s then some w else K.getFinal c q
  known_fin : ∀ c s w, inv c → K.numKnown (K.insertFinal c s w) = max (K.numKnown c) (s + 1)
  num_trs : ∀ c s, inv c → K.numTrs c s = (K.getTrs c s).map List.length
  num_ieps : ∀ c s, inv c → K.numIEps c s = (K.getTrs c s).map (fun l => l.countP (fun t => t.ilabel == EPS))
  num_oeps : ∀ c s, inv c → K.numOEps c s = (K.getTrs c s).map (fun l => l.countP (fun t => t.olabel == EPS))

/-- The operation computes the machine `M`: in every interior state it gives names to tuples, one name each, which it never takes
back, and answers for a named tuple with the data of that tuple. -/
structure OpLaw (O : LazyOp σ W) (M : Machine T W) (name : σ → StateId → Option T) (inv : σ → Prop) : Prop where
  one : ∀ o, inv o → OneName (name o)
  reach : ∀ o, inv o → ∀ s t, name o s = some t → M.Reach t
  start : ∀ o, inv o → inv (O.computeStart o).2 ∧ (∀ s t, name o s = some t → name (O.computeStart o).2 s = some t) ∧
    ∃ r, (O.computeStart o).1 = .ok r ∧ Option.Rel (fun s t => name (O.computeStart o).2 s = some t) r M.start
  trs : ∀ o, inv o → ∀ s t, name o s = some t → inv (O.computeTrs s o).2 ∧
    (∀ s' t', name o s' = some t' → name (O.computeTrs s o).2 s' = some t') ∧
    ∃ l, (O.computeTrs s o).1 = .ok l ∧ List.Forall₂ (Names (name (O.computeTrs s o).2)) l (M.trs t)
  fin : ∀ o, inv o → ∀ s t, name o s = some t → inv (O.computeFinal s o).2 ∧
    (∀ s' t', name o s' = some t' → name (O.computeFinal s o).2 s' = some t') ∧ (O.computeFinal s o).1 = .ok (M.fin t)

/-- The operation gives names only to the start and to the targets of the transitions it returns. -/
structure TightOp (O : LazyOp σ W) (name : σ → StateId → Option T) (inv : σ → Prop) : Prop where
  start : ∀ o, inv o → ∀ p, (name (O.computeStart o).2 p).isSome → (name o p).isSome ∨ (O.computeStart o).1 = .ok (some p)
  trs : ∀ o, inv o → ∀ s, (name o s).isSome → ∀ p, (name (O.computeTrs s o).2 p).isSome →
    (name o p).isSome ∨ ∃ l, (O.computeTrs s o).1 = .ok l ∧ ∃ tr ∈ l, tr.nextstate = p
  fin : ∀ o, inv o → ∀ s, (name o s).isSome → ∀ p, (name (O.computeFinal s o).2 p).isSome → (name o p).isSome

namespace Lz

/-- The states a client has learnt from an answer. -/
def Answer.told : Answer W → StateId → Prop
  | .start (.ok (some s)), q => q = s
  | .trs (.ok l), q => ∃ t ∈ l, t.nextstate = q
  | _, _ => False

/-- The state a query is about has been learnt. -/
def Query.about (known : StateId → Prop) : Query → Prop
  | .fin s | .trs s | .numTrs s | .numIEps s | .numOEps s => known s
  | _ => True

/-- A client asks only about states it has learnt from earlier answers. -/
def Fair (K : CacheOps W C) (O : LazyOp σ W) : (StateId → Prop) → Lz C σ → List Query → Prop
  | _, _, [] => True
  | known, z, q :: qs => q.about known ∧
      Fair K O (fun s => known s ∨ (z.ask K O q).1.told s) (z.ask K O q).2 qs

/-- The answer is the one the machine `M` gives, with tuples named by `name`. The three counting queries fail as long as the
transitions have not been asked for, so only their successful answers are constrained here. -/
def Correct (M : Machine T W) (name : StateId → Option T) : Query → Answer W → Prop
  | .start, .start r => ∃ s, r = .ok s ∧ Option.Rel (fun s t => name s = some t) s M.start
  | .fin s, .fin r => ∃ t, name s = some t ∧ r = .ok (M.fin t)
  | .trs s, .trs r => ∃ t l, name s = some t ∧ r = .ok l ∧ List.Forall₂ (Names name) l (M.trs t)
  | .numTrs s, .num r => r = .error .err ∨ ∃ t, name s = some t ∧ r = .ok (M.trs t).length
  | .numIEps s, .num r => r = .error .err ∨ ∃ t, name s = some t ∧ r = .ok ((M.trs t).countP (fun a => a.ilabel == EPS))
  | .numOEps s, .num r => r = .error .err ∨ ∃ t, name s = some t ∧ r = .ok ((M.trs t).countP (fun a => a.olabel == EPS))
  | .clear, .unit => True
  | _, _ => False

end Lz
end Verif
