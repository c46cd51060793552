import Verif.Lemmas.IsoMore
import Verif.Lemmas.DecHist

/-!
# C43: `isomorphic`

`lt` and `approx` are `<` and `approx_equal` of the weights. An exact comparison is one with `approx x y = true ↔ x = y`.
-/

namespace Verif
set_option linter.unusedSectionVars false
universe u
variable {W : Type u} (lt approx : W → W → Bool)

/-- `isomorphic` always ends, within one round per state, and never panics. -/
theorem C43_ends {A B : Fst W} (hA : A.WF) (hB : B.WF) :
    ∃ r, r ≠ Except.error Fail.panic ∧ EndsWith (isomorphic lt approx A B) r := by
  obtain ⟨r, h1, h2, _⟩ := Iso.isomorphic_spec (lt := lt) (approx := approx) hA hB
  exact ⟨r, h2, A.numStates + 1, fun n hn => h1 n (by omega)⟩

/-- If `isomorphic` returns true, the transitions and final weights of the two FSTs agree, up to the tolerance, under some naming
of the accessible states of `A` by the accessible states of `B`. -/
theorem C43_renaming {A B : Fst W} (hA : A.WF) (hB : B.WF) (h : EndsWith (isomorphic lt approx A B) (.ok true)) :
    ∃ φ, Renames (fun x y => approx x y = true) A B φ ∧ (∀ s, A.Accessible s → ∃ t, B.Accessible t ∧ φ s = some t) ∧
      ∀ t, B.Accessible t → ∃ s, A.Accessible s ∧ φ s = some t := by
  obtain ⟨r, h1, _, h3⟩ := Iso.isomorphic_spec (lt := lt) (approx := approx) hA hB
  obtain ⟨N, hN⟩ := h
  have e := h1 (max N (A.numStates + 1)) (by omega)
  rw [hN _ (by omega)] at e
  injection e with e
  obtain ⟨φ, hφ⟩ := h3 e.symm
  exact ⟨φ, hφ, fun s hs => by obtain ⟨t, a, b⟩ := hφ.defined hs; exact ⟨t, b, a⟩, fun t ht => hφ.onto ht⟩

theorem renames_exact {approx : W → W → Bool} (hx : ∀ x y, approx x y = true ↔ x = y) {A B : Fst W} {φ}
    (h : Renames (fun x y => approx x y = true) A B φ) : Renames Eq A B φ := by
  have : (fun x y => approx x y = true) = (Eq : W → W → Prop) := by
    funext x y; exact propext (hx x y)
  rw [this] at h; exact h

/-- If `isomorphic` returns true (weights compared exactly), the FSTs have the same accepting paths. -/
theorem C43_paths [Mul W] (hx : ∀ x y, approx x y = true ↔ x = y) {A B : Fst W} (hA : A.WF) (hB : B.WF)
    (h : EndsWith (isomorphic lt approx A B) (.ok true)) (n : Nat) : A.accPaths n = B.accPaths n := by
  obtain ⟨φ, hφ, _⟩ := C43_renaming lt approx hA hB h
  exact (renames_exact hx hφ).accPaths n

/-- If `isomorphic` returns true both ways round (weights compared exactly), the FSTs are equal up to a renaming of their accessible
states. Full statement: one call is enough. `C43_one_way_not_enough` shows that it is not. -/
theorem C43_isomorphic_partial (hx : ∀ x y, approx x y = true ↔ x = y) {A B : Fst W} (hA : A.WF) (hB : B.WF)
    (h : EndsWith (isomorphic lt approx A B) (.ok true)) (h' : EndsWith (isomorphic lt approx B A) (.ok true)) :
    EqualUpToRenaming A B := by
  obtain ⟨φ, hφ, _⟩ := C43_renaming lt approx hA hB h
  obtain ⟨ψ, hψ, _⟩ := C43_renaming lt approx hB hA h'
  exact ⟨φ, renames_exact hx hφ, fun s s' t hs hs' e e' => hφ.injective hψ hA hB hs hs' e e', fun t ht => hφ.onto ht⟩

/-- Conversely `isomorphic` finds every renaming of an FST without two like transitions in a state: it then returns true, not false
and not an error. -/
theorem C43_complete (hx : ∀ x y, approx x y = true ↔ x = y) (ho : StrictTotal lt) {A B : Fst W} (hA : A.WF) (hB : B.WF)
    (hd : UnweightedDet A) (h : EqualUpToRenaming A B) : EndsWith (isomorphic lt approx A B) (.ok true) := by
  obtain ⟨φ, hφ, _⟩ := h
  obtain ⟨r, h1, _, _⟩ := Iso.isomorphic_spec (lt := lt) (approx := approx) hA hB
  refine ⟨A.numStates + 1, fun n hn => ?_⟩
  have e := h1 n (by omega)
  rw [e]
  congr 1
  have hst := hφ.start
  unfold isomorphic at e
  rcases ha : A.start with _ | s <;> rcases hb : B.start with _ | t
  · rw [ha, hb] at e
    injection e with e; exact e.symm
  · rw [ha, hb] at hst; cases hst
  · rw [ha, hb] at hst; cases hst
  · rw [ha, hb] at hst e
    cases hst with
    | some hst =>
      obtain ⟨i, e1, hi, hm, _, hn, hq⟩ := Iso.init_inv (approx := approx) (hA.start_lt s ha) (hB.start_lt t hb)
      simp only [e1] at e
      refine Iso.loop_complete hx ho hA hB hφ hd n i r hi ?_ hn e
      obtain ⟨b, i', e2, _, _, _, _, _, q2⟩ := Iso.pairState_spec (⟨List.replicate A.numStates none, [], false⟩ : Iso)
        (s1 := s) (s2 := t) (by simpa using hA.start_lt s ha)
      rw [e1] at e2
      injection e2 with e2; injection e2 with _ e2; subst e2
      intro x y hxy
      rcases q2 x y hxy with h | ⟨rfl, rfl⟩
      · simp only [Iso.map, List.getElem?_replicate] at h
        split at h <;> cases h
      · exact hst

/-! ## Examples and counterexamples -/

/-- `0 -1-> 1`, `0 -2-> 2`, with 1 and 2 final. -/
def exIsoFork : Fst Nat :=
  ⟨[⟨none, [⟨1, 1, 1, 1⟩, ⟨2, 2, 1, 2⟩], 0, 0⟩, ⟨some 1, [], 0, 0⟩, ⟨some 1, [], 0, 0⟩], some 0, fun _ => false⟩

/-- The same FST with its final states shared. -/
def exIsoShared : Fst Nat :=
  ⟨[⟨none, [⟨1, 1, 1, 1⟩, ⟨2, 2, 1, 1⟩], 0, 0⟩, ⟨some 1, [], 0, 0⟩], some 0, fun _ => false⟩

/-- `exIsoFork` with other numbers, another order of the transitions, and a state that is not accessible. -/
def exIsoForkRenamed : Fst Nat :=
  ⟨[⟨some 1, [], 0, 0⟩, ⟨some 1, [], 0, 0⟩, ⟨none, [⟨2, 2, 1, 0⟩, ⟨1, 1, 1, 1⟩], 0, 0⟩, ⟨none, [], 0, 0⟩], some 2, fun _ => false⟩

/-- `0 -1-> 0`, `0 -1-> 1`, with 1 final. -/
def exIsoNd : Fst Nat :=
  ⟨[⟨none, [⟨1, 1, 1, 0⟩, ⟨1, 1, 1, 1⟩], 0, 0⟩, ⟨some 1, [], 0, 0⟩], some 0, fun _ => false⟩

/-- The same FST with the numbers of its states exchanged. -/
def exIsoNdSwapped : Fst Nat :=
  ⟨[⟨some 1, [], 0, 0⟩, ⟨none, [⟨1, 1, 1, 1⟩, ⟨1, 1, 1, 0⟩], 0, 0⟩], some 1, fun _ => false⟩

/-- `<` of natural numbers. -/
def exLt (a b : Nat) : Bool := decide (a < b)

/-- `==` of natural numbers. -/
def exEq (a b : Nat) : Bool := decide (a = b)

theorem exLt_total : StrictTotal exLt :=
  ⟨fun a => by simp [exLt], fun a b c => by simp only [exLt, decide_eq_true_eq]; omega,
    fun a b => by simp only [exLt, decide_eq_true_eq]; omega⟩

theorem exEq_exact (x y : Nat) : exEq x y = true ↔ x = y := by simp [exEq]

theorem exIso_endsWith {A B : Fst Nat} (hA : A.WF) (hB : B.WF) {r} (h : isomorphic exLt exEq A B (A.numStates + 1) = some r) :
    EndsWith (isomorphic exLt exEq A B) r := by
  obtain ⟨r', h1, _, _⟩ := Iso.isomorphic_spec (lt := exLt) (approx := exEq) hA hB
  have := h1 (A.numStates + 1) (by omega)
  rw [h] at this
  injection this with this
  subst this
  exact ⟨A.numStates + 1, fun n hn => h1 n (by omega)⟩

theorem exIsoFork_wf : exIsoFork.WF := Fst.wf_of_wfB (by decide +kernel)
theorem exIsoShared_wf : exIsoShared.WF := Fst.wf_of_wfB (by decide +kernel)
theorem exIsoForkRenamed_wf : exIsoForkRenamed.WF := Fst.wf_of_wfB (by decide +kernel)
theorem exIsoNd_wf : exIsoNd.WF := Fst.wf_of_wfB (by decide +kernel)
theorem exIsoNdSwapped_wf : exIsoNdSwapped.WF := Fst.wf_of_wfB (by decide +kernel)

example : EndsWith (isomorphic exLt exEq exIsoFork exIsoForkRenamed) (.ok true) :=
  exIso_endsWith exIsoFork_wf exIsoForkRenamed_wf (by decide +kernel)

example : EqualUpToRenaming exIsoFork exIsoForkRenamed :=
  C43_isomorphic_partial exLt exEq exEq_exact exIsoFork_wf exIsoForkRenamed_wf
    (exIso_endsWith exIsoFork_wf exIsoForkRenamed_wf (by decide +kernel))
    (exIso_endsWith exIsoForkRenamed_wf exIsoFork_wf (by decide +kernel))

example : UnweightedDet exIsoFork := by
  intro s
  match s with
  | 0 => simp [exIsoFork, Fst.trsOf]
  | 1 => simp [exIsoFork, Fst.trsOf]
  | 2 => simp [exIsoFork, Fst.trsOf]
  | n + 3 => simp [exIsoFork, Fst.trsOf]

/-- The order of the arguments matters, and one answer "true" does not make the FSTs equal up to renaming: states of the first FST
may be merged. -/
theorem C43_one_way_not_enough :
    EndsWith (isomorphic exLt exEq exIsoFork exIsoShared) (.ok true) ∧
    EndsWith (isomorphic exLt exEq exIsoShared exIsoFork) (.ok false) ∧ UnweightedDet exIsoFork ∧ UnweightedDet exIsoShared ∧
    ¬ EqualUpToRenaming exIsoFork exIsoShared := by
  refine ⟨exIso_endsWith exIsoFork_wf exIsoShared_wf (by decide +kernel),
    exIso_endsWith exIsoShared_wf exIsoFork_wf (by decide +kernel), ?_, ?_, ?_⟩
  · intro s
    match s with
    | 0 => simp [exIsoFork, Fst.trsOf]
    | 1 => simp [exIsoFork, Fst.trsOf]
    | 2 => simp [exIsoFork, Fst.trsOf]
    | n + 3 => simp [exIsoFork, Fst.trsOf]
  · intro s
    match s with
    | 0 => simp [exIsoShared, Fst.trsOf]
    | 1 => simp [exIsoShared, Fst.trsOf]
    | n + 2 => simp [exIsoShared, Fst.trsOf]
  · rintro ⟨φ, hφ, hinj, _⟩
    have a1 : exIsoFork.Accessible 1 := ⟨0, rfl, Relation.ReflTransGen.single ⟨⟨1, 1, 1, 1⟩, by decide, rfl⟩⟩
    have a2 : exIsoFork.Accessible 2 := ⟨0, rfl, Relation.ReflTransGen.single ⟨⟨2, 2, 1, 2⟩, by decide, rfl⟩⟩
    have key : ∀ s, exIsoFork.finOf s = some 1 → exIsoFork.Accessible s → φ s = some 1 := by
      intro s hf hs
      obtain ⟨t, ht, _⟩ := hφ.defined hs
      have := hφ.fin s t ht
      rw [hf] at this
      match t, ht, this with
      | 0, _, h => cases h
      | 1, ht, _ => exact ht
      | n + 2, _, h =>
        have : exIsoShared.finOf (n + 2) = none := Fst.finOf_of_ge (by simp [exIsoShared, Fst.numStates])
        rw [this] at h
        cases h
    have := hinj 1 2 1 a1 a2 (key 1 rfl a1) (key 2 rfl a2)
    omega

/-- On an FST with two like transitions in a state, the answer may be "false", without an error, although the FSTs are equal up to
renaming: the error is raised only for a failure after the second of these transitions has been accepted. -/
theorem C43_false_negative :
    EndsWith (isomorphic exLt exEq exIsoNd exIsoNdSwapped) (.ok false) ∧ EqualUpToRenaming exIsoNd exIsoNdSwapped := by
  refine ⟨exIso_endsWith exIsoNd_wf exIsoNdSwapped_wf (by decide +kernel), fun s => if s = 0 then some 1 else if s = 1 then some 0 else none,
    ⟨Option.Rel.some rfl, ?_, ?_⟩, ?_, ?_⟩
  · intro s t h
    match s with
    | 0 => simp at h; subst h; exact Option.Rel.none
    | 1 => simp at h; subst h; exact Option.Rel.some rfl
    | n + 2 => simp at h
  · intro s t h
    match s with
    | 0 => simp at h; subst h; exact ⟨_, List.Perm.refl _, by simp [exIsoNd, exIsoNdSwapped, Fst.trsOf]⟩
    | 1 => simp at h; subst h; exact ⟨[], List.Perm.refl _, List.Forall₂.nil⟩
    | n + 2 => simp at h
  · intro s s' t _ _ h h'
    simp only at h h'
    split at h
    · split at h'
      · omega
      · split at h'
        · rw [← h'] at h; cases h
        · cases h'
    · split at h
      · split at h'
        · rw [← h'] at h; cases h
        · split at h'
          · omega
          · cases h'
      · cases h
  · intro t ht
    have := exIsoNdSwapped_wf.lt_of_accessible ht
    match t, this with
    | 0, _ => exact ⟨1, ⟨0, rfl, Relation.ReflTransGen.single ⟨⟨1, 1, 1, 1⟩, by decide, rfl⟩⟩, rfl⟩
    | 1, _ => exact ⟨0, ⟨0, rfl, Relation.ReflTransGen.refl⟩, rfl⟩
    | n + 2, h => simp [exIsoNdSwapped, Fst.numStates] at h; omega

end Verif
