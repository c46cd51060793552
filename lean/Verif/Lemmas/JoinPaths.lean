import Verif.Spec.Compose
import Verif.Lemmas.Graded
import Verif.Lemmas.FactorSums

/-! # Joining collections of paths; paths sorted by whether they begin with ε -/

namespace Verif
universe u
variable {W : Type u}

section
variable [Mul W]

theorem join_add_left (P P' Q : Multiset (PathT W)) : joinPaths (P + P') Q = joinPaths P Q + joinPaths P' Q := by
  simp [joinPaths]

theorem join_add_right (P Q Q' : Multiset (PathT W)) : joinPaths P (Q + Q') = joinPaths P Q + joinPaths P Q' := by
  simp [joinPaths, Multiset.filter_add, Multiset.bind_add]

@[simp] theorem join_zero_left (Q : Multiset (PathT W)) : joinPaths 0 Q = 0 := by simp [joinPaths]
@[simp] theorem join_zero_right (P : Multiset (PathT W)) : joinPaths P 0 = 0 := by simp [joinPaths]

theorem join_bind_left {α : Type*} (A : Multiset α) (F : α → Multiset (PathT W)) (Q) :
    joinPaths (A.bind F) Q = A.bind fun a => joinPaths (F a) Q := by
  induction A using Multiset.induction_on with
  | empty => simp
  | cons a A ih => rw [Multiset.cons_bind, Multiset.cons_bind, join_add_left, ih]

theorem join_bind_right {α : Type*} (A : Multiset α) (F : α → Multiset (PathT W)) (P) :
    joinPaths P (A.bind F) = A.bind fun a => joinPaths P (F a) := by
  induction A using Multiset.induction_on with
  | empty => simp
  | cons a A ih => rw [Multiset.cons_bind, Multiset.cons_bind, join_add_right, ih]

theorem join_singleton (p : PathT W) (Q) : joinPaths {p} Q = (Q.filter fun q => q.1 = p.2.1).map fun q => (p.1, q.2.1, p.2.2 * q.2.2) := by
  simp [joinPaths]

theorem join_cons (p : PathT W) (P Q) : joinPaths (p ::ₘ P) Q = joinPaths {p} Q + joinPaths P Q := by
  rw [← Multiset.singleton_add, join_add_left]

theorem mem_join {P Q : Multiset (PathT W)} {r : PathT W} : r ∈ joinPaths P Q ↔ ∃ p ∈ P, ∃ q ∈ Q, q.1 = p.2.1 ∧ r = (p.1, q.2.1, p.2.2 * q.2.2) := by
  simp only [joinPaths, Multiset.mem_bind, Multiset.mem_map, Multiset.mem_filter]
  constructor
  · rintro ⟨p, hp, q, ⟨hq, e⟩, rfl⟩; exact ⟨p, hp, q, hq, e, rfl⟩
  · rintro ⟨p, hp, q, hq, e, rfl⟩; exact ⟨p, hp, q, ⟨hq, e⟩, rfl⟩

end

theorem join_map_left [Semigroup W] (x : List Label) (w : W) (P Q : Multiset (PathT W)) :
    joinPaths (P.map fun p => PathT.cat (x, [], w) p) Q = (joinPaths P Q).map fun p => PathT.cat (x, [], w) p := by
  simp only [joinPaths, Multiset.bind_map, Multiset.map_bind, Multiset.map_map]
  refine Multiset.bind_congr fun p _ => ?_
  simp [PathT.cat, Function.comp_def, mul_assoc]
  rfl

theorem join_map_right [CommSemigroup W] (z : List Label) (w : W) (P Q : Multiset (PathT W)) :
    joinPaths P (Q.map fun p => PathT.cat ([], z, w) p) = (joinPaths P Q).map fun p => PathT.cat ([], z, w) p := by
  simp only [joinPaths, Multiset.map_bind, Multiset.map_map, Multiset.filter_map, Function.comp_def]
  refine Multiset.bind_congr fun p _ => ?_
  simp [PathT.cat, mul_left_comm]
  rfl

theorem join_map_both [CommSemigroup W] (x z : List Label) (l l' : Label) (w w' : W) (P Q : Multiset (PathT W)) :
    joinPaths (P.map fun p => PathT.cat (x, [l], w) p) (Q.map fun p => PathT.cat ([l'], z, w') p) =
      if l' = l then (joinPaths P Q).map fun p => PathT.cat (x, z, w * w') p else 0 := by
  simp only [joinPaths, Multiset.map_bind, Multiset.map_map, Multiset.filter_map, Multiset.bind_map, Function.comp_def]
  by_cases h : l' = l
  · subst h
    rw [if_pos rfl]
    refine Multiset.bind_congr fun p _ => ?_
    simp [PathT.cat, mul_mul_mul_comm]
  · rw [if_neg h]
    refine bind_eq_zero_of _ _ fun p _ => ?_
    simp [PathT.cat, h]

/-! ### Paths by their first label -/

section
variable [Mul W]

/-- The transitions of `s` whose label is ε (`e`), or is not. -/
def clsTrs (sel : Tr W → Label) (f : Fst W) (e : Bool) (s : StateId) : Multiset (Tr W) :=
  (f.trsOf s : Multiset (Tr W)).filter fun t => decide (sel t = EPS) = e

/-- The paths that begin with such a transition; a path without transitions does not begin with ε. -/
def pathsC (sel : Tr W → Label) (f : Fst W) (e : Bool) : Nat → StateId → Multiset (PathT W)
  | 0, s => if e then 0 else finPath (f.finOf s)
  | n + 1, s => (clsTrs sel f e s).bind fun t => (f.pathsFrom n t.nextstate).map fun p => t.asPath.cat p

omit [Mul W] in
theorem clsTrs_add (sel : Tr W → Label) (f : Fst W) (s) : (f.trsOf s : Multiset (Tr W)) = clsTrs sel f true s + clsTrs sel f false s := by
  unfold clsTrs
  conv_lhs => rw [← Multiset.filter_add_not (fun t => decide (sel t = EPS) = true) (f.trsOf s : Multiset (Tr W))]
  simp

theorem paths_cls (sel : Tr W → Label) (f : Fst W) (n s) : f.pathsFrom n s = pathsC sel f true n s + pathsC sel f false n s := by
  cases n with
  | zero => simp [pathsC, finPath, Fst.pathsFrom]; rfl
  | succ n =>
    rw [Fst.pathsFrom_succ, clsTrs_add sel, Multiset.add_bind]
    rfl

theorem join_fin (w1 w2 : Option W) : joinPaths (finPath w1) (finPath w2) =
    match w1, w2 with
    | some w1, some w2 => {([], [], w1 * w2)}
    | _, _ => 0 := by
  cases w1 <;> cases w2 <;> simp [finPath, joinPaths, Multiset.filter_singleton]

end

section
variable [CommSemigroup W] {A B : Fst W}

/-- The first FST begins with ε on its output. -/
theorem join_eps_left (n s1) (Q : Multiset (PathT W)) : joinPaths (pathsC Tr.olabel A true (n + 1) s1) Q =
    (clsTrs Tr.olabel A true s1).bind fun a => (joinPaths (A.pathsFrom n a.nextstate) Q).map fun p => PathT.cat (strip a.ilabel, [], a.weight) p := by
  simp only [pathsC, join_bind_left]
  refine Multiset.bind_congr fun a ha => ?_
  have h0 : a.olabel = EPS := by simpa [clsTrs] using (Multiset.mem_filter.1 ha).2
  rw [← join_map_left]
  simp [Tr.asPath, h0]

/-- The second begins with ε on its input. -/
theorem join_eps_right (m s2) (P : Multiset (PathT W)) : joinPaths P (pathsC Tr.ilabel B true (m + 1) s2) =
    (clsTrs Tr.ilabel B true s2).bind fun b => (joinPaths P (B.pathsFrom m b.nextstate)).map fun p => PathT.cat ([], strip b.olabel, b.weight) p := by
  simp only [pathsC, join_bind_right]
  refine Multiset.bind_congr fun a ha => ?_
  have h0 : a.ilabel = EPS := by simpa [clsTrs] using (Multiset.mem_filter.1 ha).2
  rw [← join_map_right]
  simp [Tr.asPath, h0]

/-- Both begin with ε. -/
theorem join_eps_both (n m s1 s2) : joinPaths (pathsC Tr.olabel A true (n + 1) s1) (pathsC Tr.ilabel B true (m + 1) s2) =
    (clsTrs Tr.olabel A true s1).bind fun a => (clsTrs Tr.ilabel B true s2).bind fun b =>
      (joinPaths (A.pathsFrom n a.nextstate) (B.pathsFrom m b.nextstate)).map fun p => PathT.cat (strip a.ilabel, strip b.olabel, a.weight * b.weight) p := by
  rw [join_eps_left]
  refine Multiset.bind_congr fun a ha => ?_
  rw [join_eps_right, Multiset.map_bind]
  refine Multiset.bind_congr fun b hb => ?_
  rw [Multiset.map_map]
  refine Multiset.map_congr rfl fun p _ => ?_
  simp [PathT.cat, mul_assoc]

/-- Both begin with a label. -/
theorem join_match (n m s1 s2) : joinPaths (pathsC Tr.olabel A false (n + 1) s1) (pathsC Tr.ilabel B false (m + 1) s2) =
    (clsTrs Tr.olabel A false s1).bind fun a => ((clsTrs Tr.ilabel B false s2).filter fun b => b.ilabel = a.olabel).bind fun b =>
      (joinPaths (A.pathsFrom n a.nextstate) (B.pathsFrom m b.nextstate)).map fun p => PathT.cat (strip a.ilabel, strip b.olabel, a.weight * b.weight) p := by
  simp only [pathsC, join_bind_left]
  refine Multiset.bind_congr fun a ha => ?_
  have h0 : a.olabel ≠ EPS := by simpa [clsTrs] using (Multiset.mem_filter.1 ha).2
  rw [join_bind_right]
  have key : ∀ b ∈ clsTrs Tr.ilabel B false s2, joinPaths ((A.pathsFrom n a.nextstate).map fun p => a.asPath.cat p) ((B.pathsFrom m b.nextstate).map fun p => b.asPath.cat p) =
      if b.ilabel = a.olabel then (joinPaths (A.pathsFrom n a.nextstate) (B.pathsFrom m b.nextstate)).map fun p => PathT.cat (strip a.ilabel, strip b.olabel, a.weight * b.weight) p else 0 := by
    intro b hb
    have h1 : b.ilabel ≠ EPS := by simpa [clsTrs] using (Multiset.mem_filter.1 hb).2
    rw [← join_map_both]
    simp [Tr.asPath, strip, h0, h1]
  rw [Multiset.bind_congr key]
  generalize clsTrs Tr.ilabel B false s2 = S
  induction S using Multiset.induction_on with
  | empty => simp
  | cons b S ih =>
    rw [Multiset.cons_bind, ih]
    by_cases h : b.ilabel = a.olabel
    · rw [Multiset.filter_cons_of_pos (p := fun b => b.ilabel = a.olabel) (a := b) _ h, Multiset.cons_bind, if_pos h]
    · rw [Multiset.filter_cons_of_neg (p := fun b => b.ilabel = a.olabel) (a := b) _ h, if_neg h, zero_add]

theorem out_nil {A : Fst W} {n s} {p : PathT W} (h : p ∈ pathsC Tr.olabel A false (n + 1) s) : p.2.1 ≠ [] := by
  simp only [pathsC, Multiset.mem_bind, Multiset.mem_map] at h
  obtain ⟨a, ha, q, _, rfl⟩ := h
  have h0 : a.olabel ≠ EPS := by simpa [clsTrs] using (Multiset.mem_filter.1 ha).2
  simp [PathT.cat, Tr.asPath, strip, h0]

theorem in_nil {A : Fst W} {n s} {p : PathT W} (h : p ∈ pathsC Tr.ilabel A false (n + 1) s) : p.1 ≠ [] := by
  simp only [pathsC, Multiset.mem_bind, Multiset.mem_map] at h
  obtain ⟨a, ha, q, _, rfl⟩ := h
  have h0 : a.ilabel ≠ EPS := by simpa [clsTrs] using (Multiset.mem_filter.1 ha).2
  simp [PathT.cat, Tr.asPath, strip, h0]

omit [CommSemigroup W] in
theorem fin_nil {w : Option W} {p : PathT W} (h : p ∈ finPath w) : p.1 = [] ∧ p.2.1 = [] := by
  cases w <;> simp [finPath] at h; subst h; exact ⟨rfl, rfl⟩

theorem join_end_left (m s1 s2) : joinPaths (pathsC Tr.olabel A false 0 s1) (pathsC Tr.ilabel B false (m + 1) s2) = 0 := by
  refine Multiset.eq_zero_of_forall_notMem fun r hr => ?_
  obtain ⟨p, hp, q, hq, e, _⟩ := mem_join.1 hr
  have := (fin_nil (by simpa [pathsC] using hp)).2
  exact in_nil hq (e.trans this)

theorem join_end_right (n s1 s2) : joinPaths (pathsC Tr.olabel A false (n + 1) s1) (pathsC Tr.ilabel B false 0 s2) = 0 := by
  refine Multiset.eq_zero_of_forall_notMem fun r hr => ?_
  obtain ⟨p, hp, q, hq, e, _⟩ := mem_join.1 hr
  have := (fin_nil (by simpa [pathsC] using hq)).1
  exact out_nil hp (e.symm.trans this)

end

/-! ### Up to paths of weight zero -/

section
variable [MonoidWithZero W] [DecidableEq W]

theorem nz_map {A B : Multiset (PathT W)} (h : nonzero A = nonzero B) (a : PathT W) :
    nonzero (A.map fun p => a.cat p) = nonzero (B.map fun p => a.cat p) := by
  rw [nonzero_cat, h, ← nonzero_cat]

theorem nz_bindM {α : Type*} (S : Multiset α) {F G : α → Multiset (PathT W)} (h : ∀ a ∈ S, nonzero (F a) = nonzero (G a)) :
    nonzero (S.bind F) = nonzero (S.bind G) := by
  induction S using Multiset.induction_on with
  | empty => rfl
  | cons a S ih =>
    rw [Multiset.cons_bind, Multiset.cons_bind, nonzero_add, nonzero_add, h a (by simp), ih fun b hb => h b (by simp [hb])]

theorem nz_add {A B A' B' : Multiset (PathT W)} (h : nonzero A = nonzero B) (h' : nonzero A' = nonzero B') :
    nonzero (A + A') = nonzero (B + B') := by
  rw [nonzero_add, nonzero_add, h, h']

theorem mem_nonzero {A : Multiset (PathT W)} {p} : p ∈ nonzero A ↔ p ∈ A ∧ p.2.2 ≠ 0 := by
  simp [nonzero]

theorem nonzero_eq_zero {A : Multiset (PathT W)} : nonzero A = 0 ↔ ∀ p ∈ A, p.2.2 = 0 := by
  simp [nonzero, Multiset.filter_eq_nil]

theorem join_vanish_left {P : Multiset (PathT W)} (h : nonzero P = 0) (Q) : nonzero (joinPaths P Q) = 0 := by
  rw [nonzero_eq_zero] at h ⊢
  intro r hr
  obtain ⟨p, hp, q, hq, e, rfl⟩ := mem_join.1 hr
  simp [h p hp]

theorem join_vanish_right {Q : Multiset (PathT W)} (h : nonzero Q = 0) (P) : nonzero (joinPaths P Q) = 0 := by
  rw [nonzero_eq_zero] at h ⊢
  intro r hr
  obtain ⟨p, hp, q, hq, e, rfl⟩ := mem_join.1 hr
  simp [h q hq]

end
end Verif
