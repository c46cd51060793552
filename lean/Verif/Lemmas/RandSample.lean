import Verif.Model.RandGen
import Verif.Spec.RandGen
import Verif.Lemmas.Access
import Mathlib.Tactic.Common

/-!
# Random paths: one sampling
-/

namespace Verif
universe u v
variable {W : Type u}

/-! ### The map of samples -/

/-- The entries of a map of samples: in order, positive, and of sum `n`. -/
structure MapOk (P : Nat → Prop) (n : Nat) (m : List (Nat × Nat)) : Prop where
  sorted : m.Pairwise (fun a b => a.1 < b.1)
  pos : ∀ a ∈ m, 0 < a.2
  legal : ∀ a ∈ m, P a.1
  total : (m.map (·.2)).sum = n

theorem mem_bump {m : List (Nat × Nat)} {k : Nat} {a : Nat × Nat} (h : a ∈ bump m k) :
    (a.1 = k ∨ ∃ b ∈ m, a.1 = b.1) ∧ (0 < a.2 ∨ a ∈ m) := by
  induction m with
  | nil => simp only [bump, List.mem_singleton] at h; subst h; exact ⟨Or.inl rfl, Or.inl Nat.one_pos⟩
  | cons b m ih =>
    obtain ⟨p, c⟩ := b
    unfold bump at h
    split at h
    · rcases List.mem_cons.1 h with rfl | h
      · exact ⟨Or.inl rfl, Or.inl Nat.one_pos⟩
      · exact ⟨Or.inr ⟨a, h, rfl⟩, Or.inr h⟩
    · split at h
      · rcases List.mem_cons.1 h with rfl | h
        · exact ⟨Or.inr ⟨_, List.mem_cons_self, rfl⟩, Or.inl (Nat.succ_pos _)⟩
        · exact ⟨Or.inr ⟨a, List.mem_cons_of_mem _ h, rfl⟩, Or.inr (List.mem_cons_of_mem _ h)⟩
      · rcases List.mem_cons.1 h with rfl | h
        · exact ⟨Or.inr ⟨_, List.mem_cons_self, rfl⟩, Or.inr List.mem_cons_self⟩
        · obtain ⟨h1, h2⟩ := ih h
          refine ⟨?_, h2.imp_right (List.mem_cons_of_mem _)⟩
          rcases h1 with h1 | ⟨b, hb, h1⟩
          · exact Or.inl h1
          · exact Or.inr ⟨b, List.mem_cons_of_mem _ hb, h1⟩

theorem bump_sorted {m : List (Nat × Nat)} (k : Nat) (h : m.Pairwise (fun a b => a.1 < b.1)) : (bump m k).Pairwise (fun a b => a.1 < b.1) := by
  induction m with
  | nil => simp [bump]
  | cons b m ih =>
    obtain ⟨p, c⟩ := b
    rw [List.pairwise_cons] at h
    unfold bump
    split
    · rename_i hk
      rw [List.pairwise_cons]
      refine ⟨fun a ha => ?_, List.pairwise_cons.2 h⟩
      rcases List.mem_cons.1 ha with rfl | ha
      · exact hk
      · exact lt_trans hk (h.1 a ha)
    · split
      · exact List.pairwise_cons.2 ⟨fun a ha => h.1 a ha, h.2⟩
      · rename_i h1 h2
        refine List.pairwise_cons.2 ⟨fun a ha => ?_, ih h.2⟩
        rcases (mem_bump ha).1 with e | ⟨b, hb, e⟩
        · show p < a.1; omega
        · show p < a.1; rw [e]; exact h.1 b hb

theorem bump_sum (m : List (Nat × Nat)) (k : Nat) : ((bump m k).map (·.2)).sum = (m.map (·.2)).sum + 1 := by
  induction m with
  | nil => simp [bump]
  | cons b m ih =>
    obtain ⟨p, c⟩ := b
    unfold bump
    split
    · simp only [List.map_cons, List.sum_cons]; omega
    · split
      · simp only [List.map_cons, List.sum_cons]; omega
      · simp only [List.map_cons, List.sum_cons, ih]; omega

theorem MapOk.bump {P : Nat → Prop} {n : Nat} {m : List (Nat × Nat)} (h : MapOk P n m) {k : Nat} (hk : P k) : MapOk P (n + 1) (bump m k) where
  sorted := bump_sorted k h.sorted
  pos a ha := (mem_bump ha).2.elim id (h.pos a)
  legal a ha := by
    rcases (mem_bump ha).1 with e | ⟨b, hb, e⟩
    · rw [e]; exact hk
    · rw [e]; exact h.legal b hb
  total := by rw [bump_sum, h.total]

theorem sampleLoop_ok {σ : Type v} {sel : Selector σ} {s : StateId} {P : Nat → Prop} (hs : ∀ g, ∃ k g', sel g s = (.ok k, g') ∧ P k) (n : Nat) :
    ∀ j m g, MapOk P j m → ∃ m' g', sampleLoop sel s n m g = (.ok m', g') ∧ MapOk P (j + n) m' := by
  induction n with
  | zero => intro j m g h; exact ⟨m, g, rfl, h⟩
  | succ n ih =>
    intro j m g h
    obtain ⟨k, g1, e, hk⟩ := hs g
    obtain ⟨m', g', e', h'⟩ := ih (j + 1) (Verif.bump m k) g1 (h.bump hk)
    refine ⟨m', g', ?_, by rw [show j + (n + 1) = j + 1 + n by omega]; exact h'⟩
    rw [sampleLoop, e]
    exact e'

/-- Positions below `N` come first, `N` last. -/
theorem split_last {m : List (Nat × Nat)} {N : Nat} (hs : m.Pairwise (fun a b => a.1 < b.1)) (hl : ∀ a ∈ m, a.1 ≤ N) (hp : ∀ a ∈ m, 0 < a.2) :
    ∃ ms c, m = ms ++ (if c = 0 then [] else [(N, c)]) ∧ ∀ a ∈ ms, a.1 < N := by
  induction m with
  | nil => exact ⟨[], 0, rfl, fun _ h => by cases h⟩
  | cons a m ih =>
    rw [List.pairwise_cons] at hs
    by_cases h : a.1 = N
    · have : m = [] := by
        cases m with
        | nil => rfl
        | cons b m =>
          have h1 := hs.1 b List.mem_cons_self
          have h2 := hl b (by simp)
          omega
      refine ⟨[], a.2, ?_, fun _ h => by cases h⟩
      rw [if_neg (by have := hp a List.mem_cons_self; omega), this, ← h]
      rfl
    · obtain ⟨ms, c, e, hm⟩ := ih hs.2 (fun b hb => hl b (List.mem_cons_of_mem _ hb)) (fun b hb => hp b (List.mem_cons_of_mem _ hb))
      refine ⟨a :: ms, c, by rw [e]; rfl, fun b hb => ?_⟩
      rcases List.mem_cons.1 hb with rfl | hb
      · have := hl b List.mem_cons_self; omega
      · exact hm b hb

/-! ### Selectors -/

variable [Zero W] [DecidableEq W]

theorem Fst.isFinalR_eq {f : Fst W} {s : StateId} (h : s < f.numStates) : ∃ b, f.isFinalR s = .ok b ∧ (b = true ↔ f.Ends s) := by
  unfold Fst.isFinalR Fst.Ends
  rw [Fst.finOf_of_lt h, show f.states[s]? = some (f.states[s]'h) from List.getElem?_eq_getElem h]
  refine ⟨_, rfl, ?_⟩
  cases (f.states[s]'h).fin with
  | none => simp
  | some w => simp [isZeroW]

theorem Fst.numTrsR_eq {f : Fst W} {s : StateId} (h : s < f.numStates) : f.numTrsR s = .ok (f.trsOf s).length := by
  unfold Fst.numTrsR
  rw [Fst.trsOf_of_lt h, show f.states[s]? = some (f.states[s]'h) from List.getElem?_eq_getElem h]

theorem Fst.getTrsR_eq {f : Fst W} {s : StateId} (h : s < f.numStates) : f.getTrsR s = .ok (f.trsOf s) := by
  unfold Fst.getTrsR
  rw [Fst.trsOf_of_lt h, show f.states[s]? = some (f.states[s]'h) from List.getElem?_eq_getElem h]

/-- The uniform selector keeps the contract, whatever numbers are drawn. -/
theorem uniform_legal {σ : Type v} (f : Fst W) (draw : σ → Nat → Nat × σ) (hd : ∀ g n, 0 < n → (draw g n).1 < n) : Legal f (uniformSelector f draw) := by
  intro g s hs hne
  obtain ⟨b, hb, hb'⟩ := Fst.isFinalR_eq hs
  unfold uniformSelector
  rw [Fst.numTrsR_eq hs, hb]
  simp only
  cases b with
  | false =>
    have hn : ¬ f.Ends s := fun h => by simpa using hb'.2 h
    have hl : 0 < (f.trsOf s).length := List.length_pos_iff.2 (hne.resolve_right hn)
    simp only [Bool.false_eq_true, if_false]
    rw [if_neg (by omega)]
    exact ⟨_, _, rfl, Or.inl (hd g _ hl)⟩
  | true =>
    rw [if_pos rfl, if_neg (by omega)]
    refine ⟨_, _, rfl, ?_⟩
    have := hd g ((f.trsOf s).length + 1) (by omega)
    rcases Nat.lt_succ_iff_lt_or_eq.1 this with h | h
    · exact Or.inl h
    · exact Or.inr ⟨h, hb'.1 rfl⟩

/-- The result of sampling at a state: an empty map at a dead end or at the maximal length, else a map with all samples. -/
theorem sample_ok {σ : Type v} {f : Fst W} {sel : Selector σ} (hl : Legal f sel) {len : Nat} {r : RandState} (hr : r.stateId < f.numStates) (g : σ) :
    ∃ m g', sample f sel len r g = (.ok m, g') ∧
      ((m = [] ∧ ((f.trsOf r.stateId = [] ∧ ¬ f.Ends r.stateId) ∨ r.length = len)) ∨
        (r.length ≠ len ∧ MapOk (fun k => k < (f.trsOf r.stateId).length ∨ k = (f.trsOf r.stateId).length ∧ f.Ends r.stateId) r.nsamples m)) := by
  obtain ⟨b, hb, hb'⟩ := Fst.isFinalR_eq hr
  unfold sample
  rw [Fst.numTrsR_eq hr, hb]
  simp only
  by_cases h : ((f.trsOf r.stateId).length = 0 ∧ b = false) ∨ r.length = len
  · rw [if_pos h]
    refine ⟨[], g, rfl, Or.inl ⟨rfl, ?_⟩⟩
    rcases h with ⟨h1, h2⟩ | h
    · refine Or.inl ⟨List.length_eq_zero_iff.1 h1, fun h => ?_⟩
      rw [hb'.2 h] at h2; cases h2
    · exact Or.inr h
  · rw [if_neg h]
    push Not at h
    have hne : f.trsOf r.stateId ≠ [] ∨ f.Ends r.stateId := by
      by_cases h0 : f.trsOf r.stateId = []
      · refine Or.inr (hb'.1 ?_)
        have := h.1 (by rw [h0]; rfl)
        cases b <;> simp_all
      · exact Or.inl h0
    obtain ⟨m, g', e, hm⟩ := sampleLoop_ok (sel := sel) (s := r.stateId) (fun g => hl g _ hr hne) r.nsamples 0 [] g
      ⟨List.Pairwise.nil, (fun _ h => by cases h), (fun _ h => by cases h), rfl⟩
    rw [Nat.zero_add] at hm
    exact ⟨m, g', e, Or.inr ⟨h.2, hm⟩⟩

end Verif
