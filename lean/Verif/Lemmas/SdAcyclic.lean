import Verif.Lemmas.SdLoop
import Verif.Lemmas.Walks
import Mathlib.Data.Finset.Card

/-! # Shortest distance in topological order: any semiring -/

namespace Verif
universe u v
set_option linter.unusedSectionVars false
namespace Sd
open SdState Dfs
variable {W : Type u} [AddCommMonoid W] [Monoid W] [RightDistribClass W]

/-- The state comes no later than the one taken last. -/
def Done (ord : Nat → Nat) (c : Option StateId) (x : StateId) : Prop := ∃ s, c = some s ∧ ord x ≤ ord s

theorem done_some {ord : Nat → Nat} {s x : StateId} : Done ord (some s) x ↔ ord x ≤ ord s := by simp [Done]

open Classical in
/-- The bookkeeping: what is summed up so far comes from the states done. -/
structure TopI (f : Fst W) (keep : Tr W → Bool) (ord : Nat → Nat) (src : StateId) (c : Option StateId) (S : Set StateId) (d r : Nat → W) :
    Prop where
  pend : ∀ x ∈ S, ¬ Done ord c x ∧ x < f.numStates
  zero : ∀ x, d x ≠ 0 → x ∈ S ∨ Done ord c x
  sum : ∀ q, d q = (if src = q then 1 else 0) +
    ∑ s ∈ Finset.range f.numStates, if Done ord c s then Fst.cont keep (f.trsOf s) q (d s) else 0
  rad : ∀ x, ¬ Done ord c x → r x = d x

open Classical in
structure TopJ (f : Fst W) (keep : Tr W → Bool) (ord : Nat → Nat) (src : StateId) (s : StateId) (a : W) (l : List (Tr W))
    (S : Set StateId) (d r : Nat → W) : Prop where
  cur : a = d s
  lt : s < f.numStates
  pend : ∀ x ∈ S, ord s < ord x ∧ x < f.numStates
  zero : ∀ x, d x ≠ 0 → x ∈ S ∨ ord x ≤ ord s
  sum : ∀ q, d q = (if src = q then 1 else 0) +
    ((∑ x ∈ Finset.range f.numStates, if x ≠ s ∧ ord x ≤ ord s then Fst.cont keep (f.trsOf x) q (d x) else 0) + Fst.cont keep l q (d s))
  rad : ∀ x, ord s < ord x → r x = d x

open Classical in
noncomputable def topAlg (f : Fst W) (hw : f.WF) (hz : ∀ a : W, 0 * a = 0) (keep : Tr W → Bool) (ord : Nat → Nat)
    (hord : ∀ a b, KEdge f keep a b → ord a < ord b) (src : StateId) : Alg f keep (fun s x => ord s < ord x) where
  I := TopI f keep ord src
  J := TopJ f keep ord src
  rank c _ _ _ := ((Finset.range f.numStates).filter (fun x => ¬ Done ord c x)).card
  rankJ s _ _ _ _ _ := ((Finset.range f.numStates).filter (fun x => ¬ Done ord (some s) x)).card
  mono _ := le_rfl
  start := by
    intro c S d r s S' hI hs hsub hsup hafter
    obtain ⟨hnd, hlt⟩ := hI.pend s hs
    have hd : ∀ x, Done ord c x → ord x < ord s := by
      rintro x ⟨v, rfl, hx⟩
      have : ¬ ord s ≤ ord v := fun h => hnd ⟨v, rfl, h⟩
      omega
    refine ⟨⟨hI.rad s hnd, hlt, fun x hx => ⟨hafter x hx, (hI.pend x (hsub hx)).2⟩, ?_, ?_, ?_⟩, ?_⟩
    · intro x hx
      rcases hI.zero x hx with h | h
      · rcases hsup h with h | h
        · exact .inl h
        · cases h; exact .inr le_rfl
      · exact .inr (hd x h).le
    · intro q
      rw [hI.sum q, Fst.cont_nil, add_zero]
      congr 1
      refine Finset.sum_congr rfl fun x _ => ?_
      by_cases h : Done ord c x
      · rw [if_pos h, if_pos]
        have := hd x h
        exact ⟨by rintro rfl; omega, this.le⟩
      · rw [if_neg h]
        by_cases h2 : x ≠ s ∧ ord x ≤ ord s
        · rw [if_pos h2]
          have : d x = 0 := by
            by_contra hne
            rcases hI.zero x hne with h3 | h3
            · rcases hsup h3 with h3 | h3
              · have := hafter x h3; omega
              · exact h2.1 h3
            · exact h h3
          rw [this, Fst.cont_zero keep hz]
        · rw [if_neg h2]
    · intro x hx
      have hne : x ≠ s := by rintro rfl; omega
      have : ¬ Done ord c x := fun h => by have := hd x h; omega
      simp [upd, hne, hI.rad x this]
    · intro _ _ _
      refine Finset.card_lt_card ?_
      rw [Finset.ssubset_iff_of_subset]
      · exact ⟨s, by simp [hlt, hnd], by simp [done_some]⟩
      · intro x hx
        rw [Finset.mem_filter] at hx ⊢
        refine ⟨hx.1, fun h => hx.2 ?_⟩
        rw [done_some]
        exact (hd x h).le
  skip := by
    intro s a l S d r t m hJ hm hk
    refine ⟨⟨hJ.cur, hJ.lt, hJ.pend, hJ.zero, ?_, hJ.rad⟩, fun _ => le_rfl⟩
    intro q
    rw [Fst.cont_snoc]
    by_cases h : keep t = true ∧ t.nextstate = q
    · rw [if_pos h]
      obtain ⟨h1, rfl⟩ := h
      rcases hk with hk | hk
      · rw [hk] at h1; cases h1
      · rw [hJ.cur] at hk
        rw [← add_assoc, ← add_assoc, add_assoc _ _ (Fst.cont keep l t.nextstate (d s)), ← hJ.sum, hk]
    · rw [if_neg h, add_zero]
      exact hJ.sum q
  step := by
    intro s a l S d r t m hJ hm hk hne
    have hmem : t ∈ f.trsOf s := by rw [hm]; simp
    have hlt := hord s t.nextstate ⟨t, hmem, hk, rfl⟩
    have hns : t.nextstate ≠ s := by intro h; rw [h] at hlt; omega
    have hsame : ∀ x, ord x ≤ ord s → upd d t.nextstate (d t.nextstate + a * t.weight) x = d x := by
      intro x hx
      have : x ≠ t.nextstate := by rintro rfl; omega
      simp [upd, this]
    refine ⟨hns, ⟨?_, hJ.lt, ?_, ?_, ?_, ?_⟩, fun _ => le_rfl⟩
    · rw [hsame s le_rfl]; exact hJ.cur
    · rintro x (hx | hx)
      · exact hJ.pend x hx
      · cases hx; exact ⟨hlt, hw.next_lt s t hmem⟩
    · intro x hx
      by_cases hxn : x = t.nextstate
      · exact .inl (.inr hxn)
      · simp only [upd, hxn, if_false] at hx
        exact (hJ.zero x hx).imp .inl id
    · intro q
      rw [hsame s le_rfl, Fst.cont_snoc]
      have hs : (∑ x ∈ Finset.range f.numStates, if x ≠ s ∧ ord x ≤ ord s then
            Fst.cont keep (f.trsOf x) q (upd d t.nextstate (d t.nextstate + a * t.weight) x) else 0) =
          ∑ x ∈ Finset.range f.numStates, if x ≠ s ∧ ord x ≤ ord s then Fst.cont keep (f.trsOf x) q (d x) else 0 := by
        refine Finset.sum_congr rfl fun x _ => ?_
        by_cases h : x ≠ s ∧ ord x ≤ ord s
        · rw [if_pos h, if_pos h, hsame x h.2]
        · rw [if_neg h, if_neg h]
      rw [hs]
      by_cases hq : t.nextstate = q
      · subst hq
        rw [if_pos (show keep t = true ∧ t.nextstate = t.nextstate from ⟨hk, rfl⟩), ← add_assoc, ← add_assoc, add_assoc _ _ (Fst.cont keep l t.nextstate (d s)), ← hJ.sum, hJ.cur]
        simp [upd]
      · have : q ≠ t.nextstate := Ne.symm hq
        rw [if_neg (show ¬ (keep t = true ∧ t.nextstate = q) from fun h => hq h.2), add_zero]
        simp only [upd, this, if_false]
        exact hJ.sum q
    · intro x hx
      by_cases hxn : x = t.nextstate
      · subst hxn; simp [upd, hJ.rad _ hx]
      · simp [upd, hxn, hJ.rad x hx]
  finish := by
    intro s a S d r hJ
    refine ⟨⟨fun x hx => ⟨fun h => ?_, (hJ.pend x hx).2⟩, fun x hx => by simpa [done_some] using hJ.zero x hx, fun q => ?_, fun x hx => hJ.rad x ?_⟩,
      fun _ => le_rfl⟩
    · rw [done_some] at h
      have := (hJ.pend x hx).1
      omega
    · rw [hJ.sum q]
      congr 1
      have hs := Finset.mem_range.2 hJ.lt
      rw [← Finset.sum_erase_add _ _ hs, ← Finset.sum_erase_add (Finset.range f.numStates) _ hs]
      simp only [done_some, le_refl, if_true, ne_eq, not_true, false_and, if_false, add_zero]
      congr 1
      refine Finset.sum_congr rfl fun x hx => ?_
      have : x ≠ s := Finset.ne_of_mem_erase hx
      simp [this]
    · rw [done_some] at hx; omega

theorem topI_init {f : Fst W} (hz : ∀ a : W, 0 * a = 0) {keep : Tr W → Bool} {ord : Nat → Nat} {src : StateId} (hs : src < f.numStates) :
    TopI f keep ord src none {src} (init src) (init src) := by
  refine ⟨fun x hx => ⟨fun h => ?_, ?_⟩, fun x hx => ?_, fun q => ?_, fun _ _ => rfl⟩
  · obtain ⟨v, hv, -⟩ := h; cases hv
  · cases hx; exact hs
  · left
    by_contra hne
    have : x ≠ src := hne
    simp [init, upd, this] at hx
  · rw [Finset.sum_eq_zero, add_zero]
    · simp [init, upd, eq_comm]
    · intro s _
      rw [if_neg]
      rintro ⟨v, hv, -⟩
      cases hv

/-- In an acyclic FST there is only one solution of the equations of the distances. -/
theorem fix_distance {f : Fst W} (hw : f.WF) (hz : ∀ a : W, 0 * a = 0) {keep : Tr W → Bool} {ord : Nat → Nat}
    (hord : ∀ a b, KEdge f keep a b → ord a < ord b) {src : StateId} (hs : src < f.numStates) {d : Nat → W}
    (heq : ∀ q, d q = (if src = q then 1 else 0) + ∑ s ∈ Finset.range f.numStates, Fst.cont keep (f.trsOf s) q (d s)) (q : StateId) :
    f.IsDistance keep src q (d q) := by
  have key : ∀ n q, ord q < n → f.walkSums keep n src q = d q := by
    intro n
    induction n with
    | zero => intro q hq; omega
    | succ n ih =>
      intro q hq
      rw [f.walkSums_succ keep hz hw hs, heq q]
      congr 1
      refine Finset.sum_congr rfl fun s _ => ?_
      by_cases hedge : ∃ t ∈ f.trsOf s, keep t = true ∧ t.nextstate = q
      · obtain ⟨t, ht, hk, rfl⟩ := hedge
        have := hord s t.nextstate ⟨t, ht, hk, rfl⟩
        rw [ih s (by omega)]
      · have hno : ∀ t ∈ f.trsOf s, keep t = true → t.nextstate ≠ q := fun t ht hk hq => hedge ⟨t, ht, hk, hq⟩
        rw [Fst.cont_eq_zero keep _ _ _ hno, Fst.cont_eq_zero keep _ _ _ hno]
  exact ⟨ord q + 1, fun n hn => key n q (by omega)⟩

/-- When nothing is pending the distances are the sums over all paths. -/
theorem topI_distance {f : Fst W} (hw : f.WF) (hz : ∀ a : W, 0 * a = 0) {keep : Tr W → Bool} {ord : Nat → Nat}
    (hord : ∀ a b, KEdge f keep a b → ord a < ord b) {src : StateId} (hs : src < f.numStates) {c : Option StateId} {d r : Nat → W}
    (h : TopI f keep ord src c ∅ d r) (q : StateId) : f.IsDistance keep src q (d q) := by
  classical
  refine fix_distance hw hz hord hs (fun q => ?_) q
  rw [h.sum q]
  congr 1
  refine Finset.sum_congr rfl fun s _ => ?_
  by_cases hd : Done ord c s
  · rw [if_pos hd]
  · rw [if_neg hd]
    have : d s = 0 := by
      by_contra hne
      rcases h.zero s hne with h' | h'
      · exact absurd h' (Set.notMem_empty s)
      · exact hd h'
    rw [this, Fst.cont_zero keep hz]

/-- Without kept transitions nothing happens, whatever the queue. -/
noncomputable def noAlg (f : Fst W) (keep : Tr W → Bool) (hno : ∀ a b, ¬ KEdge f keep a b) (src : StateId) : Alg f keep (fun _ _ => True) where
  I _ _ d _ := d = init src
  J _ _ _ _ d _ := d = init src
  rank _ _ _ k := k
  rankJ _ _ _ _ _ k := k
  mono h := h
  start hI _ _ _ _ := ⟨hI, fun _ _ h => h⟩
  skip h _ _ := ⟨h, fun _ => le_rfl⟩
  step := by
    intro s a l S d r t m hJ hm hk _
    exact absurd ⟨t, by rw [hm]; simp, hk, rfl⟩ (hno s t.nextstate)
  finish h := ⟨h, fun _ => le_rfl⟩

theorem no_distance {f : Fst W} (hw : f.WF) (hz : ∀ a : W, 0 * a = 0) {keep : Tr W → Bool} (hno : ∀ a b, ¬ KEdge f keep a b) {src : StateId}
    (hs : src < f.numStates) (q : StateId) : f.IsDistance keep src q (init src q) := by
  refine ⟨1, fun n hn => ?_⟩
  obtain ⟨n, rfl⟩ : ∃ m, n = m + 1 := ⟨n - 1, by omega⟩
  have := f.walkSums_succ keep hz hw hs n q
  unfold Fst.walkSums at this
  rw [this, Finset.sum_eq_zero, add_zero]
  · simp [init, upd, eq_comm]
  · intro s _
    exact Fst.cont_eq_zero keep _ _ _ fun t ht hk hq => hno s q ⟨t, ht, hk, hq⟩

/-! ## Any queue -/

/-- How often the states that a state leads to can be taken from the queue on its account. -/
theorem exists_pot (f : Fst W) (hw : f.WF) (keep : Tr W → Bool) {ord : Nat → Nat} (hord : ∀ a b, KEdge f keep a b → ord a < ord b) :
    ∃ P : StateId → Nat, ∀ s, (((f.trsOf s).filter keep).map fun t => P t.nextstate + 1).sum ≤ P s := by
  obtain ⟨Pn, h0, hsucc⟩ : ∃ Pn : Nat → StateId → Nat, (∀ s, Pn 0 s = 0) ∧
      ∀ n s, Pn (n + 1) s = (((f.trsOf s).filter keep).map fun t => Pn n t.nextstate + 1).sum :=
    ⟨fun n => Nat.rec (fun _ => 0) (fun _ p s => (((f.trsOf s).filter keep).map fun t => p t.nextstate + 1).sum) n, fun _ => rfl, fun _ _ => rfl⟩
  have hmono1 : ∀ n s, Pn n s ≤ Pn (n + 1) s := by
    intro n
    induction n with
    | zero => intro s; rw [h0]; exact Nat.zero_le _
    | succ n ih =>
      intro s
      rw [hsucc n s, hsucc (n + 1) s]
      exact List.sum_le_sum fun t _ => Nat.add_le_add_right (ih _) 1
  have hmono : ∀ s, Monotone fun n => Pn n s := fun s => monotone_nat_of_le_succ fun n => hmono1 n s
  let N := (Finset.range f.numStates).sup ord + 1
  refine ⟨fun s => Pn (N - ord s) s, fun s => ?_⟩
  by_cases hs : s < f.numStates
  · have hle : ord s ≤ (Finset.range f.numStates).sup ord := Finset.le_sup (f := ord) (Finset.mem_range.2 hs)
    obtain ⟨m, hm⟩ : ∃ m, N - ord s = m + 1 := ⟨N - ord s - 1, by omega⟩
    show _ ≤ Pn (N - ord s) s
    rw [hm, hsucc]
    refine List.sum_le_sum fun t ht => Nat.add_le_add_right (hmono _ ?_) 1
    rw [List.mem_filter] at ht
    have := hord s t.nextstate ⟨t, ht.1, ht.2, rfl⟩
    omega
  · rw [Fst.trsOf_of_ge (by omega)]
    exact Nat.zero_le _

/-- Part of the distance of each state has been passed on, `r` is the rest. -/
structure AnyI (f : Fst W) (keep : Tr W → Bool) (src : StateId) (S : Set StateId) (d r : Nat → W) : Prop where
  lt : ∀ x ∈ S, x < f.numStates
  mem : ∀ x, r x ≠ 0 → x ∈ S
  sum : ∃ p : Nat → W, (∀ x, d x = p x + r x) ∧
    ∀ q, d q = (if src = q then 1 else 0) + ∑ s ∈ Finset.range f.numStates, Fst.cont keep (f.trsOf s) q (p s)

structure AnyJ (f : Fst W) (keep : Tr W → Bool) (src : StateId) (s : StateId) (a : W) (l : List (Tr W)) (S : Set StateId) (d r : Nat → W) : Prop where
  cur : s < f.numStates
  lt : ∀ x ∈ S, x < f.numStates
  mem : ∀ x, r x ≠ 0 → x ∈ S
  rs : r s = 0
  sum : ∃ p : Nat → W, (∀ x, x ≠ s → d x = p x + r x) ∧ d s = p s + a ∧
    ∀ q, d q = (if src = q then 1 else 0) + (∑ s ∈ Finset.range f.numStates, Fst.cont keep (f.trsOf s) q (p s) + Fst.cont keep l q a)

open Classical in
/-- The states that still have something to pass on. -/
noncomputable def pend (n : Nat) (P : StateId → Nat) (r : Nat → W) : Nat := ∑ x ∈ Finset.range n, if r x = 0 then 0 else P x

open Classical in
theorem pend_upd {n : Nat} {P : StateId → Nat} {r : Nat → W} {x : StateId} (hx : x < n) (v : W) :
    pend n P (upd r x v) + (if r x = 0 then 0 else P x) = pend n P r + (if v = 0 then 0 else P x) := by
  unfold pend
  rw [← Finset.sum_erase_add _ _ (Finset.mem_range.2 hx), ← Finset.sum_erase_add (Finset.range n) _ (Finset.mem_range.2 hx)]
  have : ∑ y ∈ (Finset.range n).erase x, (if upd r x v y = 0 then 0 else P y) = ∑ y ∈ (Finset.range n).erase x, if r y = 0 then 0 else P y := by
    refine Finset.sum_congr rfl fun y hy => ?_
    simp [upd, Finset.ne_of_mem_erase hy]
  rw [this]
  simp only [upd, if_true]
  omega

open Classical in
/-- Acyclic, with any queue and in any semiring. -/
noncomputable def anyAlg (f : Fst W) (hw : f.WF) (hz : ∀ a : W, 0 * a = 0) (keep : Tr W → Bool) (hloop : ∀ a, ¬ KEdge f keep a a) (P : StateId → Nat)
    (hP : ∀ s, (((f.trsOf s).filter keep).map fun t => P t.nextstate + 1).sum ≤ P s) (src : StateId) : Alg f keep (fun _ _ => True) where
  I _ S d r := AnyI f keep src S d r
  J s a l S d r := AnyJ f keep src s a l S d r
  rank _ _ r k := pend f.numStates P r + k
  rankJ s a l _ r k := pend f.numStates P r + (if a = 0 then 0 else ((((f.trsOf s).drop l.length).filter keep).map fun t => P t.nextstate + 1).sum) + k
  mono h := by omega
  start := by
    intro c S d r s S' hI hs hsub hsup _
    have hlt := hI.lt s hs
    obtain ⟨p, h1, h2⟩ := hI.sum
    refine ⟨⟨hlt, fun x hx => hI.lt x (hsub hx), fun x hx => ?_, by simp [upd], p, fun x hx => ?_, h1 s, fun q => ?_⟩, fun k k' hk => ?_⟩
    · by_cases hxs : x = s
      · simp [upd, hxs] at hx
      · simp only [upd, hxs, if_false] at hx
        rcases hsup (hI.mem x hx) with h | h
        · exact h
        · exact absurd h hxs
    · simp [upd, hx, h1 x]
    · rw [Fst.cont_nil, add_zero]; exact h2 q
    · have := pend_upd (P := P) (r := r) hlt (0 : W)
      have h3 := hP s
      simp only [List.length_nil, List.drop_zero]
      rw [if_pos rfl, add_zero] at this
      by_cases h4 : r s = 0
      · rw [if_pos h4] at this ⊢; omega
      · rw [if_neg h4] at this ⊢; omega
  skip := by
    intro s a l S d r t m hJ hm hk
    obtain ⟨p, h1, h2, h3⟩ := hJ.sum
    refine ⟨⟨hJ.cur, hJ.lt, hJ.mem, hJ.rs, p, h1, h2, fun q => ?_⟩, fun k => ?_⟩
    · rw [Fst.cont_snoc]
      by_cases h : keep t = true ∧ t.nextstate = q
      · rw [if_pos h]
        obtain ⟨h4, rfl⟩ := h
        rcases hk with hk | hk
        · rw [hk] at h4; cases h4
        · rw [← add_assoc, ← add_assoc, add_assoc _ _ (Fst.cont keep l t.nextstate a), ← h3, hk]
      · rw [if_neg h, add_zero]
        exact h3 q
    · have e1 : (f.trsOf s).drop l.length = t :: m := by rw [hm]; simp
      have e2 : (f.trsOf s).drop (l ++ [t]).length = m := by
        rw [hm, show l ++ t :: m = (l ++ [t]) ++ m by simp]; simp
      rw [e1, e2]
      split
      · exact le_rfl
      · rw [List.filter_cons]
        split <;> simp <;> omega
  step := by
    intro s a l S d r t m hJ hm hk hne
    have hmem : t ∈ f.trsOf s := by rw [hm]; simp
    have hlt := hw.next_lt s t hmem
    have hns : t.nextstate ≠ s := fun h => hloop s ⟨t, hmem, hk, h⟩
    obtain ⟨p, h1, h2, h3⟩ := hJ.sum
    refine ⟨hns, ⟨hJ.cur, ?_, ?_, ?_, p, fun x hx => ?_, ?_, fun q => ?_⟩, fun k => ?_⟩
    · rintro x (hx | hx)
      · exact hJ.lt x hx
      · cases hx; exact hlt
    · intro x hx
      by_cases hxn : x = t.nextstate
      · exact .inr hxn
      · simp only [upd, hxn, if_false] at hx
        exact .inl (hJ.mem x hx)
    · simp only [upd, if_neg hns.symm]; exact hJ.rs
    · by_cases hxn : x = t.nextstate
      · subst hxn
        simp only [upd, if_true]
        rw [h1 _ hns, add_assoc]
      · simp only [upd, if_neg hxn]
        exact h1 x hx
    · simp only [upd, if_neg hns.symm]; exact h2
    · rw [Fst.cont_snoc]
      by_cases hq : t.nextstate = q
      · subst hq
        rw [if_pos (show keep t = true ∧ t.nextstate = t.nextstate from ⟨hk, rfl⟩), ← add_assoc, ← add_assoc, add_assoc _ _ (Fst.cont keep l t.nextstate a), ← h3]
        simp [upd]
      · rw [if_neg (show ¬ (keep t = true ∧ t.nextstate = q) from fun h => hq h.2), add_zero]
        simp only [upd, if_neg (Ne.symm hq)]
        exact h3 q
    · have e1 : (f.trsOf s).drop l.length = t :: m := by rw [hm]; simp
      have e2 : (f.trsOf s).drop (l ++ [t]).length = m := by
        rw [hm, show l ++ t :: m = (l ++ [t]) ++ m by simp]; simp
      have ha : a ≠ 0 := by
        rintro rfl
        rw [hz, add_zero] at hne
        exact hne rfl
      have := pend_upd (P := P) (r := r) hlt (r t.nextstate + a * t.weight)
      rw [e1, e2, if_neg ha, if_neg ha, List.filter_cons, if_pos hk]
      simp only [List.map_cons, List.sum_cons]
      split at this <;> split at this <;> omega
  finish := by
    intro s a S d r hJ
    obtain ⟨p, h1, h2, h3⟩ := hJ.sum
    refine ⟨⟨hJ.lt, hJ.mem, upd p s (p s + a), fun x => ?_, fun q => ?_⟩, fun k => by omega⟩
    · by_cases hx : x = s
      · subst hx
        simp only [upd, if_true]
        rw [hJ.rs, add_zero]; exact h2
      · simp only [upd, if_neg hx]
        exact h1 x hx
    · rw [h3 q]
      congr 1
      have hs := Finset.mem_range.2 hJ.cur
      rw [← Finset.sum_erase_add _ _ hs, ← Finset.sum_erase_add (Finset.range f.numStates) _ hs]
      have : ∑ x ∈ (Finset.range f.numStates).erase s, Fst.cont keep (f.trsOf x) q (upd p s (p s + a) x) =
          ∑ x ∈ (Finset.range f.numStates).erase s, Fst.cont keep (f.trsOf x) q (p x) := by
        refine Finset.sum_congr rfl fun x hx => ?_
        simp [upd, Finset.ne_of_mem_erase hx]
      rw [this]
      simp only [upd, if_true]
      rw [Fst.cont_add, add_assoc]

theorem anyI_init {f : Fst W} (hz : ∀ a : W, 0 * a = 0) {keep : Tr W → Bool} {src : StateId} (hs : src < f.numStates) :
    AnyI f keep src {src} (init src) (init src) := by
  refine ⟨fun x hx => by cases hx; exact hs, fun x hx => ?_, fun _ => 0, fun x => by rw [zero_add], fun q => ?_⟩
  · by_contra hne
    have : x ≠ src := hne
    simp [init, upd, this] at hx
  · rw [Finset.sum_eq_zero fun s _ => Fst.cont_zero keep hz _ _, add_zero]
    simp [init, upd, eq_comm]

theorem anyI_distance {f : Fst W} (hw : f.WF) (hz : ∀ a : W, 0 * a = 0) {keep : Tr W → Bool} {ord : Nat → Nat}
    (hord : ∀ a b, KEdge f keep a b → ord a < ord b) {src : StateId} (hs : src < f.numStates) {d r : Nat → W} (h : AnyI f keep src ∅ d r) (q : StateId) :
    f.IsDistance keep src q (d q) := by
  obtain ⟨p, h1, h2⟩ := h.sum
  have hr : ∀ x, r x = 0 := fun x => by
    by_contra hne
    exact absurd (h.mem x hne) (Set.notMem_empty x)
  have hp : p = d := by
    funext x
    rw [h1 x, hr x, add_zero]
  subst hp
  exact fix_distance hw hz hord hs h2 q

end Sd
end Verif
