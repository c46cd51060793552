import Verif.Lemmas.SdAcyclic
import Mathlib.Data.Finset.Dedup
import Mathlib.Data.Finset.Union
import Mathlib.Data.Finset.Lattice.Basic
import Mathlib.Data.Multiset.AddSub
import Mathlib.Data.List.Nodup
import Mathlib.Data.Set.Finite.Basic

/-! # Shortest distance over idempotent weights where cycles add nothing: any queue -/

namespace Verif
universe u v
set_option linter.unusedSectionVars false
namespace Sd
open SdState Dfs
variable {W : Type u} [AddCommMonoid W] [Monoid W] [RightDistribClass W]

/-- Adding `b` to `a` changes nothing. -/
def Abs (a b : W) : Prop := a + b = a

section abs
variable (hid : ∀ a : W, a + a = a) {a b c x : W}
include hid
theorem Abs.refl (a : W) : Abs a a := hid a
omit hid in
theorem Abs.trans (h : Abs a b) (h' : Abs b c) : Abs a c := by
  unfold Abs at *
  rw [← h, add_assoc, h']
omit hid in
theorem Abs.add (h : Abs a b) (h' : Abs a c) : Abs a (b + c) := by
  unfold Abs at *
  rw [← add_assoc, h, h']
theorem Abs.left (a b : W) : Abs (a + b) a := by
  unfold Abs
  rw [add_right_comm, hid]
theorem Abs.right (a b : W) : Abs (a + b) b := by
  unfold Abs
  rw [add_assoc, hid]
omit hid in
theorem Abs.antisymm (h : Abs a b) (h' : Abs b a) : a = b := by
  unfold Abs at *
  rw [← h, add_comm, h']
omit hid in
theorem Abs.mul (h : Abs a b) (c : W) : Abs (a * c) (b * c) := by
  unfold Abs at *
  rw [← right_distrib, h]
omit hid in
theorem Abs.zero (a : W) : Abs a 0 := add_zero a
omit hid in
theorem Abs.sum {l : List W} (h : ∀ w ∈ l, Abs a w) : Abs a l.sum := by
  induction l with
  | nil => exact Abs.zero a
  | cons w l ih =>
    rw [List.sum_cons]
    exact (h w (by simp)).add (ih fun v hv => h v (List.mem_cons_of_mem _ hv))
theorem Abs.mem_sum {l : List W} {w : W} (h : w ∈ l) : Abs l.sum w := by
  induction l with
  | nil => cases h
  | cons v l ih =>
    rw [List.sum_cons]
    rcases List.mem_cons.1 h with rfl | h
    · exact Abs.left hid _ _
    · exact (Abs.right hid _ _).trans (ih h)
omit hid in
theorem eq_zero_of_abs (h : Abs 0 a) : a = 0 := by
  unfold Abs at h
  rwa [zero_add] at h
end abs

/-- A trail that visits no state twice, and whose parts are accounted for in the distances. `vs` are the states on it. -/
inductive GT (f : Fst W) (keep : Tr W → Bool) (src : StateId) (d : Nat → W) : List StateId → StateId → W → Prop
  | nil : Abs (d src) 1 → GT f keep src d [src] src 1
  | snoc {vs x w} {t : Tr W} : GT f keep src d vs x w → t ∈ f.trsOf x → keep t = true → t.nextstate ∉ vs →
      Abs (d t.nextstate) (w * t.weight) → GT f keep src d (t.nextstate :: vs) t.nextstate (w * t.weight)

variable {f : Fst W} {keep : Tr W → Bool} {src : StateId} {d d' : Nat → W}

theorem GT.mono (hd : ∀ x, Abs (d' x) (d x)) {vs x w} (h : GT f keep src d vs x w) : GT f keep src d' vs x w := by
  induction h with
  | nil h => exact .nil ((hd _).trans h)
  | snoc _ ht hk hn ha ih => exact .snoc ih ht hk hn ((hd _).trans ha)

theorem GT.abs {vs x w} (h : GT f keep src d vs x w) : Abs (d x) w := by
  cases h with
  | nil h => exact h
  | snoc _ _ _ _ h => exact h

theorem GT.walk {vs x w} (h : GT f keep src d vs x w) :
    (∃ k, vs.length = k + 1 ∧ (x, w) ∈ f.walks keep k src) ∧ vs.Nodup := by
  induction h with
  | nil _ => exact ⟨⟨0, rfl, (f.mem_walks_zero keep).2 ⟨rfl, rfl⟩⟩, by simp⟩
  | snoc _ ht hk hn _ ih =>
    obtain ⟨⟨k, h1, h2⟩, h3⟩ := ih
    exact ⟨⟨k + 1, by simp [h1], Fst.walks_snoc h2 ht hk⟩, by simp [hn, h3]⟩

theorem GT.lt (hw : f.WF) (hs : src < f.numStates) {vs x w} (h : GT f keep src d vs x w) : ∀ v ∈ vs, v < f.numStates := by
  induction h with
  | nil _ => simpa using hs
  | snoc _ ht _ _ _ ih =>
    intro v hv
    rcases List.mem_cons.1 hv with rfl | hv
    · exact hw.next_lt _ _ ht
    · exact ih v hv

theorem GT.pre {vs x w} (h : GT f keep src d vs x w) : ∀ v ∈ vs, ∃ a b m, (x, b) ∈ f.walks keep m v ∧ w = a * b ∧ Abs (d v) a := by
  induction h with
  | nil h =>
    intro v hv
    obtain rfl : v = src := by simpa using hv
    exact ⟨1, 1, 0, (f.mem_walks_zero keep).2 ⟨rfl, rfl⟩, by simp, h⟩
  | @snoc vs x w t hg ht hk hn ha ih =>
    intro v hv
    rcases List.mem_cons.1 hv with rfl | hv
    · exact ⟨w * t.weight, 1, 0, (f.mem_walks_zero keep).2 ⟨rfl, rfl⟩, by simp, ha⟩
    · obtain ⟨a, b, m, h1, h2, h3⟩ := ih v hv
      exact ⟨a, b * t.weight, m + 1, Fst.walks_snoc h1 ht hk, by rw [h2, mul_assoc], h3⟩

/-- Coming back to a state on the trail adds nothing. -/
theorem GT.back (hcyc : f.CyclesAbsorbed keep) {vs x w} (h : GT f keep src d vs x w) {t : Tr W} (ht : t ∈ f.trsOf x) (hk : keep t = true)
    (hn : t.nextstate ∈ vs) : Abs (d t.nextstate) (w * t.weight) := by
  obtain ⟨a, b, m, h1, h2, h3⟩ := h.pre _ hn
  refine h3.trans ?_
  rw [h2, mul_assoc]
  exact hcyc m _ _ (Fst.walks_snoc h1 ht hk) a

/-- A finite sum of weights with a property. -/
def SumOf (P : W → Prop) (g : W) : Prop := ∃ l : List W, (∀ w ∈ l, P w) ∧ g = l.sum

theorem SumOf.mono {P P' : W → Prop} (h : ∀ w, P w → P' w) {g : W} : SumOf P g → SumOf P' g := by
  rintro ⟨l, h1, rfl⟩
  exact ⟨l, fun w hw => h w (h1 w hw), rfl⟩
theorem SumOf.zero (P : W → Prop) : SumOf P 0 := ⟨[], by simp, rfl⟩
theorem SumOf.add {P : W → Prop} {a b : W} : SumOf P a → SumOf P b → SumOf P (a + b) := by
  rintro ⟨l, h1, rfl⟩ ⟨m, h2, rfl⟩
  refine ⟨l ++ m, ?_, by rw [List.sum_append]⟩
  intro w hw
  rcases List.mem_append.1 hw with h | h
  · exact h1 w h
  · exact h2 w h

/-- The weights of the good trails that end at `x`. -/
def Good (f : Fst W) (keep : Tr W → Bool) (src : StateId) (d : Nat → W) (x : StateId) (w : W) : Prop := ∃ vs, GT f keep src d vs x w
/-- The weights of the walks that end at `x`. -/
def IsWalk (f : Fst W) (keep : Tr W → Bool) (src : StateId) (x : StateId) (w : W) : Prop := ∃ k, (x, w) ∈ f.walks keep k src

theorem Good.isWalk {x w} (h : Good f keep src d x w) : IsWalk f keep src x w := by
  obtain ⟨vs, h⟩ := h
  obtain ⟨⟨k, -, hk⟩, -⟩ := h.walk
  exact ⟨k, hk⟩

/-- What a state's distance is made of: a part whose consequences are in the distances (`p`), a part still to be passed on (`g`), and in
the pending weight also some junk (`j`). -/
structure Node (f : Fst W) (keep : Tr W → Bool) (src : StateId) (d : Nat → W) (x : StateId) (a : W) (p g j : W) : Prop where
  dist : d x = p + g
  pend : a = g + j
  junk : Abs (d x) j
  good : SumOf (Good f keep src d x) g
  walk : SumOf (IsWalk f keep src x) p
  passed : ∀ t ∈ f.trsOf x, keep t = true → Abs (d t.nextstate) (p * t.weight)

theorem Node.mono {x a p g j} (hd : ∀ x, Abs (d' x) (d x)) (hx : d' x = d x) (h : Node f keep src d x a p g j) :
    Node f keep src d' x a p g j :=
  ⟨hx ▸ h.dist, h.pend, hx ▸ h.junk, h.good.mono fun _ ⟨vs, hv⟩ => ⟨vs, hv.mono hd⟩, h.walk, fun t ht hk => (hd _).trans (h.passed t ht hk)⟩

structure IdI (f : Fst W) (keep : Tr W → Bool) (src : StateId) (S : Set StateId) (d r : Nat → W) : Prop where
  one : Abs (d src) 1
  node : ∀ x, ∃ p g j, Node f keep src d x (r x) p g j
  mem : ∀ x, r x ≠ 0 → x ∈ S

structure IdJ (f : Fst W) (keep : Tr W → Bool) (src : StateId) (s : StateId) (a : W) (l : List (Tr W)) (S : Set StateId) (d r : Nat → W) :
    Prop where
  one : Abs (d src) 1
  node : ∀ x, x ≠ s → ∃ p g j, Node f keep src d x (r x) p g j
  cur : ∃ p g j, Node f keep src d s a p g j
  done : ∀ t ∈ l, keep t = true → Abs (d t.nextstate) (a * t.weight)
  rs : r s = 0
  mem : ∀ x, r x ≠ 0 → x ∈ S

open Classical in
/-- The weights of the short walks from the source. -/
noncomputable def shorts (f : Fst W) (keep : Tr W → Bool) (src : StateId) : Finset (StateId × W) :=
  (Finset.range f.numStates).biUnion fun k => (f.walks keep k src).toFinset

open Classical in
/-- How many of them are accounted for. -/
noncomputable def phi (f : Fst W) (keep : Tr W → Bool) (src : StateId) (d : Nat → W) : Nat :=
  ((shorts f keep src).filter fun e => Abs (d e.1) e.2).card

theorem phi_le (d : Nat → W) : phi f keep src d ≤ (shorts f keep src).card := by
  classical
  exact Finset.card_filter_le _ _

theorem phi_lt (hd : ∀ x, Abs (d' x) (d x)) {x : StateId} {w : W} (hm : (x, w) ∈ shorts f keep src) (h : ¬ Abs (d x) w)
    (h' : Abs (d' x) w) : phi f keep src d < phi f keep src d' := by
  classical
  refine Finset.card_lt_card ?_
  rw [Finset.ssubset_iff_of_subset]
  · exact ⟨(x, w), by simp [hm, h'], by simp [h]⟩
  · intro e he
    rw [Finset.mem_filter] at he ⊢
    exact ⟨he.1, (hd _).trans he.2⟩

theorem GT.mem_shorts (hw : f.WF) (hs : src < f.numStates) {vs x w} (h : GT f keep src d vs x w) : (x, w) ∈ shorts f keep src := by
  classical
  obtain ⟨⟨k, h1, h2⟩, h3⟩ := h.walk
  have hle : vs.length ≤ f.numStates := by
    have hsub : vs.toFinset ⊆ Finset.range f.numStates := fun v hv => Finset.mem_range.2 (h.lt hw hs v (List.mem_toFinset.1 hv))
    have := Finset.card_le_card hsub
    rwa [List.toFinset_card_of_nodup h3, Finset.card_range] at this
  unfold shorts
  rw [Finset.mem_biUnion]
  exact ⟨k, Finset.mem_range.2 (by omega), by simpa using h2⟩

theorem split_sum (hz : ∀ a : W, 0 * a = 0) (D w : W) (l : List W) :
    ∃ G R : List W, (∀ u ∈ G, u ∈ l.map (· * w) ∧ ¬ Abs D u) ∧ (∀ u ∈ R, Abs D u) ∧ l.sum * w = G.sum + R.sum := by
  classical
  induction l with
  | nil => exact ⟨[], [], by simp, by simp, by simp [hz]⟩
  | cons u l ih =>
    obtain ⟨G, R, h1, h2, h3⟩ := ih
    by_cases h : Abs D (u * w)
    · refine ⟨G, u * w :: R, fun v hv => ⟨List.mem_cons_of_mem _ (h1 v hv).1, (h1 v hv).2⟩, ?_, ?_⟩
      · intro v hv
        rcases List.mem_cons.1 hv with rfl | hv
        · exact h
        · exact h2 v hv
      · rw [List.sum_cons, right_distrib, h3, List.sum_cons]
        abel
    · refine ⟨u * w :: G, R, ?_, h2, ?_⟩
      · intro v hv
        rcases List.mem_cons.1 hv with rfl | hv
        · exact ⟨by simp, h⟩
        · exact ⟨List.mem_cons_of_mem _ (h1 v hv).1, (h1 v hv).2⟩
      · rw [List.sum_cons, right_distrib, h3, List.sum_cons]
        abel

noncomputable def idAlg (f : Fst W) (hw : f.WF) (hz : ∀ a : W, 0 * a = 0) (hid : ∀ a : W, a + a = a) (keep : Tr W → Bool)
    (hcyc : f.CyclesAbsorbed keep) (src : StateId) (hsrc : src < f.numStates) : Alg f keep (fun _ _ => True) where
  I _ S d r := IdI f keep src S d r
  J s a l S d r := IdJ f keep src s a l S d r
  rank _ d _ k := 2 * ((shorts f keep src).card - phi f keep src d) + k
  rankJ _ _ _ d _ k := 2 * ((shorts f keep src).card - phi f keep src d) + k
  mono h := by omega
  start := by
    intro c S d r s S' hI hs hsub hsup _
    refine ⟨⟨hI.one, fun x hx => ?_, hI.node s, by simp, by simp [upd], fun x hx => ?_⟩, fun k k' h => by omega⟩
    · simpa [upd, hx] using hI.node x
    · by_cases hxs : x = s
      · simp [upd, hxs] at hx
      · simp only [upd, hxs, if_false] at hx
        rcases hsup (hI.mem x hx) with h | h
        · exact h
        · exact absurd h hxs
  skip := by
    intro s a l S d r t m hJ hm hk
    refine ⟨⟨hJ.one, hJ.node, hJ.cur, fun u hu hku => ?_, hJ.rs, hJ.mem⟩, fun _ => le_rfl⟩
    rcases List.mem_append.1 hu with hu | hu
    · exact hJ.done u hu hku
    · obtain rfl : u = t := by simpa using hu
      rcases hk with hk | hk
      · rw [hk] at hku; cases hku
      · exact hk
  step := by
    intro s a l S d r t m hJ hm hk hne
    have hmem : t ∈ f.trsOf s := by rw [hm]; simp
    obtain ⟨p, g, j, hN⟩ := hJ.cur
    have ha : Abs (d s) a := by
      rw [hN.pend]
      refine Abs.add ?_ hN.junk
      rw [hN.dist]
      exact Abs.right hid _ _
    have hns : t.nextstate ≠ s := by
      intro hts
      refine hne ?_
      rw [hts]
      refine Abs.trans (b := d s * t.weight) ?_ (ha.mul t.weight)
      refine hcyc 0 s t.weight ?_ (d s)
      have := Fst.walks_snoc (f := f) (keep := keep) (p := s) (n := 0) ((f.mem_walks_zero keep).2 ⟨rfl, rfl⟩) hmem hk
      rwa [hts, one_mul] at this
    obtain ⟨pn, gn, jn, hNn⟩ := hJ.node _ hns
    obtain ⟨n, hn⟩ : ∃ n, n = t.nextstate := ⟨_, rfl⟩
    rw [← hn] at hns hNn hne ⊢
    obtain ⟨lg, hlg, hg⟩ := hN.good
    obtain ⟨G, R, hG, hR, hGR⟩ := split_sum hz (d n) t.weight lg
    obtain ⟨d', hd'⟩ : ∃ d', d' = upd d n (d n + a * t.weight) := ⟨_, rfl⟩
    -- the new distance is the old one and the good parts
    have hgabs : Abs (d n + G.sum) (g * t.weight) := by
      rw [hg, hGR]
      exact (Abs.right hid _ _).add ((Abs.left hid _ _).trans (Abs.sum hR))
    have hpabs : Abs (d n) (p * t.weight) := by rw [hn]; exact hN.passed t hmem hk
    have hsabs : Abs (d n + G.sum) (d s * t.weight) := by
      rw [hN.dist, right_distrib]
      exact ((Abs.left hid _ _).trans hpabs).add hgabs
    have hjabs : Abs (d n + G.sum) (j * t.weight) := hsabs.trans (hN.junk.mul _)
    have haw : a * t.weight = G.sum + (R.sum + j * t.weight) := by
      rw [hN.pend, right_distrib, hg, hGR, add_assoc]
    have hdn : d n + a * t.weight = d n + G.sum := by
      have h1 : Abs (d n + G.sum) (R.sum + j * t.weight) := ((Abs.left hid _ _).trans (Abs.sum hR)).add hjabs
      rw [haw, ← add_assoc]
      exact h1
    have hmono : ∀ x, Abs (d' x) (d x) := by
      intro x
      rw [hd']
      by_cases hx : x = n
      · subst hx; simp only [upd, if_true]; exact Abs.left hid _ _
      · simp only [upd, hx, if_false]; exact Abs.refl hid _
    have hd'n : d' n = d n + G.sum := by rw [hd', ← hdn]; simp [upd]
    have hd'x : ∀ x, x ≠ n → d' x = d x := by intro x hx; rw [hd']; simp [upd, hx]
    have hgood : ∀ u ∈ G, Good f keep src d' n u := by
      intro u hu
      obtain ⟨hul, huD⟩ := hG u hu
      obtain ⟨v, hv, rfl⟩ := List.mem_map.1 hul
      obtain ⟨vs, hgt⟩ := hlg v hv
      have hnv : n ∉ vs := by
        intro hin
        rw [hn] at hin huD
        exact huD (hgt.back hcyc hmem hk hin)
      refine ⟨n :: vs, ?_⟩
      have : Abs (d' n) (v * t.weight) := by
        rw [hd'n]
        exact (Abs.right hid _ _).trans (Abs.mem_sum hid hu)
      rw [hn] at hnv this ⊢
      exact .snoc (hgt.mono hmono) hmem hk hnv this
    rw [← hd']
    refine ⟨hns, ⟨(hmono src).trans hJ.one, fun x hx => ?_, ?_, ?_, ?_, ?_⟩, ?_⟩
    · by_cases hxn : x = n
      · subst hxn
        refine ⟨pn, gn + G.sum, jn + (R.sum + j * t.weight), ⟨?_, ?_, ?_, ?_, hNn.walk, ?_⟩⟩
        · rw [hd'n, hNn.dist, add_assoc]
        · simp only [upd, if_true]
          rw [hNn.pend, haw]
          abel
        · rw [hd'n]
          exact ((Abs.left hid _ _).trans hNn.junk).add (((Abs.left hid _ _).trans (Abs.sum hR)).add hjabs)
        · exact (hNn.good.mono fun _ ⟨vs, hv⟩ => ⟨vs, hv.mono hmono⟩).add ⟨G, hgood, rfl⟩
        · intro u hu hku
          exact (hmono _).trans (hNn.passed u hu hku)
      · obtain ⟨p', g', j', h⟩ := hJ.node x hx
        refine ⟨p', g', j', ?_⟩
        simp only [upd, hxn, if_false]
        exact h.mono hmono (hd'x x hxn)
    · exact ⟨p, g, j, hN.mono hmono (hd'x s (Ne.symm hns))⟩
    · intro u hu hku
      rcases List.mem_append.1 hu with hu | hu
      · exact (hmono _).trans (hJ.done u hu hku)
      · obtain rfl : u = t := by simpa using hu
        rw [← hn, hd'n, ← hdn]
        exact Abs.right hid _ _
    · simp [upd, Ne.symm hns, hJ.rs]
    · intro x hx
      by_cases hxn : x = n
      · exact .inr hxn
      · simp only [upd, hxn, if_false] at hx
        exact .inl (hJ.mem x hx)
    · intro k
      have hlt : phi f keep src d < phi f keep src d' := by
        cases hGe : G with
        | nil =>
          rw [hGe] at hdn
          simp only [List.sum_nil, add_zero] at hdn
          exact absurd hdn hne
        | cons u G' =>
          have hu : u ∈ G := by rw [hGe]; simp
          obtain ⟨vs, hgt⟩ := hgood u hu
          exact phi_lt hmono (hgt.mem_shorts hw hsrc) (hG u hu).2 hgt.abs
      have := phi_le (f := f) (keep := keep) (src := src) d'
      omega
  finish := by
    intro s a S d r hJ
    refine ⟨⟨hJ.one, fun x => ?_, hJ.mem⟩, fun _ => le_rfl⟩
    by_cases hx : x = s
    · subst hx
      obtain ⟨p, g, j, hN⟩ := hJ.cur
      refine ⟨p + g, 0, 0, ⟨by rw [add_zero]; exact hN.dist, by rw [add_zero]; exact hJ.rs, Abs.zero _, SumOf.zero _, ?_, ?_⟩⟩
      · exact hN.walk.add (hN.good.mono fun w h => h.isWalk)
      · intro t ht hk
        rw [right_distrib]
        refine (hN.passed t ht hk).add ((hJ.done t ht hk).trans ?_)
        rw [hN.pend, right_distrib]
        exact Abs.left hid _ _
    · exact hJ.node x hx

theorem idI_init (hz : ∀ a : W, 0 * a = 0) (hid : ∀ a : W, a + a = a) : IdI f keep src {src} (init src) (init src) := by
  have h1 : (init src src : W) = 1 := by simp [init, upd]
  refine ⟨by rw [h1]; exact Abs.refl hid 1, fun x => ?_, fun x hx => ?_⟩
  · by_cases hx : x = src
    · subst hx
      refine ⟨0, 1, 0, ⟨by rw [h1, zero_add], by rw [h1, add_zero], Abs.zero _, ⟨[1], ?_, by simp⟩, SumOf.zero _, ?_⟩⟩
      · intro w hw
        obtain rfl : w = 1 := by simpa using hw
        exact ⟨_, .nil (by rw [h1]; exact Abs.refl hid 1)⟩
      · intro t _ _
        rw [hz]; exact Abs.zero _
    · have h0 : (init src x : W) = 0 := by simp [init, upd, hx]
      refine ⟨0, 0, 0, ⟨by rw [h0, add_zero], by rw [h0, add_zero], Abs.zero _, SumOf.zero _, SumOf.zero _, ?_⟩⟩
      intro t _ _
      rw [hz]; exact Abs.zero _
  · by_contra hne
    have : x ≠ src := hne
    simp [init, upd, this] at hx

theorem idI_distance (hid : ∀ a : W, a + a = a) {r : Nat → W} (h : IdI f keep src ∅ d r) (q : StateId) :
    f.IsDistance keep src q (d q) := by
  have hclosed : ∀ x, SumOf (IsWalk f keep src x) (d x) ∧ ∀ t ∈ f.trsOf x, keep t = true → Abs (d t.nextstate) (d x * t.weight) := by
    intro x
    obtain ⟨p, g, j, hN⟩ := h.node x
    have hr : r x = 0 := by
      by_contra hne
      exact absurd (h.mem x hne) (Set.notMem_empty x)
    have hg : g = 0 := by
      have h0 : Abs 0 g := by
        rw [← hr, hN.pend]; exact Abs.left hid _ _
      exact eq_zero_of_abs h0
    have hd : d x = p := by rw [hN.dist, hg, add_zero]
    rw [hd]
    exact ⟨hN.walk, hN.passed⟩
  have habs : ∀ n x w, (x, w) ∈ f.walks keep n src → Abs (d x) w := by
    intro n
    induction n with
    | zero =>
      intro x w hx
      obtain ⟨rfl, rfl⟩ := (f.mem_walks_zero keep).1 hx
      exact h.one
    | succ n ih =>
      intro x w hx
      obtain ⟨s, a, hs, t, ht, hk, rfl, rfl⟩ := (f.mem_walks_succ' keep).1 hx
      exact ((hclosed s).2 t ht hk).trans ((ih s a hs).mul _)
  have hfin : ∀ l : List W, (∀ w ∈ l, IsWalk f keep src q w) → ∃ N, ∀ w ∈ l, ∃ k < N, (q, w) ∈ f.walks keep k src := by
    intro l
    induction l with
    | nil => exact fun _ => ⟨0, by simp⟩
    | cons w l ih =>
      intro hl
      obtain ⟨N, hN⟩ := ih fun v hv => hl v (List.mem_cons_of_mem _ hv)
      obtain ⟨k, hk⟩ := hl w (by simp)
      refine ⟨max N (k + 1), fun v hv => ?_⟩
      rcases List.mem_cons.1 hv with rfl | hv
      · exact ⟨k, by omega, hk⟩
      · obtain ⟨k', h1, h2⟩ := hN v hv
        exact ⟨k', by omega, h2⟩
  obtain ⟨l, hl, hdl⟩ := (hclosed q).1
  obtain ⟨N, hN⟩ := hfin l hl
  have hsum : ∀ (M : Multiset W) (D : W), (∀ w ∈ M, Abs D w) → Abs D M.sum := by
    intro M D
    induction M using Quotient.inductionOn with
    | h l => intro hM; simpa using Abs.sum hM
  have hmemsum : ∀ (M : Multiset W) (w : W), w ∈ M → Abs M.sum w := by
    intro M w
    induction M using Quotient.inductionOn with
    | h l => intro hM; simpa using Abs.mem_sum hid hM
  refine ⟨N, fun n hn => ?_⟩
  refine Abs.antisymm ?_ ?_
  · rw [hdl]
    refine Abs.sum fun w hw => ?_
    obtain ⟨k, hk, hm⟩ := hN w hw
    have h1 : Abs (f.walkSum keep k src q) w := by
      refine hmemsum _ _ ?_
      rw [Multiset.mem_map]
      exact ⟨(q, w), by simp [hm], rfl⟩
    refine Abs.trans ?_ h1
    rw [← Finset.sum_erase_add _ _ (Finset.mem_range.2 (lt_of_lt_of_le hk hn))]
    exact Abs.right hid _ _
  · have : ∀ n, Abs (d q) (∑ k ∈ Finset.range n, f.walkSum keep k src q) := by
      intro n
      induction n with
      | zero => exact Abs.zero _
      | succ n ih =>
        rw [Finset.sum_range_succ]
        refine ih.add (hsum _ _ ?_)
        intro w hw
        rw [Multiset.mem_map] at hw
        obtain ⟨⟨x, v⟩, hx, rfl⟩ := hw
        rw [Multiset.mem_filter] at hx
        obtain ⟨hx, hq⟩ := hx
        simp only at hq
        subst hq
        exact habs n _ _ hx
    exact this n

end Sd
end Verif
