import Verif.Lemmas.SdIdem
import Verif.Model.ShortestPath

/-! # The loop of the single-shortest-path algorithm -/

namespace Verif
universe u v
set_option linter.unusedSectionVars false
namespace Sp
open Sd Dfs SpState
variable {W : Type u} [AddCommMonoid W] [Monoid W] [RightDistribClass W]

/-- Keeps every transition. -/
abbrev all : Tr W → Bool := fun _ => true

/-- The parents of `x` lead back to the source. -/
inductive Tree (src : Nat) (par : Nat → Option (Nat × Nat)) : Nat → Prop
  | root : par src = none → Tree src par src
  | child {x s pos} : par x = some (s, pos) → Tree src par s → Tree src par x

/-- `n` is met on the way back from `x`. -/
inductive OnChain (par : Nat → Option (Nat × Nat)) (n : Nat) : Nat → Prop
  | here : OnChain par n n
  | up {x s pos} : par x = some (s, pos) → OnChain par n s → OnChain par n x

theorem Tree.onChain {src : Nat} {par : Nat → Option (Nat × Nat)} {x : Nat} (h : Tree src par x) : OnChain par src x := by
  induction h with
  | root _ => exact .here
  | child h _ ih => exact .up h ih

theorem Tree.avoid {src : Nat} {par : Nat → Option (Nat × Nat)} {n : Nat} {p : Option (Nat × Nat)} {x : Nat} (h : Tree src par x)
    (hn : ¬ OnChain par n x) : Tree src (upd par n p) x := by
  induction h with
  | root h =>
    have : src ≠ n := by rintro rfl; exact hn .here
    exact .root (by simp [upd, this, h])
  | @child x s pos h _ ih =>
    have : x ≠ n := by rintro rfl; exact hn .here
    exact .child (by simpa [upd, this] using h) (ih fun hc => hn (.up h hc))

theorem Tree.upd {src : Nat} {par : Nat → Option (Nat × Nat)} {n s pos : Nat} {x : Nat} (hs : Tree src (upd par n (some (s, pos))) s)
    (hsrc : src ≠ n) (h : Tree src par x) : Tree src (upd par n (some (s, pos))) x := by
  induction h with
  | root h => exact .root (by simp [Verif.upd, hsrc, h])
  | @child x s' pos' h _ ih =>
    by_cases hx : x = n
    · exact .child (s := s) (pos := pos) (by simp [Verif.upd, hx]) hs
    · exact .child (by simpa [Verif.upd, hx] using h) ih

/-- The invariant. `P x t` says that the transition `t` of `x` is still to be looked at. -/
structure Inv (f : Fst W) (src : Nat) (S : Set Nat) (P : Nat → Tr W → Prop) (d : Nat → W) (enq : Nat → Bool)
    (par : Nat → Option (Nat × Nat)) : Prop where
  one : d src = 1
  root : par src = none
  zero : ∀ x, x ≠ src → par x = none → d x = 0
  edge : ∀ x s pos, par x = some (s, pos) → ∃ t, (f.trsOf s)[pos]? = some t ∧ t.nextstate = x ∧ Abs (d s * t.weight) (d x)
  tree : ∀ x, x = src ∨ par x ≠ none → Tree src par x
  good : ∀ x, x = src ∨ par x ≠ none → ∃ vs, GT f all src d vs x (d x)
  mem : ∀ x ∈ S, (x = src ∨ par x ≠ none) ∧ x < f.numStates
  wait : ∀ x, enq x = true → x ∈ S
  closed : ∀ x t, enq x = false → t ∈ f.trsOf x → ¬ P x t → Abs (d t.nextstate) (d x * t.weight)

/-- The best final state so far. `F` are the states whose final weight is still to be looked at. -/
structure FInv (f : Fst W) (src : Nat) (F : Nat → Prop) (d : Nat → W) (par : Nat → Option (Nat × Nat)) (fd : W) (fp : Option Nat) :
    Prop where
  best : ∀ x w, ¬ F x → f.finOf x = some w → Abs fd (d x * w)
  from_ : (fd = 0 ∧ fp = none) ∨ ∃ p w, fp = some p ∧ f.finOf p = some w ∧ Abs (d p * w) fd ∧ (p = src ∨ par p ≠ none)

variable {f : Fst W} {src : Nat} {S : Set Nat} {P : Nat → Tr W → Prop} {d : Nat → W} {enq : Nat → Bool}
  {par : Nat → Option (Nat × Nat)}

theorem Inv.back (h : Inv f src S P d enq par) {n x : Nat} (hc : OnChain par n x) :
    ∃ m c, (x, c) ∈ f.walks all m n ∧ Abs (d n * c) (d x) ∨ (x = n ∧ m = 0) := by
  induction hc with
  | here => exact ⟨0, 1, .inr ⟨rfl, rfl⟩⟩
  | @up x s pos hp _ ih =>
    obtain ⟨t, h1, h2, h3⟩ := h.edge x s pos hp
    have htm := List.mem_of_getElem? h1
    obtain ⟨m, c, ⟨hw, ha⟩ | ⟨rfl, rfl⟩⟩ := ih
    · refine ⟨m + 1, c * t.weight, .inl ⟨h2 ▸ Fst.walks_snoc hw htm rfl, ?_⟩⟩
      rw [← mul_assoc]
      exact (ha.mul _).trans h3
    · refine ⟨1, 1 * t.weight, .inl ⟨h2 ▸ Fst.walks_snoc ((f.mem_walks_zero all).2 ⟨rfl, rfl⟩) htm rfl, ?_⟩⟩
      rw [one_mul]
      exact h3

/-- A transition back into the chain improves nothing. -/
theorem Inv.noBack (hcyc : f.CyclesAbsorbed all) (h : Inv f src S P d enq par) {s : Nat} {t : Tr W} (ht : t ∈ f.trsOf s)
    (hc : OnChain par t.nextstate s) : Abs (d t.nextstate) (d s * t.weight) := by
  obtain ⟨m, c, ⟨hw, ha⟩ | ⟨hs, -⟩⟩ := h.back hc
  · have h1 := hcyc m _ _ (Fst.walks_snoc hw ht rfl) (d t.nextstate)
    refine Abs.trans h1 ?_
    rw [← mul_assoc]
    exact ha.mul _
  · have := Fst.walks_snoc (f := f) (keep := all) (p := s) (n := 0) ((f.mem_walks_zero all).2 ⟨rfl, rfl⟩) ht rfl
    rw [← hs, one_mul] at this
    rw [← hs]
    exact hcyc 0 s _ this (d s)

/-- One improvement. -/
theorem Inv.improve (hpath : ∀ a b : W, a + b = a ∨ a + b = b) (hw : f.WF) (hsrc : src < f.numStates) (hcyc : f.CyclesAbsorbed all)
    {s : Nat} {l m : List (Tr W)} {t : Tr W} (h : Inv f src S (fun x u => x = s ∧ u ∈ t :: m) d enq par)
    (hl : f.trsOf s = l ++ t :: m) (hs : s = src ∨ par s ≠ none) (henq : enq s = false)
    (hne : d t.nextstate ≠ d t.nextstate + d s * t.weight) :
    t.nextstate ≠ s ∧ t.nextstate ≠ src ∧ d t.nextstate + d s * t.weight = d s * t.weight ∧
    Inv f src (S ∪ {t.nextstate}) (fun x u => x = s ∧ u ∈ m) (upd d t.nextstate (d t.nextstate + d s * t.weight))
      (upd enq t.nextstate true) (upd par t.nextstate (some (s, l.length))) ∧
    phi f all src d < phi f all src (upd d t.nextstate (d t.nextstate + d s * t.weight)) := by
  have hid : ∀ a : W, a + a = a := fun a => (hpath a a).elim id id
  have htm : t ∈ f.trsOf s := by rw [hl]; simp
  have hne' : ¬ Abs (d t.nextstate) (d s * t.weight) := fun ha => hne ha.symm
  have hoff : ¬ OnChain par t.nextstate s := fun hc => hne' (h.noBack hcyc htm hc)
  have hns : t.nextstate ≠ s := by intro he; exact hoff (he ▸ .here)
  have hnsrc : t.nextstate ≠ src := by intro he; exact hoff (he ▸ (h.tree s hs).onChain)
  have hval : d t.nextstate + d s * t.weight = d s * t.weight := (hpath _ _).resolve_left (Ne.symm hne)
  obtain ⟨vs, hgt⟩ := h.good s hs
  have hnv : t.nextstate ∉ vs := fun hin => hne' (hgt.back hcyc htm rfl hin)
  have hpos : (f.trsOf s)[l.length]? = some t := by rw [hl]; simp
  have hnlt := hw.next_lt s t htm
  obtain ⟨n, hn⟩ : ∃ n, n = t.nextstate := ⟨_, rfl⟩
  rw [← hn] at hne hne' hoff hns hnsrc hval hnv hnlt ⊢
  obtain ⟨d', hd'⟩ : ∃ d', d' = upd d n (d n + d s * t.weight) := ⟨_, rfl⟩
  have hd'n : d' n = d s * t.weight := by rw [hd', ← hval]; simp [upd, hval]
  have hd'x : ∀ x, x ≠ n → d' x = d x := by intro x hx; rw [hd']; simp [upd, hx]
  have hmono : ∀ x, Abs (d' x) (d x) := by
    intro x
    by_cases hx : x = n
    · subst hx
      rw [hd'n, ← hval]; exact Abs.left hid _ _
    · rw [hd'x x hx]; exact Abs.refl hid _
  have hds : d' s = d s := hd'x s (Ne.symm hns)
  have hgt' : GT f all src d' (n :: vs) n (d s * t.weight) := by
    have hlast : Abs (d' n) (d s * t.weight) := by rw [hd'n]; exact Abs.refl hid _
    rw [hn] at hlast hnv ⊢
    exact .snoc (hgt.mono hmono) htm rfl hnv hlast
  rw [← hd']
  refine ⟨hns, hnsrc, hval, ⟨?_, ?_, ?_, ?_, ?_, ?_, ?_, ?_, ?_⟩, ?_⟩
  · rw [hd'x src (Ne.symm hnsrc)]; exact h.one
  · simp [upd, Ne.symm hnsrc, h.root]
  · intro x hx hp
    by_cases hxn : x = n
    · simp [upd, hxn] at hp
    · rw [hd'x x hxn]
      exact h.zero x hx (by simpa [upd, hxn] using hp)
  · intro x s' pos hp
    by_cases hxn : x = n
    · subst hxn
      simp only [upd, if_true, Option.some.injEq, Prod.mk.injEq] at hp
      obtain ⟨rfl, rfl⟩ := hp
      exact ⟨t, hpos, hn.symm, by rw [hds, hd'n]; exact Abs.refl hid _⟩
    · simp only [upd, hxn, if_false] at hp
      obtain ⟨u, h1, h2, h3⟩ := h.edge x s' pos hp
      exact ⟨u, h1, h2, by rw [hd'x x hxn]; exact ((hmono s').mul _).trans h3⟩
  · intro x hx
    have hst : Tree src (upd par n (some (s, l.length))) s := (h.tree s hs).avoid hoff
    by_cases hxn : x = n
    · exact .child (s := s) (pos := l.length) (by simp [upd, hxn]) hst
    · refine Tree.upd hst (Ne.symm hnsrc) (h.tree x ?_)
      simpa [upd, hxn] using hx
  · intro x hx
    by_cases hxn : x = n
    · subst hxn
      rw [hd'n]; exact ⟨_, hgt'⟩
    · rw [hd'x x hxn]
      obtain ⟨vs', hv⟩ := h.good x (by simpa [upd, hxn] using hx)
      exact ⟨vs', hv.mono hmono⟩
  · intro x hx
    by_cases hxn : x = n
    · exact ⟨.inr (by simp [upd, hxn]), by rw [hxn]; exact hnlt⟩
    · rcases hx with hx | hx
      · simpa [upd, hxn] using h.mem x hx
      · exact absurd hx hxn
  · intro x hx
    by_cases hxn : x = n
    · exact .inr hxn
    · exact .inl (h.wait x (by simpa [upd, hxn] using hx))
  · intro x u hx hu hP
    by_cases hxn : x = n
    · simp [upd, hxn] at hx
    rw [hd'x x hxn]
    by_cases hxs : x = s ∧ u = t
    · obtain ⟨rfl, rfl⟩ := hxs
      rw [← hn, hd'n]
      exact Abs.refl hid _
    · refine (hmono _).trans (h.closed x u (by simpa [upd, hxn] using hx) hu ?_)
      rintro ⟨h1, h2⟩
      rcases List.mem_cons.1 h2 with h2 | h2
      · exact hxs ⟨h1, h2⟩
      · exact hP ⟨h1, h2⟩
  · refine phi_lt hmono (hgt'.mem_shorts hw hsrc) hne' hgt'.abs

theorem FInv.mono {F F' : Nat → Prop} {d' : Nat → W} {par' : Nat → Option (Nat × Nat)} {fd : W} {fp : Option Nat} (h : FInv f src F d par fd fp)
    (hF : ∀ x, ¬ F' x → ¬ F x ∧ d' x = d x) (hd : ∀ x, Abs (d' x) (d x)) (hp : ∀ x, par x ≠ none → par' x ≠ none) :
    FInv f src F' d' par' fd fp := by
  refine ⟨fun x w hx hw => by rw [(hF x hx).2]; exact h.best x w (hF x hx).1 hw, ?_⟩
  rcases h.from_ with h | ⟨p, w, h1, h2, h3, h4⟩
  · exact .inl h
  · exact .inr ⟨p, w, h1, h2, ((hd p).mul w).trans h3, h4.imp id (hp p)⟩

variable {Q : Type v} {o : QueueOps Q} {after : StateId → StateId → Prop} [DecidableEq W]

/-- The rank of a state of the loop. -/
noncomputable def rank (f : Fst W) (src : Nat) (d : Nat → W) (k : Nat) : Nat := 2 * ((shorts f all src).card - phi f all src d) + k

theorem relaxAll_spec (L : QueueLaw o (EdgeOk f all) after) (hpath : ∀ a b : W, a + b = a ∨ a + b = b) (hw : f.WF)
    (hsrc : src < f.numStates) (hcyc : f.CyclesAbsorbed all) {s : Nat} {sd : W} :
    ∀ (m l : List (Tr W)) (st : SpState W Q) (S : Set Nat), f.trsOf s = l ++ m → L.Rep (some s) st.queue S →
      Inv f src S (fun x u => x = s ∧ u ∈ m) st.dist st.enq st.parent → (s = src ∨ st.parent s ≠ none) → st.enq s = false →
      st.dist s = sd → FInv f src (fun x => st.enq x = true) st.dist st.parent st.fdist st.fparent →
      ∃ st' S', relaxAll o f.numStates s sd st l.length m = .ok st' ∧ L.Rep (some s) st'.queue S' ∧
        Inv f src S' (fun _ _ => False) st'.dist st'.enq st'.parent ∧
        FInv f src (fun x => st'.enq x = true) st'.dist st'.parent st'.fdist st'.fparent ∧
        rank f src st'.dist (L.size st'.queue) ≤ rank f src st.dist (L.size st.queue)
  | [], l, st, S, hl, hq, hI, hs, he, hsd, hF =>
    ⟨st, S, rfl, hq, ⟨hI.one, hI.root, hI.zero, hI.edge, hI.tree, hI.good, hI.mem, hI.wait,
      fun x t h1 h2 _ => hI.closed x t h1 h2 (by simp)⟩, hF, le_rfl⟩
  | t :: m, l, st, S, hl, hq, hI, hs, he, hsd, hF => by
    have htm : t ∈ f.trsOf s := by rw [hl]; simp
    have hlt := hw.next_lt s t htm
    have hl' : f.trsOf s = (l ++ [t]) ++ m := by rw [hl]; simp
    have hlen : (l ++ [t]).length = l.length + 1 := by simp
    by_cases habs : st.dist t.nextstate = st.dist t.nextstate + sd * t.weight
    · have e1 : st.relax o f.numStates s sd l.length t = .ok st := by
        unfold SpState.relax
        rw [if_pos hlt]
        simp only
        rw [if_pos habs]
      obtain ⟨st', S', h1, h2⟩ := relaxAll_spec L hpath hw hsrc hcyc m (l ++ [t]) st S hl' hq
        ⟨hI.one, hI.root, hI.zero, hI.edge, hI.tree, hI.good, hI.mem, hI.wait, fun x u h1 h2 h3 => by
          by_cases hxs : x = s ∧ u = t
          · obtain ⟨rfl, rfl⟩ := hxs
            rw [hsd]; exact habs.symm
          · refine hI.closed x u h1 h2 ?_
            rintro ⟨h4, h5⟩
            rcases List.mem_cons.1 h5 with h5 | h5
            · exact hxs ⟨h4, h5⟩
            · exact h3 ⟨h4, h5⟩⟩ hs he hsd hF
      refine ⟨st', S', ?_, h2⟩
      rw [hlen] at h1
      simp only [relaxAll, e1, h1]
    · rw [← hsd] at habs
      obtain ⟨hns, hnsrc, hval, hI', hphi⟩ := hI.improve hpath hw hsrc hcyc hl hs he habs
      have hok : EdgeOk f all (some s) t.nextstate := ⟨hlt, fun v hv => by cases hv; exact ⟨t, htm, rfl, rfl⟩⟩
      have hple := phi_le (f := f) (keep := all) (src := src) (upd st.dist t.nextstate (st.dist t.nextstate + st.dist s * t.weight))
      have hfin : FInv f src (fun x => upd st.enq t.nextstate true x = true)
          (upd st.dist t.nextstate (st.dist t.nextstate + st.dist s * t.weight))
          (upd st.parent t.nextstate (some (s, l.length))) st.fdist st.fparent := by
        have hid : ∀ a : W, a + a = a := fun a => (hpath a a).elim id id
        refine hF.mono ?_ ?_ ?_
        · intro x hx
          by_cases hxn : x = t.nextstate
          · simp [upd, hxn] at hx
          · simpa [upd, hxn] using hx
        · intro x
          by_cases hxn : x = t.nextstate
          · subst hxn; simp only [upd, if_true]; exact Abs.left hid _ _
          · simp only [upd, hxn, if_false]; exact Abs.refl hid _
        · intro x hx
          by_cases hxn : x = t.nextstate
          · simp [upd, hxn]
          · simpa [upd, hxn] using hx
      have key : ∀ (q' : Q) (S1 : Set Nat), st.relax o f.numStates s sd l.length t =
          .ok ⟨q', upd st.dist t.nextstate (st.dist t.nextstate + st.dist s * t.weight), upd st.enq t.nextstate true,
            upd st.parent t.nextstate (some (s, l.length)), st.fdist, st.fparent⟩ → L.Rep (some s) q' S1 → L.size q' ≤ L.size st.queue + 1 →
          S1 = S ∪ {t.nextstate} → 
          ∃ st' S', relaxAll o f.numStates s sd st l.length (t :: m) = .ok st' ∧ L.Rep (some s) st'.queue S' ∧
            Inv f src S' (fun _ _ => False) st'.dist st'.enq st'.parent ∧
            FInv f src (fun x => st'.enq x = true) st'.dist st'.parent st'.fdist st'.fparent ∧
            rank f src st'.dist (L.size st'.queue) ≤ rank f src st.dist (L.size st.queue) := by
        intro q' S1 e1 hq' hsz hS1
        subst hS1
        obtain ⟨st', S', h1, h2, h3, h4, h5⟩ := relaxAll_spec L hpath hw hsrc hcyc m (l ++ [t])
          ⟨q', upd st.dist t.nextstate (st.dist t.nextstate + st.dist s * t.weight), upd st.enq t.nextstate true,
            upd st.parent t.nextstate (some (s, l.length)), st.fdist, st.fparent⟩ _ hl' hq' hI'
          (by simpa [upd, Ne.symm hns] using hs) (by simpa [upd, Ne.symm hns] using he) (by simpa [upd, Ne.symm hns] using hsd) hfin
        refine ⟨st', S', ?_, h2, h3, h4, h5.trans ?_⟩
        · rw [hlen] at h1
          simp only [relaxAll, e1, h1]
        · unfold rank
          simp only
          omega
      have habs' : ¬ st.dist t.nextstate = st.dist t.nextstate + sd * t.weight := by rw [← hsd]; exact habs
      cases hen : st.enq t.nextstate with
      | false =>
        obtain ⟨q', eq', hrep, hsz⟩ := L.enqueue hq hok
        refine key q' _ ?_ hrep hsz rfl
        unfold SpState.relax
        rw [if_pos hlt]
        simp only
        rw [if_neg habs']
        simp only [hen, Bool.not_false, if_true, eq', hsd]
      | true =>
        obtain ⟨q', eq', hrep, hsz⟩ := L.update hq hok
        have hin := hI.wait _ hen
        refine key q' _ ?_ hrep (by omega) ?_
        · unfold SpState.relax
          rw [if_pos hlt]
          simp only
          rw [if_neg habs']
          simp only [hen, Bool.not_true, Bool.false_eq_true, if_false, eq', hsd]
          have : upd st.enq t.nextstate true = st.enq := by
            funext x
            by_cases hxn : x = t.nextstate
            · simp [upd, hxn, hen]
            · simp [upd, hxn]
          rw [this]
        · ext x
          constructor
          · exact fun h => .inl h
          · rintro (h | h)
            · exact h
            · cases h; exact hin

theorem final_spec (hpath : ∀ a b : W, a + b = a ∨ a + b = b) {st : SpState W Q} {s : Nat} {F : Nat → Prop} (hs : s = src ∨ st.parent s ≠ none)
    (hF : FInv f src F st.dist st.parent st.fdist st.fparent) :
    ∃ fd fp, final f st s = ⟨st.queue, st.dist, st.enq, st.parent, fd, fp⟩ ∧
      FInv f src (fun x => F x ∧ x ≠ s) st.dist st.parent fd fp := by
  have hid : ∀ a : W, a + a = a := fun a => (hpath a a).elim id id
  unfold final
  cases hw : f.finOf s with
  | none =>
    refine ⟨st.fdist, st.fparent, rfl, ⟨fun x w hx hxw => ?_, hF.from_⟩⟩
    refine hF.best x w (fun h => hx ⟨h, ?_⟩) hxw
    rintro rfl
    rw [hw] at hxw; cases hxw
  | some w =>
    by_cases h : st.fdist ≠ st.fdist + st.dist s * w
    · have hval : st.fdist + st.dist s * w = st.dist s * w := (hpath _ _).resolve_left (Ne.symm h)
      refine ⟨st.fdist + st.dist s * w, some s, by simp only; rw [if_pos h], ⟨fun x v hx hxv => ?_, .inr ⟨s, w, rfl, hw, ?_, hs⟩⟩⟩
      · by_cases hxs : x = s
        · subst hxs
          rw [hw] at hxv; cases hxv
          exact Abs.right hid _ _
        · exact (Abs.left hid _ _).trans (hF.best x v (fun h => hx ⟨h, hxs⟩) hxv)
      · rw [hval]; exact Abs.refl hid _
    · refine ⟨st.fdist, st.fparent, by simp only; rw [if_neg h], ⟨fun x v hx hxv => ?_, hF.from_⟩⟩
      by_cases hxs : x = s
      · subst hxs
        rw [hw] at hxv; cases hxv
        exact (not_not.1 h).symm
      · exact hF.best x v (fun h => hx ⟨h, hxs⟩) hxv

theorem loop_spec (L : QueueLaw o (EdgeOk f all) after) (hpath : ∀ a b : W, a + b = a ∨ a + b = b) (hw : f.WF)
    (hsrc : src < f.numStates) (hcyc : f.CyclesAbsorbed all) :
    ∀ (k : Nat) (st : SpState W Q) (c : Option Nat) (S : Set Nat), rank f src st.dist (L.size st.queue) < k → L.Rep c st.queue S →
      Inv f src S (fun _ _ => False) st.dist st.enq st.parent →
      FInv f src (fun x => st.enq x = true) st.dist st.parent st.fdist st.fparent →
      ∃ st', st.loop o f k = some (.ok st') ∧ Inv f src ∅ (fun _ _ => False) st'.dist st'.enq st'.parent ∧
        FInv f src (fun _ => False) st'.dist st'.parent st'.fdist st'.fparent := by
  intro k
  induction k with
  | zero => intro st c S hk; omega
  | succ k ih =>
    intro st c S hk hq hI hF
    rcases L.dequeue hq with ⟨s, q, S', eq, hs, hrep, hsub, hsup, -, hsize⟩ | ⟨q, eq, hS, hrep⟩
    · obtain ⟨hreach, hslt⟩ := hI.mem s hs
      obtain ⟨fd, fp, ef, hF'⟩ := final_spec (f := f) (src := src) (s := s) hpath (st := ⟨q, st.dist, upd st.enq s false, st.parent, st.fdist, st.fparent⟩)
        (F := fun x => st.enq x = true) hreach hF
      obtain ⟨st2, S2, h1, h2, h3, h4, h5⟩ := relaxAll_spec L hpath hw hsrc hcyc (s := s) (sd := st.dist s) (f.trsOf s) []
        ⟨q, st.dist, upd st.enq s false, st.parent, fd, fp⟩ S' rfl hrep
        ⟨hI.one, hI.root, hI.zero, hI.edge, hI.tree, hI.good, fun x hx => hI.mem x (hsub hx), fun x hx => by
          by_cases hxs : x = s
          · simp [upd, hxs] at hx
          · rcases hsup (hI.wait x (by simpa [upd, hxs] using hx)) with h | h
            · exact h
            · exact absurd h hxs, fun x t h1 h2 h3 => by
          by_cases hxs : x = s
          · subst hxs; exact absurd ⟨rfl, h2⟩ h3
          · exact hI.closed x t (by simpa [upd, hxs] using h1) h2 (fun h => h)⟩ hreach (by simp [upd]) rfl
        ⟨fun x w hx hxw => hF'.best x w (fun h => hx (by simp [upd, h.2, h.1])) hxw, hF'.from_⟩
      obtain ⟨st3, g1, g2⟩ := ih st2 (some s) S2 (by
        have : rank f src st.dist (L.size q) < rank f src st.dist (L.size st.queue) := by unfold rank; omega
        simp only at h5
        omega) h2 h3 h4
      refine ⟨st3, ?_, g2⟩
      unfold SpState.loop SpState.turn
      simp only [eq, hslt, if_true, ef]
      simp only [List.length_nil] at h1
      rw [h1]
      exact g1
    · subst hS
      have henq : ∀ x, st.enq x = false := by
        intro x
        cases h : st.enq x with
        | false => rfl
        | true => exact absurd (hI.wait x h) (Set.notMem_empty x)
      refine ⟨{ st with queue := q }, ?_, hI, ⟨fun x w _ hx => hF.best x w (by rw [henq]; simp) hx, hF.from_⟩⟩
      unfold SpState.loop SpState.turn
      simp only [eq]

theorem loop_mono (o : QueueOps Q) (f : Fst W) : ∀ (k m : Nat) (st : SpState W Q) (x), st.loop o f k = some x → k ≤ m → st.loop o f m = some x
  | 0, _, _, _, h, _ => by simp [SpState.loop] at h
  | k + 1, m, st, x, h, hm => by
    obtain ⟨m, rfl⟩ : ∃ m', m = m' + 1 := ⟨m - 1, by omega⟩
    simp only [SpState.loop] at h ⊢
    split at h
    · exact h
    · exact h
    · exact loop_mono o f k m _ x h (by omega)

theorem inv_init (hpath : ∀ a b : W, a + b = a ∨ a + b = b) (hz : ∀ a : W, 0 * a = 0) (hsrc : src < f.numStates) :
    Inv f src {src} (fun _ _ => False) (upd (fun _ => 0) src 1) (upd (fun _ => false) src true) (fun _ => none) ∧
    FInv f src (fun x => upd (fun _ => false) src true x = true) (upd (fun _ => 0) src 1) (fun _ => none) 0 none := by
  have hid : ∀ a : W, a + a = a := fun a => (hpath a a).elim id id
  refine ⟨⟨by simp [upd], rfl, fun x hx _ => by simp [upd, hx], fun x s pos h => (nomatch h), ?_, ?_, ?_, ?_, ?_⟩, ⟨?_, .inl ⟨rfl, rfl⟩⟩⟩
  · rintro x (rfl | h)
    · exact .root rfl
    · exact absurd rfl h
  · rintro x (rfl | h)
    · exact ⟨_, by simp only [upd, if_true]; exact .nil (by simp only [upd, if_true]; exact Abs.refl hid _)⟩
    · exact absurd rfl h
  · rintro x rfl
    exact ⟨.inl rfl, hsrc⟩
  · intro x hx
    by_cases h : x = src
    · exact h
    · simp [upd, h] at hx
  · intro x t hx _ _
    have : x ≠ src := by rintro rfl; simp [upd] at hx
    simp only [upd, this, if_false]
    rw [hz]; exact Abs.zero _
  · intro x w hx _
    have : x ≠ src := by rintro rfl; simp [upd] at hx
    simp only [upd, this, if_false]
    rw [hz]; exact Abs.zero _

end Sp
end Verif
