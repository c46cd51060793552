import Verif.Model.Dfs
import Mathlib.Logic.Relation
import Mathlib.Order.Basic
import Mathlib.Data.Nat.Basic
import Mathlib.Tactic.Common

/-!
# Invariants of Tarjan's algorithm, on abstract states

`E` is the edge relation, `grey` the states on the DFS stack, `S` those on the component stack, `closed` the states whose component
is complete, `ex v w` says that the edge `v → w` has been passed, `d` and `l` are the discovery numbers and low links.
-/

namespace Verif
namespace Tarjan

/-- Reachability along `E`. -/
abbrev Rch (E : Nat → Nat → Prop) := Relation.ReflTransGen E

/-- The core invariant. -/
structure Core (E : Nat → Nat → Prop) (grey S closed : Nat → Prop) (ex : Nat → Nat → Prop) (d l : Nat → Nat) : Prop where
  grey_S : ∀ q, grey q → S q
  dinj : ∀ u v, S u → S v → d u = d v → u = v
  disj : ∀ q, S q → ¬ closed q
  exE : ∀ v w, ex v w → E v w
  ex_src : ∀ v w, ex v w → S v ∨ closed v
  ex_vis : ∀ v w, ex v w → S w ∨ closed w
  ex_all : ∀ v w, S v → ¬ grey v → E v w → ex v w
  owner : ∀ v, S v → ∃ g, grey g ∧ d g ≤ d v
  reach : ∀ g v, grey g → S v → d g ≤ d v → Rch E g v
  blackS : ∀ v, S v → ¬ grey v → ∃ u, S u ∧ d u < d v ∧ Rch E v u
  low : ∀ g, grey g → ∃ u, S u ∧ d u = l g ∧ Rch E g u
  lowle : ∀ g, grey g → l g ≤ d g
  lowb : ∀ g v w, grey g → S v → d g ≤ d v → (∀ g', grey g' → d g' ≤ d v → d g' ≤ d g) → ex v w → S w → l g ≤ d w
  nocross : ∀ v w g, ex v w → S v → S w → grey g → d v < d g → d w < d g
  closedE : ∀ v w, closed v → E v w → closed w

variable {E : Nat → Nat → Prop} {grey S closed : Nat → Prop} {ex : Nat → Nat → Prop} {d l : Nat → Nat}

theorem closed_reach (hc : ∀ v w, closed v → E v w → closed w) {v w : Nat} (hr : Rch E v w) (hv : closed v) : closed w := by
  induction hr with
  | refl => exact hv
  | tail _ e ih => exact hc _ _ ih e

/-- `s` is the most recently discovered grey state. -/
def Top (grey : Nat → Prop) (d : Nat → Nat) (s : Nat) : Prop := grey s ∧ ∀ g, grey g → d g ≤ d s

theorem Core.start : Core E (fun _ => False) (fun _ => False) (fun _ => False) (fun _ _ => False) d l := by
  constructor <;> simp

/-- A new state is discovered. -/
theorem Core.push (h : Core E grey S closed ex d l) {s N : Nat} (hs : ¬ S s) (hsc : ¬ closed s) (hN : ∀ q, S q → d q < N)
    (ht : (∀ q, ¬ grey q) ∨ ∃ g, Top grey d g ∧ E g s) :
    Core E (fun q => grey q ∨ q = s) (fun q => S q ∨ q = s) closed ex (upd d s N) (upd l s N) := by
  have dS : ∀ q, S q → upd d s N q = d q := fun q hq => by
    unfold upd; rw [if_neg]; rintro rfl; exact hs hq
  have lS : ∀ q, S q → upd l s N q = l q := fun q hq => by
    unfold upd; rw [if_neg]; rintro rfl; exact hs hq
  have ds : upd d s N s = N := by simp [upd]
  have ls : upd l s N s = N := by simp [upd]
  have gS := h.grey_S
  have exS : ∀ v w, ex v w → v ≠ s ∧ w ≠ s := by
    intro v w hx
    have h1 := h.ex_src v w hx
    have h2 := h.ex_vis v w hx
    constructor
    · rintro rfl; tauto
    · rintro rfl; tauto
  constructor
  · rintro q (hq | rfl)
    · exact .inl (gS q hq)
    · exact .inr rfl
  · rintro u v (hu | rfl) (hv | rfl) hd
    · rw [dS _ hu, dS _ hv] at hd; exact h.dinj _ _ hu hv hd
    · rw [dS _ hu, ds] at hd; have := hN _ hu; omega
    · rw [dS _ hv, ds] at hd; have := hN _ hv; omega
    · rfl
  · rintro q (hq | rfl)
    · exact h.disj q hq
    · exact hsc
  · exact h.exE
  · intro v w hx; rcases h.ex_src v w hx with h' | h'
    · exact .inl (.inl h')
    · exact .inr h'
  · intro v w hx; rcases h.ex_vis v w hx with h' | h'
    · exact .inl (.inl h')
    · exact .inr h'
  · rintro v w (hv | rfl) hg he
    · exact h.ex_all v w hv (fun h' => hg (.inl h')) he
    · exact absurd (.inr rfl) hg
  · rintro v (hv | rfl)
    · obtain ⟨g, hg, hd⟩ := h.owner v hv
      exact ⟨g, .inl hg, by rw [dS _ (gS _ hg), dS _ hv]; exact hd⟩
    · exact ⟨_, .inr rfl, le_refl _⟩
  · rintro g v (hg | rfl) (hv | rfl) hd
    · rw [dS _ (gS _ hg), dS _ hv] at hd; exact h.reach g v hg hv hd
    · rcases ht with ht | ⟨t, ht, he⟩
      · exact absurd hg (ht g)
      · exact (h.reach g t hg (gS _ ht.1) (ht.2 g hg)).tail he
    · rw [dS _ hv, ds] at hd; have := hN _ hv; omega
    · exact .refl
  · rintro v (hv | rfl) hg
    · obtain ⟨u, hu, hd, hr⟩ := h.blackS v hv (fun h' => hg (.inl h'))
      exact ⟨u, .inl hu, by rw [dS _ hu, dS _ hv]; exact hd, hr⟩
    · exact absurd (.inr rfl) hg
  · rintro g (hg | rfl)
    · obtain ⟨u, hu, hd, hr⟩ := h.low g hg
      exact ⟨u, .inl hu, by rw [dS _ hu, lS _ (gS _ hg)]; exact hd, hr⟩
    · exact ⟨g, .inr rfl, by rw [ds, ls], .refl⟩
  · rintro g (hg | rfl)
    · rw [dS _ (gS _ hg), lS _ (gS _ hg)]; exact h.lowle g hg
    · rw [ds, ls]
  · rintro g v w (hg | rfl) (hv | rfl) hd hmax hx (hw | rfl)
    · rw [dS _ (gS _ hg), dS _ hv] at hd
      rw [lS _ (gS _ hg), dS _ hw]
      refine h.lowb g v w hg hv hd (fun g' hg' hd' => ?_) hx hw
      have := hmax g' (.inl hg') (by rw [dS _ (gS _ hg'), dS _ hv]; exact hd')
      rwa [dS _ (gS _ hg'), dS _ (gS _ hg)] at this
    · exact absurd rfl (exS _ _ hx).2
    · exact absurd rfl (exS _ _ hx).1
    · exact absurd rfl (exS _ _ hx).1
    · rw [dS _ hv, ds] at hd; have := hN _ hv; omega
    · exact absurd rfl (exS _ _ hx).2
    · exact absurd rfl (exS _ _ hx).1
    · exact absurd rfl (exS _ _ hx).1
  · rintro v w g hx (hv | rfl) (hw | rfl) (hg | rfl) hd
    · rw [dS _ hv, dS _ (gS _ hg)] at hd
      rw [dS _ hw, dS _ (gS _ hg)]; exact h.nocross v w g hx hv hw hg hd
    · rw [dS _ hw, ds]; exact hN _ hw
    · exact absurd rfl (exS _ _ hx).2
    · exact absurd rfl (exS _ _ hx).2
    · exact absurd rfl (exS _ _ hx).1
    · exact absurd rfl (exS _ _ hx).1
    · exact absurd rfl (exS _ _ hx).1
    · exact absurd rfl (exS _ _ hx).1
  · exact h.closedE

/-- An edge of the top state to a visited state is passed. -/
theorem Core.edge (h : Core E grey S closed ex d l) {s w m : Nat} (ht : Top grey d s) (he : E s w) (hw : S w ∨ closed w)
    (hm : m ≤ l s) (hm1 : m = l s ∨ S w ∧ m = d w) (hm2 : S w → m ≤ d w) :
    Core E grey S closed (fun a b => ex a b ∨ a = s ∧ b = w) d (upd l s m) := by
  have gS := h.grey_S
  have uniq : ∀ g, grey g → d s ≤ d g → g = s := fun g hg hd =>
    h.dinj g s (gS _ hg) (gS _ ht.1) (le_antisymm (ht.2 g hg) hd)
  have lle : ∀ q, upd l s m q ≤ l q := by
    intro q; unfold upd; split
    · next e => rw [e]; exact hm
    · exact le_refl _
  constructor
  · exact gS
  · exact h.dinj
  · exact h.disj
  · rintro a b (hx | ⟨rfl, rfl⟩)
    · exact h.exE _ _ hx
    · exact he
  · rintro a b (hx | ⟨rfl, rfl⟩)
    · exact h.ex_src _ _ hx
    · exact .inl (gS _ ht.1)
  · rintro a b (hx | ⟨rfl, rfl⟩)
    · exact h.ex_vis _ _ hx
    · exact hw
  · intro a b h1 h2 h3; exact .inl (h.ex_all a b h1 h2 h3)
  · exact h.owner
  · exact h.reach
  · exact h.blackS
  · intro g hg
    by_cases hgs : g = s
    · subst hgs
      rcases hm1 with hm1 | ⟨h1, h2⟩
      · obtain ⟨u, hu, hd, hr⟩ := h.low g hg
        exact ⟨u, hu, by simp [upd, hm1, hd], hr⟩
      · exact ⟨w, h1, by simp [upd, h2], .single he⟩
    · obtain ⟨u, hu, hd, hr⟩ := h.low g hg
      exact ⟨u, hu, by simp [upd, hgs, hd], hr⟩
  · intro g hg; exact le_trans (lle g) (h.lowle g hg)
  · rintro g a b hg ha hd hmax (hx | ⟨rfl, rfl⟩) hb
    · exact le_trans (lle g) (h.lowb g a b hg ha hd hmax hx hb)
    · have : g = a := uniq g hg (hmax a ht.1 (le_refl _))
      subst this
      simp only [upd, if_true]
      exact hm2 hb
  · rintro a b g (hx | ⟨rfl, rfl⟩) ha hb hg hd
    · exact h.nocross a b g hx ha hb hg hd
    · have := ht.2 g hg; omega
  · exact h.closedE

/-- The root of the stack cannot have a low link below its number. -/
theorem Core.root_low (h : Core E grey S closed ex d l) {s : Nat} (hs : grey s) (hu : ∀ g, grey g → g = s) : l s = d s := by
  have h1 := h.lowle s hs
  obtain ⟨u, hu1, hu2, -⟩ := h.low s hs
  obtain ⟨g, hg, hd⟩ := h.owner u hu1
  have := hu g hg
  subst this
  omega

/-- The top state is finished but is not the root of a component. -/
theorem Core.finish (h : Core E grey S closed ex d l) {s p m : Nat} (ht : Top grey d s) (hall : ∀ w, E s w → ex s w)
    (hl : l s < d s) (hps : p ≠ s) (hp : Top (fun q => grey q ∧ q ≠ s) d p) (he : E p s)
    (hm : m = min (l p) (l s)) :
    Core E (fun q => grey q ∧ q ≠ s) S closed (fun a b => ex a b ∨ a = p ∧ b = s) d (upd l p m) := by
  have gS := h.grey_S
  have ss := gS _ ht.1
  have pg : grey p := hp.1.1
  have ps := gS _ pg
  have dps : d p < d s := by
    have := ht.2 p pg
    rcases Nat.lt_or_ge (d p) (d s) with h' | h'
    · exact h'
    · exact absurd (h.dinj p s ps ss (by omega)) hps
  have uniq : ∀ g, grey g → g ≠ s → d p ≤ d g → g = p := fun g hg hgs hd =>
    h.dinj g p (gS _ hg) ps (le_antisymm (hp.2 g ⟨hg, hgs⟩) hd)
  have lle : ∀ q, upd l p m q ≤ l q := by
    intro q; unfold upd; split
    · next e => rw [e]; omega
    · exact le_refl _
  constructor
  · exact fun q hq => gS q hq.1
  · exact h.dinj
  · exact h.disj
  · rintro a b (hx | ⟨rfl, rfl⟩)
    · exact h.exE _ _ hx
    · exact he
  · rintro a b (hx | ⟨rfl, rfl⟩)
    · exact h.ex_src _ _ hx
    · exact .inl ps
  · rintro a b (hx | ⟨rfl, rfl⟩)
    · exact h.ex_vis _ _ hx
    · exact .inl ss
  · intro a b ha hg he'
    left
    by_cases has : a = s
    · subst has; exact hall b he'
    · exact h.ex_all a b ha (fun h' => hg ⟨h', has⟩) he'
  · intro v hv
    obtain ⟨g, hg, hd⟩ := h.owner v hv
    by_cases hgs : g = s
    · subst hgs; exact ⟨p, ⟨pg, hps⟩, by omega⟩
    · exact ⟨g, ⟨hg, hgs⟩, hd⟩
  · intro g v hg hv hd; exact h.reach g v hg.1 hv hd
  · intro v hv hg
    by_cases hvs : v = s
    · subst hvs
      obtain ⟨u, hu, hd, hr⟩ := h.low v ht.1
      exact ⟨u, hu, by omega, hr⟩
    · exact h.blackS v hv (fun h' => hg ⟨h', hvs⟩)
  · intro g hg
    by_cases hgp : g = p
    · subst hgp
      rcases Nat.le_total (l g) (l s) with h' | h'
      · obtain ⟨u, hu, hd, hr⟩ := h.low g hg.1
        exact ⟨u, hu, by simp only [upd, if_true]; omega, hr⟩
      · obtain ⟨u, hu, hd, hr⟩ := h.low s ht.1
        exact ⟨u, hu, by simp only [upd, if_true]; omega, hr.head he⟩
    · obtain ⟨u, hu, hd, hr⟩ := h.low g hg.1
      exact ⟨u, hu, by simp [upd, hgp, hd], hr⟩
  · intro g hg; exact le_trans (lle g) (h.lowle g hg.1)
  · rintro g a b ⟨hg, hgs⟩ ha hd hmax (hx | ⟨rfl, rfl⟩) hb
    · by_cases hda : d s ≤ d a
      · have hgp : g = p := uniq g hg hgs (hmax p ⟨pg, hps⟩ (by omega))
        subst hgp
        have := h.lowb s a b ht.1 ha hda (fun g' hg' _ => ht.2 g' hg') hx hb
        simp only [upd, if_true]; omega
      · refine le_trans (lle g) (h.lowb g a b hg ha hd (fun g' hg' hd' => ?_) hx hb)
        by_cases hgs' : g' = s
        · subst hgs'; omega
        · exact hmax g' ⟨hg', hgs'⟩ hd'
    · have hgp : g = a := uniq g hg hgs (hmax a ⟨pg, hps⟩ (le_refl _))
      subst hgp
      simp only [upd, if_true]
      have := h.lowle b ht.1
      omega
  · rintro a b g (hx | ⟨rfl, rfl⟩) ha hb hg hd
    · exact h.nocross a b g hx ha hb hg.1 hd
    · have := hp.2 g hg; omega
  · exact h.closedE

/-- States above a component root on the component stack. -/
def Grp (S : Nat → Prop) (d : Nat → Nat) (s v : Nat) : Prop := S v ∧ d s ≤ d v

theorem Core.grp_edge (h : Core E grey S closed ex d l) {s : Nat} (ht : Top grey d s) (hall : ∀ w, E s w → ex s w)
    (hl : l s = d s) {v w : Nat} (hv : Grp S d s v) (he : E v w) : ex v w ∧ (Grp S d s w ∨ closed w) := by
  have hx : ex v w := by
    by_cases hg : grey v
    · have : v = s := h.dinj v s hv.1 (h.grey_S _ ht.1) (le_antisymm (ht.2 v hg) hv.2)
      subst this; exact hall w he
    · exact h.ex_all v w hv.1 hg he
  refine ⟨hx, ?_⟩
  rcases h.ex_vis v w hx with h' | h'
  · left
    refine ⟨h', ?_⟩
    have := h.lowb s v w ht.1 hv.1 hv.2 (fun g hg _ => ht.2 g hg) hx h'
    omega
  · exact .inr h'

theorem Core.grp_reach (h : Core E grey S closed ex d l) {s : Nat} (ht : Top grey d s) (hall : ∀ w, E s w → ex s w)
    (hl : l s = d s) {v w : Nat} (hv : Grp S d s v) (hr : Rch E v w) : Grp S d s w ∨ closed w := by
  induction hr with
  | refl => exact .inl hv
  | tail _ e ih =>
    rcases ih with h' | h'
    · exact (h.grp_edge ht hall hl h' e).2
    · exact .inr (h.closedE _ _ h' e)

theorem Core.grp_from (h : Core E grey S closed ex d l) {s : Nat} (ht : Top grey d s) {v : Nat} (hv : Grp S d s v) : Rch E s v :=
  h.reach s v ht.1 hv.1 hv.2

theorem Core.grp_to (h : Core E grey S closed ex d l) {s : Nat} (ht : Top grey d s) (hall : ∀ w, E s w → ex s w)
    (hl : l s = d s) : ∀ n v, d v = n → Grp S d s v → Rch E v s := by
  intro n
  induction n using Nat.strongRecOn with
  | _ n ih =>
    intro v hn hv
    by_cases hg : grey v
    · have : v = s := h.dinj v s hv.1 (h.grey_S _ ht.1) (le_antisymm (ht.2 v hg) hv.2)
      subst this; exact .refl
    · obtain ⟨u, hu, hd, hr⟩ := h.blackS v hv.1 hg
      rcases h.grp_reach ht hall hl hv hr with h' | h'
      · exact hr.trans (ih (d u) (by omega) u rfl h')
      · exact absurd h' (h.disj u hu)

theorem Core.grp_mutual (h : Core E grey S closed ex d l) {s : Nat} (ht : Top grey d s) (hall : ∀ w, E s w → ex s w)
    (hl : l s = d s) {u v : Nat} (hu : Grp S d s u) (hv : Grp S d s v) : Rch E u v :=
  (h.grp_to ht hall hl _ u rfl hu).trans (h.grp_from ht hv)

/-- The top state is finished and is the root of a component. `newEx` is the tree edge from its parent, if any. -/
theorem Core.pop (h : Core E grey S closed ex d l) {s : Nat} (ht : Top grey d s) (hall : ∀ w, E s w → ex s w)
    (hl : l s = d s) (p : Option Nat) (hp : ∀ q, p = some q → grey q ∧ q ≠ s ∧ E q s) :
    Core E (fun q => grey q ∧ q ≠ s) (fun q => S q ∧ ¬ Grp S d s q) (fun q => closed q ∨ Grp S d s q)
      (fun a b => ex a b ∨ p = some a ∧ b = s) d l := by
  have gS := h.grey_S
  have ss := gS _ ht.1
  have sG : Grp S d s s := ⟨ss, le_refl _⟩
  have lt : ∀ g, grey g → g ≠ s → d g < d s := fun g hg hgs => by
    have := ht.2 g hg
    rcases Nat.lt_or_ge (d g) (d s) with h' | h'
    · exact h'
    · exact absurd (h.dinj g s (gS _ hg) ss (by omega)) hgs
  have nG : ∀ g, grey g → g ≠ s → ¬ Grp S d s g := fun g hg hgs h' => by
    have := lt g hg hgs; have := h'.2; omega
  constructor
  · exact fun q hq => ⟨gS q hq.1, nG q hq.1 hq.2⟩
  · exact fun u v hu hv => h.dinj u v hu.1 hv.1
  · rintro q ⟨hq, hn⟩ (hc | hc)
    · exact h.disj q hq hc
    · exact hn hc
  · rintro a b (hx | ⟨e, rfl⟩)
    · exact h.exE _ _ hx
    · exact (hp a e).2.2
  · rintro a b (hx | ⟨e, rfl⟩)
    · rcases h.ex_src _ _ hx with h' | h'
      · by_cases hG : Grp S d s a
        · exact .inr (.inr hG)
        · exact .inl ⟨h', hG⟩
      · exact .inr (.inl h')
    · have := hp a e
      exact .inl ⟨gS _ this.1, nG _ this.1 this.2.1⟩
  · rintro a b (hx | ⟨e, rfl⟩)
    · rcases h.ex_vis _ _ hx with h' | h'
      · by_cases hG : Grp S d s b
        · exact .inr (.inr hG)
        · exact .inl ⟨h', hG⟩
      · exact .inr (.inl h')
    · exact .inr (.inr sG)
  · rintro a b ⟨ha, hn⟩ hg he
    refine .inl (h.ex_all a b ha (fun h' => hg ⟨h', ?_⟩) he)
    rintro rfl; exact hn sG
  · rintro v ⟨hv, hn⟩
    obtain ⟨g, hg, hd⟩ := h.owner v hv
    refine ⟨g, ⟨hg, ?_⟩, hd⟩
    rintro rfl; exact hn ⟨hv, hd⟩
  · rintro g v ⟨hg, _⟩ ⟨hv, _⟩ hd; exact h.reach g v hg hv hd
  · rintro v ⟨hv, hn⟩ hg
    obtain ⟨u, hu, hd, hr⟩ := h.blackS v hv (fun h' => hg ⟨h', by rintro rfl; exact hn sG⟩)
    refine ⟨u, ⟨hu, fun hG => hn ⟨hv, ?_⟩⟩, hd, hr⟩
    have := hG.2; omega
  · rintro g ⟨hg, hgs⟩
    obtain ⟨u, hu, hd, hr⟩ := h.low g hg
    refine ⟨u, ⟨hu, fun hG => ?_⟩, hd, hr⟩
    have := hG.2; have := h.lowle g hg; have := lt g hg hgs; omega
  · exact fun g hg => h.lowle g hg.1
  · rintro g a b ⟨hg, hgs⟩ ⟨ha, hn⟩ hd hmax (hx | ⟨e, rfl⟩) ⟨hb, hbn⟩
    · refine h.lowb g a b hg ha hd (fun g' hg' hd' => ?_) hx hb
      by_cases hgs' : g' = s
      · subst hgs'; exact absurd ⟨ha, hd'⟩ hn
      · exact hmax g' ⟨hg', hgs'⟩ hd'
    · exact absurd sG hbn
  · rintro a b g (hx | ⟨e, rfl⟩) ⟨ha, _⟩ ⟨hb, hbn⟩ ⟨hg, _⟩ hd
    · exact h.nocross a b g hx ha hb hg hd
    · exact absurd sG hbn
  · rintro v w (hc | hG) he
    · exact .inl (h.closedE v w hc he)
    · exact (h.grp_edge ht hall hl hG he).2.symm

end Tarjan
end Verif
