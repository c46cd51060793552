import Verif.Model.PushLabels
import Verif.Spec.PushLabels
import Verif.Props.C62
import Verif.Props.C31Push
import Verif.Props.C50Mappers
import Verif.Props.C52

/-! # Pushing labels -/

namespace Verif
open Fst
universe u v
set_option linter.unusedSectionVars false

variable {W : Type u} {V : Type v}

/-- How a path with the labels outside looks with the labels inside the weight. -/
def gallicPath (p : PathT W) : PathT (StrW × W) := (p.1, p.1, (.labels p.2.1, p.2.2))

theorem gallicPath_injective : Function.Injective (gallicPath (W := W)) := by
  rintro ⟨a, b, c⟩ ⟨a', b', c'⟩ h
  simp only [gallicPath, Prod.mk.injEq, StrW.labels.injEq] at h
  obtain ⟨rfl, -, rfl, rfl⟩ := h
  rfl

section
variable [Semiring W] [DecidableEq W] {qd : W → R W}

theorem gpair_ne {a : StrW × W} (h : GPair a) : a ≠ 0 := by
  obtain ⟨l, w, rfl, -⟩ := h
  exact gpair_ne_zero _ _

/-- Lines 222-232 on an acyclic acceptor with gallic weights. -/
theorem pullLabels_spec (hqd : qd 1 = .ok 1) {r : Fst (StrW × W)} (hw : r.WF) (hacc : ∀ s, ∀ t ∈ r.trsOf s, t.ilabel = t.olabel) (hac : r.Holds .acyclic)
    (hKt : ∀ s, ∀ t ∈ r.trsOf s, GPair t.weight) (hKf : ∀ s v, r.finOf s = some v → v ≠ 0 → GPair v) :
    ∃ F : Fst W, EndsWith (pullLabels qd r) (.ok F) ∧ F.WF ∧ F.AllCounters ∧ (r.Truthful → (∀ s, r.finOf s ≠ some 0) → F.Truthful) ∧
      ∃ part : Nat → Nat → Multiset (PathT W), (∀ m, F.accPaths m = ∑ n ∈ Finset.range (m + 1), part n (m - n)) ∧
        ∀ n, ∃ D, (∀ k, D ≤ k → part n k = 0) ∧ (∑ k ∈ Finset.range D, part n k).map gallicPath = live (r.accPaths n) := by
  obtain ⟨e1, e2, e3⟩ := gallic_laws (W := W) (q := qd) hqd
  obtain ⟨H, ⟨N2, hN2⟩, Hw, part1, c1, c2⟩ := C41_paths (f := r) (o := minFwOpts) e1 e2 e3 ⟨rfl, rfl, rfl, rfl⟩ hw (.inl rfl)
    (C41_finite e1 e2 hw (.inl hac))
  obtain ⟨F, f1, f2, f3, -, part2, d1, d2, d3⟩ := min_tail (W := W) (J := GShort) (extract := extractPair) (mk := fun l w => (.labels l, w)) e1 hw ⟨hKt, hKf⟩
    gpair_factor gpair_one gpair_mul gpair_short gfactor_one (fun _ _ _ _ => rfl) hacc gshort_extract (hN2 N2 (Nat.le_refl _)) Hw
  refine ⟨F, ⟨N2, fun n hn => ?_⟩, f2, f3, fun rt r0 => C60_from_gallic_flags Hw ?_ f1, ?_⟩
  · unfold pullLabels
    rw [hN2 n hn]
    simp only
    rw [f1]
  · obtain ⟨t1, t2, t3⟩ := C41_flags (f := r) (o := minFwOpts) e1 e2 hw rt (hN2 N2 (Nat.le_refl _))
    intro b hb
    by_cases hb1 : b = .acceptor
    · subst hb1; exact t2 (.inr ⟨rfl, rfl⟩) hb
    · by_cases hb2 : b = .coaccessible
      · subst hb2
        refine t3 (fun a => ∃ l w, a = (.labels l, w)) r0 ?_ ⟨[], 1, rfl⟩ ?_ ?_ hb
        · rintro _ ⟨l, w, rfl⟩; exact gpair_ne_zero _ _
        · intro w p hp
          obtain ⟨s, w⟩ := w
          rcases s with _ | ⟨_ | ⟨a, _ | ⟨b, l⟩⟩⟩
          · cases hp
          · cases hp
          · cases hp
          · simp [gallicFactor, stringFactor] at hp
            exact ⟨_, _, by rw [hp]⟩
        · rintro _ ⟨l, w, rfl⟩ s v hv
          obtain ⟨m, x, rfl, -⟩ := hKf s v hv (fun h => r0 s (h ▸ hv))
          exact gpair_ne_zero _ _
      · exact t1 b hb1 hb2 hb
  · obtain ⟨part, x1, x2⟩ := regroup gallicPath c1 (fun n => by obtain ⟨D, hD, -⟩ := c2 n; exact ⟨D, hD⟩) d1 d2 d3
    refine ⟨part, x1, fun n => ?_⟩
    obtain ⟨D, y1, y2⟩ := x2 n
    obtain ⟨D', z1, z2⟩ := c2 n
    refine ⟨D, y1, ?_⟩
    have := y2 D' z1
    show _ = nonzero (r.accPaths n)
    rw [← z2, this]
    symm
    refine live_of_ne fun p hp => ?_
    rw [← this] at hp
    obtain ⟨p', -, rfl⟩ := Multiset.mem_map.1 hp
    exact gpair_ne_zero _ _

end

/-! ## The gallic FST -/

section
variable [Semiring W] [DecidableEq W]

/-- `g` is `f` with the output labels in the weights. -/
structure GallicOf (f : Fst W) (g : Fst (StrW × W)) : Prop where
  start : g.start = f.start
  num : g.numStates = f.numStates
  trs : ∀ s, g.trsOf s = (f.trsOf s).map (gallicTr id)
  fin : ∀ s, g.finOf s = (f.finOf s).map fun w => (.labels [], w)

variable {f : Fst W} {g : Fst (StrW × W)}

theorem gallicOf_exists (f : Fst W) (hs : f.start ≠ none) (hz : ∀ s, f.finOf s ≠ some 0) :
    ∃ g, f.weightConvert (toGallic (V := StrW × W) id) = .ok g ∧ GallicOf f g ∧ (f.Truthful → g.Truthful) := by
  obtain ⟨g, hg⟩ := toGallic_ok (V := StrW × W) id hz
  obtain ⟨g1, g2, g3, g4, -, g6⟩ := (C60_to_gallic f id hs).2 g hg
  exact ⟨g, hg, ⟨g1, g2, g3, g4⟩, g6⟩

theorem GallicOf.mem (h : GallicOf f g) {s} {t : Tr (StrW × W)} (ht : t ∈ g.trsOf s) : ∃ t' ∈ f.trsOf s, t = gallicTr id t' := by
  rw [h.trs] at ht
  obtain ⟨t', h1, h2⟩ := List.mem_map.1 ht
  exact ⟨t', h1, h2.symm⟩

theorem GallicOf.wf (h : GallicOf f g) (hw : f.WF) : g.WF := by
  refine ⟨fun i hi => by rw [h.num]; exact hw.start_lt i (h.start ▸ hi), fun s t ht => ?_⟩
  obtain ⟨t', h1, rfl⟩ := h.mem ht
  rw [h.num]; exact hw.next_lt s t' h1

theorem GallicOf.edge (h : GallicOf f g) : g.Edge = f.Edge := by
  funext s q
  apply propext
  constructor
  · rintro ⟨t, ht, rfl⟩
    obtain ⟨t', h1, rfl⟩ := h.mem ht
    exact ⟨t', h1, rfl⟩
  · rintro ⟨t, ht, rfl⟩
    exact ⟨gallicTr id t, by rw [h.trs]; exact List.mem_map.2 ⟨t, ht, rfl⟩, rfl⟩

theorem GallicOf.acyclic (h : GallicOf f g) (hac : f.Holds .acyclic) : g.Holds .acyclic := by
  rintro ⟨s, hs⟩
  unfold OnCycle at hs
  rw [h.edge] at hs
  exact hac ⟨s, hs⟩

theorem noCycles_acyclic {V : Type*} [Zero V] [Monoid V] [DecidableEq V] {g : Fst V} (hac : g.Holds .acyclic) : g.NoCycles (fun _ => true) := by
  refine fun n s c hc => hac ⟨s, ?_⟩
  have key : ∀ n s x c, (x, c) ∈ g.walks (fun _ => true) (n + 1) s → Relation.TransGen g.Edge s x := by
    intro n
    induction n with
    | zero =>
      intro s x c h
      obtain ⟨t, ht, -, v, hv, -⟩ := (g.mem_walks_succ _).1 h
      obtain ⟨rfl, -⟩ := (g.mem_walks_zero _).1 hv
      exact .single ⟨t, ht, rfl⟩
    | succ n ih =>
      intro s x c h
      obtain ⟨t, ht, -, v, hv, -⟩ := (g.mem_walks_succ _).1 h
      exact .head ⟨t, ht, rfl⟩ (ih _ _ _ hv)
  exact key n s s c hc

theorem GallicOf.acceptor (h : GallicOf f g) : ∀ s, ∀ t ∈ g.trsOf s, t.ilabel = t.olabel := by
  intro s t ht
  obtain ⟨t', -, rfl⟩ := h.mem ht
  rfl

theorem eps_not_mem_strip (a : Label) : EPS ∉ strip a := by unfold strip; split <;> simp_all [eq_comm]

theorem GallicOf.pair (h : GallicOf f g) : g.WeightsIn GPair := by
  refine ⟨fun s t ht => ?_, fun s v hv => ?_⟩
  · obtain ⟨t', h1, rfl⟩ := h.mem ht
    exact ⟨_, _, rfl, eps_not_mem_strip _⟩
  · rw [h.fin] at hv
    obtain ⟨w, h1, rfl⟩ := Option.map_eq_some_iff.1 hv
    exact ⟨_, _, rfl, by simp⟩

theorem GallicOf.paths (h : GallicOf f g) : ∀ n s, g.pathsFrom n s = (f.pathsFrom n s).map gallicPath := by
  intro n
  induction n with
  | zero =>
    intro s
    rw [pathsFrom_zero, pathsFrom_zero, h.fin]
    cases f.finOf s <;> rfl
  | succ n ih =>
    intro s
    rw [pathsFrom_succ, pathsFrom_succ, h.trs, Multiset.map_bind, ← Multiset.map_coe, Multiset.bind_map]
    refine Multiset.bind_congr fun t _ => ?_
    rw [show (gallicTr (V := StrW × W) id t).nextstate = t.nextstate from rfl, ih, Multiset.map_map, Multiset.map_map]
    rfl

theorem GallicOf.accPaths (h : GallicOf f g) (n : Nat) : g.accPaths n = (f.accPaths n).map gallicPath := by
  unfold Fst.accPaths
  rw [h.start]
  cases f.start with
  | none => rfl
  | some i => exact h.paths n i

theorem GallicOf.prop {P : W → Prop} (h : GallicOf f g) (hf : f.WeightsIn P) (hnz : f.WeightsIn (· ≠ 0)) : g.WeightsIn (GProp P) := by
  refine ⟨fun s t ht => ?_, fun s v hv => ?_⟩
  · obtain ⟨t', h1, rfl⟩ := h.mem ht
    exact .inr ⟨_, _, rfl, hnz.1 s t' h1, hf.1 s t' h1, eps_not_mem_strip _⟩
  · rw [h.fin] at hv
    obtain ⟨w, h1, rfl⟩ := Option.map_eq_some_iff.1 hv
    exact .inr ⟨_, _, rfl, hnz.2 s w h1, hf.2 s w h1, by simp⟩

theorem pair_paths {x : Fst (StrW × W)} (hx : x.WeightsIn GPair) (n : Nat) : ∀ p ∈ x.accPaths n, p.2.2 ≠ 0 := by
  intro p hp
  unfold accPaths at hp
  cases hxs : x.start with
  | none => rw [hxs] at hp; simp at hp
  | some i =>
    rw [hxs] at hp
    exact gpair_ne (paths_weights hx gpair_mul n i p hp)

theorem unweightedCopy_spec (hs : f.start ≠ none) (hnz : f.WeightsIn (· ≠ 0)) : ∃ u, f.unweightedCopy = .ok u ∧
    (∀ s, u.trsOf s = (f.trsOf s).map fun t => { t with weight := 1 }) ∧ (∀ s, u.finOf s = (f.finOf s).map fun _ => 1) ∧ u.start = f.start ∧
    u.numStates = f.numStates ∧ (f.Truthful → u.Truthful) := by
  obtain ⟨c1, c2, c3, c4, -, -, c6⟩ := C52_convert_partial f hs
  obtain ⟨u, e, u1, u2, u3, u4, u5⟩ := C50_rm_weight f.convert (by rw [c2]; exact hs)
  refine ⟨u, by unfold unweightedCopy; rw [e], fun s => ?_, fun s => ?_, u3.trans c2, u4.trans c1, fun h => u5 (c6 h)⟩
  · rw [u1, c3]
    exact List.map_congr_left fun t ht => by rw [if_neg (hnz.1 s t ht)]
  · rw [u2, c4]
    cases h : f.finOf s with
    | none => rfl
    | some w => simp [hnz.2 s w h]

/-- The unweighted copy with its labels in the weights. -/
theorem unweighted_gallic (hw : f.WF) (tf : f.Truthful) (hs : f.start ≠ none) (hac : f.Holds .acyclic) (hnz : f.WeightsIn (· ≠ 0)) (h10 : (1 : W) ≠ 0) :
    ∃ u' u, f.unweightedCopy = .ok u' ∧ u'.weightConvert (toGallic (V := StrW × W) id) = .ok u ∧ GallicOf u' u ∧ u'.WF ∧ u'.Holds .acyclic ∧ u.Truthful ∧
      (∀ s, u'.trsOf s = (f.trsOf s).map fun t => { t with weight := 1 }) ∧ (∀ s, u'.finOf s = (f.finOf s).map fun _ => 1) ∧ u'.start = f.start ∧
      u'.numStates = f.numStates := by
  obtain ⟨u', e, u1, u2, u3, u4, u5⟩ := unweightedCopy_spec hs hnz
  obtain ⟨u, e', go, gt⟩ := gallicOf_exists u' (by rw [u3]; exact hs) (fun s h => by
    rw [u2] at h
    obtain ⟨w, -, h⟩ := Option.map_eq_some_iff.1 h
    exact h10 h)
  have sh : SameShape f u' := ⟨fun s => by rw [u1, List.map_map]; rfl, fun s => by rw [u2]; simp, u4, u3⟩
  exact ⟨u', u, e, e', go, sh.wf hw, by
    rintro ⟨s, h⟩
    unfold OnCycle at h
    rw [sh.edge] at h
    exact hac ⟨s, h⟩, gt (u5 tf), u1, u2, u3, u4⟩

end

theorem Fst.SameShape.acyclic [Zero W] [One W] [Zero V] [One V] {g : Fst W} {r : Fst V} (h : SameShape g r) (hac : g.Holds .acyclic) : r.Holds .acyclic := by
  rintro ⟨s, hs⟩
  unfold Fst.OnCycle at hs
  rw [h.edge] at hs
  exact hac ⟨s, hs⟩

theorem Fst.SameShape.acceptor {g : Fst W} {r : Fst V} (h : SameShape g r) (hac : ∀ s, ∀ t ∈ g.trsOf s, t.ilabel = t.olabel) :
    ∀ s, ∀ t ∈ r.trsOf s, t.ilabel = t.olabel := by
  intro s t ht
  obtain ⟨t', h1, h2, h3, -⟩ := h.mem ht
  rw [← h2, ← h3]; exact hac s t' h1

/-! ## Towards the initial state -/

/-- The operations on the reversed weights are right and comparisons exact. -/
structure RevLaw [Semiring W] [Semiring V] (rev : W → V) (back : V → W) (sf : SemiringFlags) (eqv : V → V → Bool) : Prop where
  back_rev : ∀ a, back (rev a) = a
  rev_back : ∀ v, rev (back v) = v
  zero : rev 0 = 0
  one : rev 1 = 1
  add : ∀ a b, rev (a + b) = rev a + rev b
  mul : ∀ a b, rev (a * b) = rev b * rev a
  exact : ∀ a b, eqv a b = true ↔ b = a
  right : sf.right = true
  idem : sf.idempotent = true → ∀ a : W, a + a = a

section
variable [Semiring W] [DecidableEq W] [Semiring V] [DecidableEq V] {divL : W → W → R W} {P : W → Prop} {rev : W → V} {back : V → W} {sf : SemiringFlags}
  {eqv : V → V → Bool} {f : Fst W} {g : Fst (StrW × W)}

theorem RevLaw.distance (L : RevLaw rev back sf eqv) (hw : g.WF) (ht : g.Truthful) (hac : g.Holds .acyclic) :
    ∃ l, EndsWith (g.shortestDistanceRev (gallicRev rev) (gallicBack back) (gallicRightFlags sf) (gallicEqv eqv)) (.ok l) ∧
      ∀ q, q < g.numStates → g.IsFinalDistance (fun _ => true) q (l[q]?.getD 0) := by
  refine C32_reverse (fun a => Prod.ext (StrW.toLeft_toRight a.1) (L.back_rev a.2)) (fun a => Prod.ext (StrR.toRight_toLeft a.1) (L.rev_back a.2))
    (Prod.ext rfl L.zero) (Prod.ext rfl L.one) (fun a b => Prod.ext (StrW.toRight_add a.1 b.1) (L.add a.2 b.2))
    (fun a b => Prod.ext (StrW.toRight_mul a.1 b.1) (L.mul a.2 b.2)) (fun a => mul_zero a) ?_ ?_ ?_ hw ht (.inl (noCycles_acyclic hac))
  · intro a b
    rw [gallicEqv, Bool.and_eq_true, decide_eq_true_iff, L.exact]
    exact ⟨fun h => Prod.ext h.1 h.2, fun h => by rw [h]; exact ⟨rfl, rfl⟩⟩
  · show (true && sf.right) = true
    rw [L.right]; rfl
  · intro h a
    have : sf.idempotent = true := by
      simp only [gallicRightFlags, SemiringFlags.prod, Bool.and_eq_true] at h
      exact h.2
    exact Prod.ext (StrW.plusLeft_self a.1) (L.idem this a.2)

theorem gdiv_eq (l m : List Label) (x y : W) : gallicDivL divL (.labels l, x) (.labels m, y) = pairR (.ok (.labels (l.drop m.length))) (divL x y) := rfl

theorem gdiv_pair {a b v : StrW × W} (ha : GPair a) (hb : GPair b) (h : gallicDivL divL a b = .ok v) : GPair v := by
  obtain ⟨l, x, rfl, hl⟩ := ha
  obtain ⟨m, y, rfl, hm⟩ := hb
  rw [gdiv_eq] at h
  cases hd : divL x y with
  | error e => rw [hd] at h; cases h
  | ok w =>
    rw [hd] at h
    injection h with h
    exact ⟨_, _, h.symm, fun hc => hl (List.mem_of_mem_drop hc)⟩

/-- The strings divide as in the unweighted copy, the weights because every division is possible. -/
theorem gdiv_transfer {l m : List Label} {x y z : W} (h : ∃ v, gallicDivL divL (.labels l, x) (.labels m, y) = .ok v ∧ ((.labels m, y) : StrW × W) * v = (.labels l, x))
    (hz : ∃ v, divL z y = .ok v ∧ y * v = z) : ∃ v, gallicDivL divL (.labels l, z) (.labels m, y) = .ok v ∧ ((.labels m, y) : StrW × W) * v = (.labels l, z) := by
  obtain ⟨v, h1, h2⟩ := h
  obtain ⟨w, h3, h4⟩ := hz
  rw [gdiv_eq] at h1
  cases hd : divL x y with
  | error e => rw [hd] at h1; cases h1
  | ok w' =>
    rw [hd] at h1
    injection h1 with h1
    refine ⟨(.labels (l.drop m.length), w), by rw [gdiv_eq, h3]; rfl, ?_⟩
    rw [← h1] at h2
    exact Prod.ext (congrArg Prod.fst h2 : _) h4

/-- Distances in the unweighted copy are potentials too. -/
theorem potInitial_unweighted (hdiv : WeakLeft divL P) (hfull : ∀ a b, P a → P b → b ≠ 0 → ∃ v, divL a b = .ok v ∧ b * v = a)
    (hf : f.WeightsIn P) (hnz : f.WeightsIn (· ≠ 0)) (hg : GallicOf f g) {u' : Fst W} {u : Fst (StrW × W)} (hu : GallicOf u' u)
    (ut : ∀ s, u'.trsOf s = (f.trsOf s).map fun t => { t with weight := 1 }) (uf : ∀ s, u'.finOf s = (f.finOf s).map fun _ => 1)
    {d : StateId → StrW × W} (hw : f.WF) (hd : ∀ s, s < f.numStates → GProp P (d s)) (hp : u.PotInitial (gallicDivL divL) d) : g.PotInitial (gallicDivL divL) d := by
  have hmem : ∀ s, ∀ t ∈ f.trsOf s, gallicTr id { t with weight := (1 : W) } ∈ u.trsOf s := by
    intro s t ht
    rw [hu.trs, ut]
    exact List.mem_map.2 ⟨_, List.mem_map.2 ⟨t, ht, rfl⟩, rfl⟩
  refine ⟨fun s t ht hs hn => ?_, fun s w hw hs => ?_, fun s hs => ⟨fun w hw => ?_, fun t ht => ?_⟩⟩
  · obtain ⟨t, h0, rfl⟩ := hg.mem ht
    have h1 := hp.tr s _ (hmem s t h0) hs hn
    obtain ⟨a, x, ea, hx, px, -⟩ := gprop_ne (hd s (lt_of_mem_trsOf h0)) hs
    obtain ⟨b, y, eb, hy, py, -⟩ := gprop_ne (hd t.nextstate (hw.next_lt s t h0)) hn
    simp only [gallicTr, id] at h1 ⊢
    rw [ea, eb, gmul_pair] at h1 ⊢
    exact gdiv_transfer h1 (hfull _ _ (hdiv.closed.mul _ _ (hf.1 s t h0) py) px hx)
  · rw [hg.fin] at hw
    obtain ⟨w, h0, rfl⟩ := Option.map_eq_some_iff.1 hw
    have h1 := hp.fin s (.labels [], 1) (by rw [hu.fin, uf, h0]; rfl) hs
    obtain ⟨a, x, ea, hx, px, -⟩ := gprop_ne (hd s (lt_of_finOf h0)) hs
    rw [ea] at h1 ⊢
    exact gdiv_transfer h1 (hfull _ _ (hf.2 s w h0) px hx)
  · rw [hg.fin] at hw
    obtain ⟨w, h0, rfl⟩ := Option.map_eq_some_iff.1 hw
    exact absurd ((hp.dead s hs).1 (.labels [], 1) (by rw [hu.fin, uf, h0]; rfl)) (gpair_ne_zero _ _)
  · obtain ⟨t, h0, rfl⟩ := hg.mem ht
    rcases (hp.dead s hs).2 _ (hmem s t h0) with h | h
    · exact absurd h (gpair_ne_zero _ _)
    · exact .inr h

/-- `reweight` on a gallic FST. -/
theorem reweight_gallic {d : List (StrW × W)} (hw : g.WF) (ht : g.Truthful) (hac : g.Holds .acyclic) (hK : g.WeightsIn GPair)
    (hp : g.PotInitial (gallicDivL divL) (fun s => d[s]?.getD 0)) (hd : ∀ s, s < g.numStates → pot d s = 0 ∨ GPair (pot d s)) {i : StateId} (hi : g.start = some i) :
    ∃ r, g.reweight (gallicDivL divL) gallicDivR .toInitial d = .ok r ∧ SameShape g r ∧ r.Truthful ∧ r.WeightsIn GPair ∧
      (∀ n, r.accPaths n = g.accPaths n) ∧
      (pot d i ≠ 0 → (∀ t ∈ r.trsOf i, ∃ x, GPair x ∧ t.weight = pot d i * x) ∧ ∀ w, r.finOf i = some w → ∃ x, GPair x ∧ w = pot d i * x) := by
  have hil := hw.start_lt i hi
  have hn : g.numStates ≠ 0 := by omega
  obtain ⟨f1, r, w1, hr, rw', rt, -, -, hst⟩ := reweight_spec (divR := gallicDivR) (ty := .toInitial) hw ht hn
      (fun s t htm hs => reweightTr_initial hp htm hs) (fun s w h => (newFin_initial hp h).1) (fun i hi h1 h0 => ⟨_, rfl⟩)
  obtain ⟨c, k, hin, h1, h2⟩ := hst i hi
  have hcyc : ¬ g.OnCycle i := fun h => hac ⟨i, h⟩
  have hk : k = 0 := by
    by_cases hc : pot d i = 1 ∨ pot d i = 0
    · exact (h1 hc).2
    · rw [not_or] at hc
      exact (h2 hc.1 hc.2).2.2 hcyc
  subst hk
  have hc : pot d i ≠ 0 → c = pot d i := by
    intro h0
    by_cases hc1 : pot d i = 1
    · rw [(h1 (.inl hc1)).1, hc1]
    · have := (h2 hc1 h0).1
      cases this; rfl
  have hcp : GPair c := by
    by_cases h0 : pot d i = 0
    · rw [(h1 (.inr h0)).1]; exact gpair_one
    · rw [hc h0]; exact (hd i hil).resolve_left h0
  have K1 : f1.WeightsIn GPair := by
    refine ⟨fun s t htm => ?_, fun s v hv => ?_⟩
    · rw [w1.trs] at htm
      obtain ⟨t, h0, rfl⟩ := List.mem_map.1 htm
      by_cases hz : pot d s = 0 ∨ pot d t.nextstate = 0
      · simp only
        rw [(newTr_initial hp h0).2 hz]; exact hK.1 s t h0
      · rw [not_or] at hz
        obtain ⟨v, hv, -⟩ := hp.tr s t h0 hz.1 hz.2
        have : newTr (gallicDivL divL) gallicDivR .toInitial d s t = v := by
          unfold newTr reweightTr
          rw [if_neg hz.1, if_neg hz.2]
          simp only [pot, hv]; rfl
        simp only [this]
        exact gdiv_pair (gpair_mul _ _ (hK.1 s t h0) ((hd _ (hw.next_lt s t h0)).resolve_left hz.2)) ((hd s (lt_of_mem_trsOf h0)).resolve_left hz.1) hv
    · rw [w1.fin] at hv
      obtain ⟨w, h0, rfl⟩ := Option.map_eq_some_iff.1 hv
      by_cases hz : pot d s = 0
      · rw [(newFin_initial hp h0).2.2 hz]; exact hK.2 s w h0
      · obtain ⟨v, hv, -⟩ := hp.fin s w h0 hz
        have : newFin (gallicDivL divL) .toInitial d s w = v := by
          unfold newFin reweightFin
          rw [if_neg (fun h => by cases h.2)]
          simp only [if_neg hz]
          simp only [pot, hv]; rfl
        rw [this]
        exact gdiv_pair (hK.2 s w h0) ((hd s (lt_of_finOf h0)).resolve_left hz) hv
  have hz : ∀ a : StrW × W, a * 0 = 0 := fun a => mul_zero a
  have hz' : ∀ a : StrW × W, 0 * a = 0 := fun a => zero_mul a
  have hpaths := initial_paths hz hz' w1 (fun s t htm => (newTr_initial hp htm).1) (fun s t htm => (newTr_initial hp htm).2)
      (fun s w h => (newFin_initial hp h).2.1) (fun s w h => (newFin_initial hp h).2.2) hp.dead
  have hacc := hin.accPaths (w1.shape.wf hw) (w1.start.trans hi)
  have main : SameShape g r ∧ r.WeightsIn GPair ∧
      (pot d i ≠ 0 → (∀ t ∈ r.trsOf i, ∃ x, GPair x ∧ t.weight = pot d i * x) ∧ ∀ w, r.finOf i = some w → ∃ x, GPair x ∧ w = pot d i * x) := by
    cases hin with
    | same hc1 a b c' e =>
      refine ⟨⟨fun s => by rw [a]; exact w1.shape.trs s, fun s => by rw [b]; exact w1.shape.fin s, c'.trans w1.num, e.trans w1.start⟩,
        ⟨fun s t h => K1.1 s t (a s ▸ h), fun s w h => K1.2 s w (b s ▸ h)⟩, fun h0 => ?_⟩
      rw [← hc h0, hc1]
      exact ⟨fun t h => ⟨_, K1.1 i t (a i ▸ h), (one_mul _).symm⟩, fun w h => ⟨_, K1.2 i w (b i ▸ h), (one_mul _).symm⟩⟩
    | «at» _ w2 =>
      have hA : ∀ s, ∀ t ∈ r.trsOf s, ∃ x, GPair x ∧ t.weight = if s = i then c * x else x := by
        intro s t h
        rw [w2.trs] at h
        obtain ⟨t', h', rfl⟩ := List.mem_map.1 h
        exact ⟨t'.weight, K1.1 s t' h', rfl⟩
      have hB : ∀ s w, r.finOf s = some w → ∃ x, GPair x ∧ w = if s = i then c * x else x := by
        intro s w h
        rw [w2.fin] at h
        obtain ⟨w', h', rfl⟩ := Option.map_eq_some_iff.1 h
        exact ⟨w', K1.2 s w' h', rfl⟩
      refine ⟨(w1.trans w2).shape, ⟨fun s t h => ?_, fun s w h => ?_⟩, fun h0 => ?_⟩
      · obtain ⟨x, hx, e⟩ := hA s t h
        rw [e]; split
        · exact gpair_mul _ _ hcp hx
        · exact hx
      · obtain ⟨x, hx, e⟩ := hB s w h
        rw [e]; split
        · exact gpair_mul _ _ hcp hx
        · exact hx
      · rw [← hc h0]
        refine ⟨fun t h => ?_, fun w h => ?_⟩
        · obtain ⟨x, hx, e⟩ := hA i t h
          exact ⟨x, hx, by rw [e, if_pos rfl]⟩
        · obtain ⟨x, hx, e⟩ := hB i w h
          exact ⟨x, hx, by rw [e, if_pos rfl]⟩
  refine ⟨r, hr, main.1, rt, main.2.1, fun n => ?_, main.2.2⟩
  rw [hacc n, delay_zero, accPaths_some hi]
  have hg0 : live (g.pathsFrom n i) = g.pathsFrom n i := live_of_ne fun p hp => gpair_ne (paths_weights hK gpair_mul n i p hp)
  by_cases h0 : pot d i = 0
  · have hdf := dead_paths (f := g) hz hz' hp.dead n i h0
    rw [live_eq_zero hdf] at hg0
    rw [(h1 (.inr h0)).1, ← hg0]
    have hone : (PathT.scale 1 : PathT (StrW × W) → _) = id := by funext p; simp [PathT.scale]
    rw [hone, Multiset.map_id]
    have h3 : live (f1.pathsFrom n i) = f1.pathsFrom n i := live_of_ne fun p hp => gpair_ne (paths_weights K1 gpair_mul n i p hp)
    rw [← h3]
    refine live_eq_zero (dead_paths (d := pot d) hz hz' (fun s hs0 => ⟨fun w hw' => ?_, fun t htm => ?_⟩) n i h0)
    · rw [w1.fin] at hw'
      obtain ⟨w', ha, rfl⟩ := Option.map_eq_some_iff.1 hw'
      rw [(newFin_initial hp ha).2.2 hs0, (hp.dead s hs0).1 w' ha]
    · rw [w1.trs] at htm
      obtain ⟨t', ha, rfl⟩ := List.mem_map.1 htm
      simp only
      rw [(newTr_initial hp ha).2 (.inl hs0)]
      exact (hp.dead s hs0).2 t' ha
  · rw [← hg0, ← hpaths n i, hc h0]
    refine (live_of_ne fun p hp => ?_).symm
    obtain ⟨p', hp', rfl⟩ := Multiset.mem_map.1 hp
    exact gpair_ne (gpair_mul _ _ ((hd i hil).resolve_left h0) (paths_weights K1 gpair_mul n i p' hp'))

/-- `remove_weight` on a gallic FST. `x` and `y` are what is removed. -/
theorem removeWeight_gallic {r : Fst (StrW × W)} {i : StateId} {a x : List Label} {c y : W} (hcan : ∀ c x, P c → c ≠ 0 → ∃ v, divL (c * x) c = .ok v ∧ c * v = c * x)
    (h10 : (1 : W) ≠ 0) (h1P : P 1) (hcP : P c) (hc0 : c ≠ 0) (hx : x = a ∨ x = []) (hy : y = c ∨ y = 1) (hea : EPS ∉ a)
    (hw : r.WF) (hac : r.Holds .acyclic) (hK : r.WeightsIn GPair) (hi : r.start = some i) (htr : ∀ t ∈ r.trsOf i, ∃ x, GPair x ∧ t.weight = (.labels a, c) * x)
    (hfin : ∀ w, r.finOf i = some w → ∃ x, GPair x ∧ w = (.labels a, c) * x) :
    ∃ r', r.removeWeight (gallicDivL divL) gallicDivR .toInitial (.labels x, y) = .ok r' ∧ SameShape r r' ∧ (r.Truthful → r'.Truthful) ∧ r'.WeightsIn GPair ∧
      ∀ n, (r'.accPaths n).map (PathT.scale (.labels x, y)) = r.accPaths n := by
  have hx' : ∀ m, (x.length ≤ (a ++ m).length ∧ x ++ (a ++ m).drop x.length = a ++ m) := by
    intro m
    rcases hx with rfl | rfl <;> simp
  have hy0 : y ≠ 0 := by rcases hy with rfl | rfl <;> assumption
  have hyd : ∀ z, ∃ v, divL (c * z) y = .ok v ∧ y * v = c * z := by
    intro z
    rcases hy with rfl | rfl
    · exact hcan _ _ hcP hc0
    · obtain ⟨v, h1, h2⟩ := hcan 1 (c * z) h1P h10
      rw [one_mul (c * z)] at h1 h2
      exact ⟨v, h1, h2⟩
  have hxe : EPS ∉ x := by rcases hx with rfl | rfl <;> simp [hea]
  have hdiv : ∀ v, GPair v → ∃ w, gallicDivL divL ((.labels a, c) * v) (.labels x, y) = .ok w ∧ (.labels x, y) * w = (.labels a, c) * v := by
    rintro _ ⟨m, z, rfl, -⟩
    obtain ⟨v, h1, h2⟩ := hyd z
    refine ⟨(.labels ((a ++ m).drop x.length), v), ?_, ?_⟩
    · rw [gmul_pair, gdiv_eq, h1]; rfl
    · rw [gmul_pair, gmul_pair, (hx' m).2, h2]
  by_cases h1 : ((.labels x, y) : StrW × W) = 1
  · refine ⟨r, by unfold removeWeight; rw [if_pos (.inl h1)], ⟨fun _ => rfl, fun _ => rfl, rfl, rfl⟩, id, hK, fun n => ?_⟩
    have hone : (PathT.scale 1 : PathT (StrW × W) → _) = id := by funext p; simp [PathT.scale]
    rw [h1, hone, Multiset.map_id]
  · obtain ⟨r', e1, e2, e3, e4, e5⟩ := removeWeight_initial (divL := gallicDivL divL) (divR := gallicDivR) h1 (gpair_ne_zero _ _) hi (fun h => hac ⟨i, h⟩)
      (fun t ht => by
        obtain ⟨v, hv, e⟩ := htr t ht
        rw [e]; exact hdiv v hv)
      (fun w hw => by
        obtain ⟨v, hv, e⟩ := hfin w hw
        rw [e]; exact hdiv v hv)
    exact ⟨r', e1, e3, e2, e5 GPair hK fun a v ha hv => gdiv_pair ha ⟨x, y, rfl, hxe⟩ hv, e4⟩

/-! ### The common prefix -/

/-- `b` is a prefix. -/
def StrW.begins (b : List Label) : StrW → Prop
  | .inf => True
  | .labels a => b <+: a

theorem begins_add (b : List Label) (x y : StrW) : StrW.begins b (x + y) ↔ StrW.begins b x ∧ StrW.begins b y := by
  cases x with
  | inf => rw [show (StrW.inf + y : StrW) = y from rfl]; simp [StrW.begins]
  | labels l =>
    cases y with
    | inf => rw [show (StrW.labels l + .inf : StrW) = .labels l from rfl]; simp [StrW.begins]
    | labels m =>
      rw [show (StrW.labels l + .labels m : StrW) = .labels (StrW.common l m) from rfl]
      obtain ⟨h1, h2, h3⟩ := StrW.isLcp_common l m
      exact ⟨fun h => ⟨h.trans h1, h.trans h2⟩, fun h => h3 b h.1 h.2⟩

theorem begins_sum (b : List Label) (M : Multiset StrW) : StrW.begins b M.sum ↔ ∀ x ∈ M, StrW.begins b x := by
  induction M using Multiset.induction_on with
  | empty => exact ⟨fun _ _ h => by simp at h, fun _ => trivial⟩
  | cons x M ih => rw [Multiset.sum_cons, begins_add, ih]; simp

theorem begins_range (b : List Label) (x : Nat → StrW) (n : Nat) : StrW.begins b (∑ k ∈ Finset.range n, x k) ↔ ∀ k < n, StrW.begins b (x k) := by
  induction n with
  | zero => exact ⟨fun _ _ h => by omega, fun _ => trivial⟩
  | succ n ih => rw [Finset.sum_range_succ, begins_add, ih]; exact ⟨fun h k hk => by rcases Nat.lt_succ_iff_lt_or_eq.1 hk with h' | rfl; exact h.1 k h'; exact h.2, fun h => ⟨fun k hk => h k (by omega), h n (by omega)⟩⟩

/-- The distance to the final states holds the longest common prefix of the outputs and the sum of the weights. -/
theorem distance_parts (h : GallicOf f g) {s : StateId} {d : StrW × W} (hd : g.IsFinalDistance (fun _ => true) s d) :
    (∀ b, StrW.begins b d.1 ↔ ∀ n, ∀ p ∈ f.pathsFrom n s, b <+: p.2.1) ∧
    ∃ N, ∀ n, N ≤ n → ∑ k ∈ Finset.range n, ((f.pathsFrom k s).map fun p => p.2.2).sum = d.2 := by
  obtain ⟨N, hN⟩ := hd
  have hz : ∀ a : StrW × W, a * 0 = 0 := fun a => mul_zero a
  have e : ∀ n, g.finalSum (fun _ => true) n s = (((f.pathsFrom n s).map fun p => StrW.labels p.2.1).sum, ((f.pathsFrom n s).map fun p => p.2.2).sum) := by
    intro n
    rw [← sum_pathsFrom hz, h.paths, Multiset.map_map]
    refine Prod.ext ?_ ?_
    · rw [← AddMonoidHom.coe_fst, AddMonoidHom.map_multiset_sum, Multiset.map_map]; rfl
    · rw [← AddMonoidHom.coe_snd, AddMonoidHom.map_multiset_sum, Multiset.map_map]; rfl
  constructor
  · intro b
    have key : ∀ n, N ≤ n → (StrW.begins b d.1 ↔ ∀ k < n, ∀ p ∈ f.pathsFrom k s, b <+: p.2.1) := by
      intro n hn
      rw [← hN n hn, ← AddMonoidHom.coe_fst, map_sum, begins_range]
      refine forall_congr' fun k => imp_congr_right fun _ => ?_
      rw [AddMonoidHom.coe_fst, e]
      rw [begins_sum]
      simp only [Multiset.mem_map, forall_exists_index, and_imp, forall_apply_eq_imp_iff₂]
      rfl
    exact ⟨fun hb n => (key (max N (n + 1)) (by omega)).1 hb n (by omega), fun hb => (key N (Nat.le_refl _)).2 fun k _ => hb k⟩
  · refine ⟨N, fun n hn => ?_⟩
    rw [← hN n hn]
    refine Eq.trans ?_ (map_sum (AddMonoidHom.snd StrW W) _ _).symm
    refine Finset.sum_congr rfl fun k _ => ?_
    rw [AddMonoidHom.coe_snd, e]

/-- The unweighted copy has the same outputs. -/
theorem unweighted_outputs {u' : Fst W} (ut : ∀ s, u'.trsOf s = (f.trsOf s).map fun t => { t with weight := 1 })
    (uf : ∀ s, u'.finOf s = (f.finOf s).map fun _ => 1) : ∀ n s, (u'.pathsFrom n s).map (fun p => p.2.1) = (f.pathsFrom n s).map fun p => p.2.1 := by
  intro n
  induction n with
  | zero =>
    intro s
    rw [pathsFrom_zero, pathsFrom_zero, uf]
    cases f.finOf s <;> rfl
  | succ n ih =>
    intro s
    rw [pathsFrom_succ, pathsFrom_succ, ut, Multiset.map_bind, Multiset.map_bind, ← Multiset.map_coe, Multiset.bind_map]
    refine Multiset.bind_congr fun t _ => ?_
    have := congrArg (Multiset.map (fun y => strip t.olabel ++ y)) (ih t.nextstate)
    rw [Multiset.map_map, Multiset.map_map] at this ⊢
    exact this

end
end Verif
