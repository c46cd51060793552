import Verif.Lemmas.PushLabelsR
import Verif.Props.C62

/-!
# C70: pushing labels

`push_with_config` (algorithms/push.rs 271-317) with `PUSH_LABELS`.
-/

namespace Verif
open Fst
universe u v
set_option linter.unusedSectionVars false

section
variable {W : Type u} {V : Type v} [Semiring W] [DecidableEq W] [Semiring V] [DecidableEq V] {divL : W → W → R W} {P : W → Prop} {rev : W → V} {back : V → W}
  {sf : SemiringFlags} {eqv : V → V → Bool} {qd : W → R W} {f : Fst W}

/-- C70: pushing labels, and weights if `pt.weights`, towards the initial state of an acyclic FST. It terminates, succeeds, and the accepting paths of the input are those of
the result, which may take more transitions, with the string `a` and the weight `c` in front. `a` is empty unless the common affix is removed, in which
case it is the longest common prefix of all outputs. `c` is one unless the total weight is removed, in which case it is the sum of all path weights if weights are pushed. -/
theorem C70_initial (L : RevLaw rev back sf eqv) (hdiv : WeakLeft divL P) (h10 : (1 : W) ≠ 0) (hqd : qd 1 = .ok 1) (pt : PushType)
    (hfull : pt.weights = false → ∀ a b, P a → P b → b ≠ 0 → ∃ v, divL a b = .ok v ∧ b * v = a)
    (hcan : ∀ c x, P c → c ≠ 0 → ∃ v, divL (c * x) c = .ok v ∧ c * v = c * x)
    (hw : f.WF) (tf : f.Truthful) (hs : f.start ≠ none) (hac : f.Holds .acyclic) (hf : f.WeightsIn P) (hnz : f.WeightsIn (· ≠ 0))
    (hne : pt.removeAffix = pt.removeTotal ∨ ∃ x y w, f.Accepts x y w) :
    ∃ F a c, EndsWith (f.pushLabelsInitial divL rev back sf eqv qd pt) (.ok F) ∧ SamePathsAfter (PathT.before a c) f F ∧ F.WF ∧ F.AllCounters ∧ F.Truthful ∧
      (pt.removeAffix = false → a = []) ∧ (pt.removeTotal = false → c = 1) ∧
      ((∃ x y w, f.Accepts x y w) → (pt.removeAffix = true → f.LongestPrefix a) ∧ (pt.removeTotal = true → pt.weights = true → f.IsTotal c)) := by
  obtain ⟨i, hi⟩ : ∃ i, f.start = some i := Option.ne_none_iff_exists'.1 hs
  obtain ⟨g, eg, hg, gt⟩ := gallicOf_exists f hs (fun s h => hnz.2 s _ h rfl)
  have gw := hg.wf hw
  have gac := hg.acyclic hac
  have gi : g.start = some i := hg.start.trans hi
  have hGdiv := gallic_div hdiv h10
  have hz : ∀ a : StrW × W, a * 0 = 0 := fun a => mul_zero a
  have hz' : ∀ a : StrW × W, 0 * a = 0 := fun a => zero_mul a
  have hil := hw.start_lt i hi
  -- the distances
  obtain ⟨u, l, eu, ⟨N1, hN1⟩, hp, hP, hpre, htot⟩ : ∃ u l, distanceFst id pt f g = .ok u ∧
      EndsWith (u.shortestDistanceRev (gallicRev rev) (gallicBack back) (gallicRightFlags sf) (gallicEqv eqv)) (.ok l) ∧
      g.PotInitial (gallicDivL divL) (fun s => l[s]?.getD 0) ∧ (∀ s, s < f.numStates → GProp P (pot l s)) ∧
      (∀ b, StrW.begins b (pot l i).1 ↔ ∀ n, ∀ p ∈ f.pathsFrom n i, b <+: p.2.1) ∧
      (pt.weights = true → ∃ N, ∀ n, N ≤ n → ∑ k ∈ Finset.range n, ((f.pathsFrom k i).map fun p => p.2.2).sum = (pot l i).2) := by
    by_cases hwt : pt.weights = true
    · obtain ⟨l, hl, hdist⟩ := L.distance gw (gt tf) gac
      have hdist' := hdist i (by rw [hg.num]; exact hil)
      obtain ⟨q1, q2⟩ := distance_parts hg hdist'
      exact ⟨g, l, by unfold distanceFst; rw [if_pos hwt], hl, potInitial_of_distance hz hGdiv (hg.prop hf hnz) gw hdist,
        fun s hs => finalDistance_in hz hGdiv.closed (hg.prop hf hnz) (hdist s (by rw [hg.num]; exact hs)), q1, fun _ => q2⟩
    · have hwt : pt.weights = false := by simpa using hwt
      obtain ⟨u', u, e1, e2, hu, uw, uac, ut, u1, u2, u3, u4⟩ := unweighted_gallic hw tf hs hac hnz h10
      obtain ⟨l, hl, hdist⟩ := L.distance (hu.wf uw) ut (hu.acyclic uac)
      have uP : u.WeightsIn (GProp P) := hu.prop
        ⟨fun s t ht => by rw [u1] at ht; obtain ⟨t', -, rfl⟩ := List.mem_map.1 ht; exact hdiv.closed.one,
          fun s w h => by rw [u2] at h; obtain ⟨_, -, rfl⟩ := Option.map_eq_some_iff.1 h; exact hdiv.closed.one⟩
        ⟨fun s t ht => by rw [u1] at ht; obtain ⟨t', -, rfl⟩ := List.mem_map.1 ht; exact h10,
          fun s w h => by rw [u2] at h; obtain ⟨_, -, rfl⟩ := Option.map_eq_some_iff.1 h; exact h10⟩
      have hPu : ∀ s, s < f.numStates → GProp P (pot l s) := fun s hs =>
        finalDistance_in hz hGdiv.closed uP (hdist s (by rw [hu.num, u4]; exact hs))
      refine ⟨u, l, ?_, hl, potInitial_unweighted hdiv (hfull hwt) hf hnz hg hu u1 u2 hw hPu
        (potInitial_of_distance hz hGdiv uP (hu.wf uw) hdist), hPu, fun b => ?_, fun h => by rw [hwt] at h; cases h⟩
      · unfold distanceFst
        rw [hwt, e1]
        simp only [Bool.false_eq_true, if_false]
        rw [e2]
      · refine ((distance_parts hu (hdist i (by rw [hu.num, u4]; exact hil))).1 b).trans ?_
        have hsh : ∀ n s, (u'.pathsFrom n s).map (fun p => p.2.1) = (f.pathsFrom n s).map fun p => p.2.1 := unweighted_outputs u1 u2
        have : ∀ n, ((∀ p ∈ u'.pathsFrom n i, b <+: p.2.1) ↔ ∀ y ∈ (u'.pathsFrom n i).map (fun p => p.2.1), b <+: y) := by
          intro n; simp only [Multiset.mem_map, forall_exists_index, and_imp, forall_apply_eq_imp_iff₂]
        have h' : ∀ n, ((∀ p ∈ f.pathsFrom n i, b <+: p.2.1) ↔ ∀ y ∈ (f.pathsFrom n i).map (fun p => p.2.1), b <+: y) := by
          intro n; simp only [Multiset.mem_map, forall_exists_index, and_imp, forall_apply_eq_imp_iff₂]
        simp only [this, h', hsh]
  have hd : ∀ s, s < g.numStates → pot l s = 0 ∨ GPair (pot l s) := by
    intro s hs
    rw [hg.num] at hs
    rcases hP s hs with h | ⟨m, w, h, -, -, hm⟩
    · exact .inl h
    · exact .inr ⟨m, w, h, hm⟩
  obtain ⟨r, er, rsh, rt, rK, rp, rst⟩ := reweight_gallic gw (gt tf) gac hg.pair hp hd gi
  have hlive : (∃ x y w, f.Accepts x y w) → pot l i ≠ 0 := by
    rintro ⟨x, y, w, n, hn⟩ h0
    have := dead_paths (f := g) hz hz' hp.dead n i h0 (gallicPath (x, y, w)) (by
      rw [hg.paths]; rw [accPaths_some hi] at hn; exact Multiset.mem_map.2 ⟨_, hn, rfl⟩)
    exact gpair_ne_zero _ _ this
  have htw : g.totalWeight .toInitial l = pot l i := by simp [totalWeight, gi]
  -- what is removed
  obtain ⟨r', a, c, er', sh', rt', K', hp', ha, hc, hchar⟩ : ∃ r' a c, pushGallic (gallicDivL divL) gallicDivR .toInitial pt l g = .ok r' ∧ SameShape r r' ∧
      (r.Truthful → r'.Truthful) ∧ r'.WeightsIn GPair ∧ (∀ n, (r'.accPaths n).map (PathT.scale (.labels a, c)) = r.accPaths n) ∧
      (pt.removeAffix = false → a = []) ∧ (pt.removeTotal = false → c = 1) ∧
      (pot l i ≠ 0 → (pt.removeAffix = true → (pot l i).1 = .labels a) ∧ (pt.removeTotal = true → (pot l i).2 = c)) := by
    have hone : (PathT.scale 1 : PathT (StrW × W) → _) = id := by funext p; simp [PathT.scale]
    have same : SameShape r r := ⟨fun _ => rfl, fun _ => rfl, rfl, rfl⟩
    unfold pushGallic
    by_cases hrm : pt.removeAffix = false ∧ pt.removeTotal = false
    · rw [hrm.1, hrm.2]
      refine ⟨r, [], 1, er, same, id, rK, fun n => ?_, fun _ => rfl, fun _ => rfl, fun _ => ⟨fun h => (by cases h), fun h => (by cases h)⟩⟩
      rw [show ((.labels [], 1) : StrW × W) = 1 from rfl, hone, Multiset.map_id]
    · rw [if_pos (by cases h1 : pt.removeAffix <;> cases h2 : pt.removeTotal <;> simp_all), er, htw]
      simp only
      by_cases h0 : pot l i = 0
      · have hb : pt.removeAffix = true ∧ pt.removeTotal = true := by
          rcases hne with h | h
          · cases h1 : pt.removeAffix <;> cases h2 : pt.removeTotal <;> simp_all
          · exact absurd h0 (hlive h)
        refine ⟨r, [], 1, ?_, same, id, rK, fun n => ?_, fun _ => rfl, fun _ => rfl, fun h => absurd h0 h⟩
        · unfold removeWeight affixOf
          rw [hb.1, hb.2, h0]
          exact if_pos (.inr rfl)
        · rw [show ((.labels [], 1) : StrW × W) = 1 from rfl, hone, Multiset.map_id]
      · obtain ⟨a, c, e, hc0, pc, hea⟩ := gprop_ne (hP i hil) h0
        obtain ⟨h1, h2⟩ := rst h0
        rw [e] at h1 h2 ⊢
        obtain ⟨r', e1, e2, e3, e4, e5⟩ := removeWeight_gallic (x := if pt.removeAffix then a else []) (y := if pt.removeTotal then c else 1) hcan h10 hdiv.closed.one pc hc0
          (by split <;> simp) (by split <;> simp) hea (rsh.wf gw) (SameShape.acyclic rsh gac) rK (rsh.start.trans gi) h1 h2
        refine ⟨r', _, _, ?_, e2, e3, e4, e5, ?_, ?_, fun _ => ⟨?_, ?_⟩⟩
        · rw [← e1]
          congr 1
          unfold affixOf
          refine Prod.ext ?_ rfl
          show (if pt.removeAffix then StrW.labels a else 1) = StrW.labels (if pt.removeAffix then a else [])
          split <;> rfl
        · intro h; rw [h]; rfl
        · intro h; rw [h]; rfl
        · intro h; rw [h]; rfl
        · intro h; rw [h]; rfl
  have sh := sh'
  obtain ⟨F, ⟨N2, hN2⟩, f2, f3, f4, part, c1, c2⟩ := pullLabels_spec hqd (sh'.wf (rsh.wf gw)) (SameShape.acceptor sh' (SameShape.acceptor rsh hg.acceptor))
    (SameShape.acyclic sh' (SameShape.acyclic rsh gac)) K'.1 (fun s v hv _ => K'.2 s v hv)
  refine ⟨F, a, c, ⟨N1 + N2, fun n hn => ?_⟩, ⟨part, c1, fun n => ?_⟩, f2, f3, f4 (rt' rt) (fun s h => gpair_ne (K'.2 s 0 h) rfl), ha, hc, fun hacc => ?_⟩
  · unfold pushLabelsInitial pushLabels
    rw [eg]
    simp only
    rw [eu]
    simp only
    rw [hN1 n (by omega)]
    simp only
    rw [er']
    exact hN2 n (by omega)
  · obtain ⟨D, d1, d2⟩ := c2 n
    refine ⟨D, d1, Multiset.map_injective gallicPath_injective ?_⟩
    rw [← hg.accPaths, ← rp, ← hp', ← live_of_ne (pair_paths K' n), ← d2, Multiset.map_map, Multiset.map_map]
    rfl
  · obtain ⟨x1, x2⟩ := hchar (hlive hacc)
    refine ⟨fun h => ⟨fun x y w => ?_, fun b hb => ?_⟩, fun h1 h2 => ?_⟩
    · rintro ⟨n, hn⟩
      rw [accPaths_some hi] at hn
      exact (hpre a).1 (by rw [x1 h]; exact List.prefix_rfl) n _ hn
    · have := (hpre b).2 fun n p hp => hb p.1 p.2.1 p.2.2 ⟨n, by rw [accPaths_some hi]; exact hp⟩
      rw [x1 h] at this
      exact this
    · obtain ⟨N, hN⟩ := htot h2
      refine ⟨N, fun n hn => ?_⟩
      rw [← x2 h1, ← hN n hn]
      exact Finset.sum_congr rfl fun k _ => by rw [accPaths_some hi]

/-- C70: pushing labels, and weights if `pt.weights`, towards the final states of an acyclic FST whose final weights commute with the others. The string `a` and the weight `c`
are taken from the end of the paths. -/
theorem C70_final {divR : W → W → R W} {eqv : W → W → Bool} (hexact : ∀ a b, eqv a b = true ↔ b = a) (hr : sf.right = true)
    (hid : sf.idempotent = true → ∀ a : W, a + a = a) (hdiv : WeakRight divR P) (h10 : (1 : W) ≠ 0) (hqd : qd 1 = .ok 1) (pt : PushType)
    (hfull : pt.weights = false → ∀ a b, P a → P b → b ≠ 0 → ∃ v, divR a b = .ok v ∧ v * b = a)
    (hone : ∀ a, ∃ v, divR a 1 = .ok v ∧ v * 1 = a) (hzero : ∀ c, c ≠ 0 → divR 0 c = .ok 0)
    (hw : f.WF) (tf : f.Truthful) (hs : f.start ≠ none) (hac : f.Holds .acyclic) (hf : f.WeightsIn P) (hnz : f.WeightsIn (· ≠ 0))
    (hcomm : ∀ s w, f.finOf s = some w → ∀ a, w * a = a * w) (hne : pt.removeAffix = pt.removeTotal ∨ ∃ x y w, f.Accepts x y w) :
    ∃ F a c, EndsWith (f.pushLabelsFinal divR sf eqv qd pt) (.ok F) ∧ SamePathsAfter (PathT.behind a c) f F ∧ F.WF ∧ F.AllCounters ∧
      ((∀ s, s < f.numStates → f.Accessible s) → F.Truthful) ∧ (pt.removeAffix = false → a = []) ∧ (pt.removeTotal = false → c = 1) ∧
      ((∃ x y w, f.Accepts x y w) → (pt.removeAffix = true → f.LongestSuffix a) ∧ (pt.removeTotal = true → pt.weights = true → f.IsTotal c)) := by
  obtain ⟨i, hi⟩ : ∃ i, f.start = some i := Option.ne_none_iff_exists'.1 hs
  obtain ⟨g, eg, hg, gt⟩ := gallicOfR_exists f hs (fun s h => hnz.2 s _ h rfl)
  have gw := hg.left.wf hw
  have gac : g.Holds .acyclic := hg.left.acyclic hac
  have gi : g.start = some i := hg.start.trans hi
  have hGdiv := gallicR_div hdiv h10
  have hz : ∀ a : StrR × W, a * 0 = 0 := fun a => mul_zero a
  have hz' : ∀ a : StrR × W, 0 * a = 0 := fun a => zero_mul a
  have h01 : (1 : StrR × W) ≠ 0 := labR_ne [] 1
  have hil := hw.start_lt i hi
  have comm' : ∀ w : W, (∀ a, w * a = a * w) → ∀ b : StrR × W, ((StrR.lab [], w) : StrR × W) * b = b * (StrR.lab [], w) := fun w h b =>
    Prod.ext ((one_mul b.1).trans (mul_one b.1).symm) (h b.2)
  have gP : g.WeightsIn (GPropR P) := hg.prop hf hnz
  -- the distances
  obtain ⟨u, l, eu, ⟨N1, hN1⟩, hp, hP, h1, hsuf, htot⟩ : ∃ u l, distanceFst (S := StrR) id pt f g = .ok u ∧
      EndsWith (u.shortestDistance (gallicRightFlags sf) (gallicEqv eqv)) (.ok l) ∧
      g.PotFinal (gallicRightDiv divR) (fun s => l[s]?.getD 0) ∧ (∀ s, s < f.numStates → GPropR P (pot l s)) ∧ pot l i = 1 ∧
      (∀ b, StrR.ends b (g.totalWeight .toFinal l).1 ↔ ∀ n, ∀ p ∈ f.pathsFrom n i, b <:+ p.2.1) ∧
      (pt.weights = true → ∃ N, ∀ n, N ≤ n → ∑ k ∈ Finset.range n, ((f.pathsFrom k i).map fun p => p.2.2).sum = (g.totalWeight .toFinal l).2) := by
    by_cases hwt : pt.weights = true
    · obtain ⟨l, hl, hdist⟩ := distanceR hexact hr hid gw (gt tf) gac gi
      have hfd := finalDistance_of_distance hz' gw (gw.start_lt i gi) hdist
      obtain ⟨q1, q2⟩ := distance_partsR hg hfd
      have htw : g.totalWeight .toFinal l = _ := totalWeight_final hz' hz l
      refine ⟨g, l, by unfold distanceFst; rw [if_pos hwt], hl, potFinal_of_distance hz' h01 hGdiv gP gw gi hdist ?_,
        fun s hs => distance_in hz' hGdiv.closed gP gw (gw.start_lt i gi) (hdist s), distance_start (fun h => gac ⟨i, h⟩) (hdist i), ?_, ?_⟩
      · intro s w h
        rw [hg.fin] at h
        obtain ⟨w, h0, rfl⟩ := Option.map_eq_some_iff.1 h
        exact comm' w (hcomm s w h0)
      · rw [htw]; exact q1
      · rw [htw]; exact fun _ => q2
    · have hwt : pt.weights = false := by simpa using hwt
      obtain ⟨u', u, e1, e2, hu, uw, uac, ut, u1, u2, u3, u4⟩ := unweighted_gallic hw tf hs hac hnz h10
      have hu' : GallicOfR u' u := ⟨hu.start, hu.num, hu.trs, hu.fin⟩
      obtain ⟨l, hl, hdist⟩ := distanceR (g := u) hexact hr hid (hu.wf uw) ut (hu.acyclic uac) (hu.start.trans (u3.trans hi))
      have uP : u.WeightsIn (GPropR P) := hu'.prop
        ⟨fun s t ht => by rw [u1] at ht; obtain ⟨t', -, rfl⟩ := List.mem_map.1 ht; exact hdiv.closed.one,
          fun s w h => by rw [u2] at h; obtain ⟨_, -, rfl⟩ := Option.map_eq_some_iff.1 h; exact hdiv.closed.one⟩
        ⟨fun s t ht => by rw [u1] at ht; obtain ⟨t', -, rfl⟩ := List.mem_map.1 ht; exact h10,
          fun s w h => by rw [u2] at h; obtain ⟨_, -, rfl⟩ := Option.map_eq_some_iff.1 h; exact h10⟩
      have ui : Fst.start (W := StrR × W) u = some i := hu.start.trans (u3.trans hi)
      have uw' : Fst.WF (W := StrR × W) u := hu.wf uw
      have uil := uw'.start_lt i ui
      have hPu : ∀ s, s < f.numStates → GPropR P (pot l s) := fun s hs => distance_in hz' hGdiv.closed uP uw' uil (hdist s)
      have uac' : Fst.Holds (W := StrR × W) u .acyclic := hu.acyclic uac
      have hpu : Fst.PotFinal (W := StrR × W) (gallicRightDiv divR) u (fun s => l[s]?.getD 0) :=
        potFinal_of_distance hz' h01 hGdiv uP uw' ui hdist (by
          intro s w h
          rw [hu'.fin, u2] at h
          obtain ⟨w, h0, rfl⟩ := Option.map_eq_some_iff.1 h
          obtain ⟨w', -, rfl⟩ := Option.map_eq_some_iff.1 h0
          exact comm' 1 (fun a => (one_mul a).trans (mul_one a).symm))
      refine ⟨u, l, ?_, hl, potFinal_unweighted hdiv (hfull hwt) hf hg hu' u1 u3 hw hPu hpu hcomm, hPu, distance_start (fun h => uac' ⟨i, h⟩) (hdist i), fun b => ?_, fun h => by rw [hwt] at h; cases h⟩
      · unfold distanceFst
        rw [hwt, e1]
        simp only [Bool.false_eq_true, if_false]
        exact e2
      · have hfd := finalDistance_of_distance hz' uw' uil hdist
        have h1 : (g.totalWeight .toFinal l).1 = (∑ s ∈ Finset.range (Fst.numStates (W := StrR × W) u), l[s]?.getD 0 * (Fst.finOf (W := StrR × W) u s).getD 0).1 := by
          rw [totalWeight_final hz' hz l, show Fst.numStates (W := StrR × W) u = g.numStates from hu.num.trans (u4.trans hg.num.symm)]
          refine (map_sum (AddMonoidHom.fst StrR W) _ _).trans (Eq.trans ?_ (map_sum (AddMonoidHom.fst StrR W) _ _).symm)
          refine Finset.sum_congr rfl fun s _ => ?_
          rw [hu'.fin, u2, hg.fin]
          cases f.finOf s <;> rfl
        rw [h1]
        refine ((distance_partsR hu' hfd).1 b).trans ?_
        have hsh : ∀ n s, (u'.pathsFrom n s).map (fun p => p.2.1) = (f.pathsFrom n s).map fun p => p.2.1 := unweighted_outputs u1 u2
        have : ∀ n, ((∀ p ∈ u'.pathsFrom n i, b <:+ p.2.1) ↔ ∀ y ∈ (u'.pathsFrom n i).map (fun p => p.2.1), b <:+ y) := by
          intro n; simp only [Multiset.mem_map, forall_exists_index, and_imp, forall_apply_eq_imp_iff₂]
        have h' : ∀ n, ((∀ p ∈ f.pathsFrom n i, b <:+ p.2.1) ↔ ∀ y ∈ (f.pathsFrom n i).map (fun p => p.2.1), b <:+ y) := by
          intro n; simp only [Multiset.mem_map, forall_exists_index, and_imp, forall_apply_eq_imp_iff₂]
        simp only [this, h', hsh]
  have hd : ∀ s, s < g.numStates → pot l s = 0 ∨ GPairR (pot l s) := by
    intro s hs
    rw [hg.num] at hs
    rcases hP s hs with h | ⟨m, w, h, -, -, hm⟩
    · exact .inl h
    · exact .inr ⟨m, w, h, hm⟩
  obtain ⟨r, er, rsh, rt, rK, rF, rp⟩ := reweight_gallicR gw (gt tf) gac hg.left.pair hp hd gi h1
  have htw : g.totalWeight .toFinal l = _ := totalWeight_final hz' hz l
  generalize hT : g.totalWeight .toFinal l = T at *
  have hterm : ∀ s, GPropR P (pot l s * (g.finOf s).getD 0) := by
    intro s
    cases h : g.finOf s with
    | none => left; exact hz _
    | some w =>
      refine hGdiv.closed.mul _ _ (hP s ?_) (gP.2 s w h)
      rw [← hg.num]; exact lt_of_finOf h
  have hTP : GPropR P T := by rw [htw]; exact hGdiv.closed.rangeSum _ hterm
  have hlive : (∃ x y w, f.Accepts x y w) → T ≠ 0 := by
    rintro ⟨x, y, w, n, hn⟩ h0
    rw [accPaths_some hi] at hn
    have := (hsuf (0 :: y)).1 (by rw [h0]; exact trivial) n _ hn
    have := this.length_le
    simp at this
  have hfin0 : ∀ s v, r.finOf s = some v → v = 0 ∨ ∃ m z, v = (StrR.lab m, z) ∧ EPS ∉ m ∧ P z ∧ ∃ R, GPropR P R ∧ T = v + R := by
    intro s v hv
    rw [rF] at hv
    obtain ⟨w, h0, rfl⟩ := Option.map_eq_some_iff.1 hv
    have h2 := hterm s
    rw [h0] at h2
    rcases h2 with h2 | ⟨m, z, h2, -, h3, h4⟩
    · exact .inl h2
    · right
      refine ⟨m, z, h2, h4, h3, ?_⟩
      obtain ⟨R, h5, h6⟩ := hGdiv.closed.rangeSplit (n := g.numStates) (g := fun s => pot l s * (g.finOf s).getD 0) hterm (lt_of_finOf h0)
      refine ⟨R, h5, ?_⟩
      rw [htw, h6, h0]; rfl
  -- what is removed
  obtain ⟨r', a, c, er', sh', rt', K', F', hp', ha, hc, hchar⟩ : ∃ r' a c, pushGallic gallicRightDivL (gallicRightDiv divR) .toFinal pt l g = .ok r' ∧ SameShape r r' ∧
      (r.Truthful → r'.Truthful) ∧ (∀ s, r'.trsOf s = r.trsOf s) ∧ (∀ s v, r'.finOf s = some v → (v = 0 ∧ r.finOf s = some 0) ∨ GPairR v) ∧
      (∀ n, (r'.accPaths n).map (PathT.scaleR (StrR.lab a, c)) = r.accPaths n) ∧
      (pt.removeAffix = false → a = []) ∧ (pt.removeTotal = false → c = 1) ∧
      (T ≠ 0 → (pt.removeAffix = true → T.1 = StrR.lab a) ∧ (pt.removeTotal = true → T.2 = c)) := by
    have hone' : (PathT.scaleR 1 : PathT (StrR × W) → _) = id := by funext p; simp [PathT.scaleR]
    have same : SameShape r r := ⟨fun _ => rfl, fun _ => rfl, rfl, rfl⟩
    have rfin : ∀ s v, r.finOf s = some v → (v = 0 ∧ r.finOf s = some 0) ∨ GPairR v := by
      intro s v hv
      rcases hfin0 s v hv with rfl | ⟨m, z, e, hm, -⟩
      · exact .inl ⟨rfl, hv⟩
      · exact .inr ⟨m, z, e, hm⟩
    unfold pushGallic
    by_cases hrm : pt.removeAffix = false ∧ pt.removeTotal = false
    · rw [hrm.1, hrm.2]
      refine ⟨r, [], 1, er, same, id, fun _ => rfl, rfin, fun n => ?_, fun _ => rfl, fun _ => rfl, fun _ => ⟨fun h => (by cases h), fun h => (by cases h)⟩⟩
      rw [show ((StrR.lab [], 1) : StrR × W) = 1 from rfl, hone', Multiset.map_id]
    · rw [if_pos (by cases h1 : pt.removeAffix <;> cases h2 : pt.removeTotal <;> simp_all), er, hT]
      simp only
      by_cases h0 : T = 0
      · have hb : pt.removeAffix = true ∧ pt.removeTotal = true := by
          rcases hne with h | h
          · exact (by decide : ∀ a b : Bool, ¬ (a = false ∧ b = false) → a = b → a = true ∧ b = true) _ _ hrm h
          · exact absurd h0 (hlive h)
        refine ⟨r, [], 1, ?_, same, id, fun _ => rfl, rfin, fun n => ?_, fun _ => rfl, fun _ => rfl, fun h => absurd h0 h⟩
        · unfold removeWeight affixOf
          rw [hb.1, hb.2, h0]
          exact if_pos (.inr rfl)
        · rw [show ((StrR.lab [], 1) : StrR × W) = 1 from rfl, hone', Multiset.map_id]
      · obtain ⟨a, c, e, hc0, pc, hea⟩ := hTP.resolve_left h0
        obtain ⟨r', e1, e2, e3, e4, e5, e6⟩ := removeWeight_gallicR (divR := divR) (r := r) (x := if pt.removeAffix then a else []) (y := if pt.removeTotal then c else 1)
          (by split; exacts [hea, List.not_mem_nil]) (by
            intro s w hsw
            rcases hfin0 s w hsw with rfl | ⟨m, z, e', hm, pz, R, hR, hTR⟩
            · left
              exact ⟨rfl, hzero _ (by split <;> assumption)⟩
            · right
              have hsplit : ∃ m', m = m' ++ a := by
                have h2 : StrR.ends a T.1 := by rw [e]; exact List.suffix_rfl
                rw [hTR] at h2
                have h3 := ((ends_add a w.1 R.1).1 h2).1
                rw [e'] at h3
                obtain ⟨m', h4⟩ := (show a <:+ m from h3)
                exact ⟨m', h4.symm⟩
              obtain ⟨m', rfl⟩ := hsplit
              refine ⟨if pt.removeAffix then m' else m' ++ a, z, by rw [e']; split <;> simp, ?_, ?_⟩
              · split
                · exact fun h => hm (List.mem_append_left _ h)
                · exact hm
              · split
                · have hR2 : P R.2 := by
                    rcases hR with rfl | ⟨_, _, rfl, -, h, -⟩
                    · exact hdiv.closed.zero
                    · exact h
                  have hcz : c = z + R.2 := by
                    have := congrArg Prod.snd hTR
                    rw [e, e'] at this
                    exact this
                  rw [hcz]
                  exact hdiv.div z R.2 pz hR2 (hcz ▸ hc0)
                · exact hone z)
        refine ⟨r', _, _, ?_, e2, e3, e4, e5, e6, ?_, ?_, fun _ => ⟨?_, ?_⟩⟩
        · rw [← e1, e]
          congr 1
          unfold affixOf
          refine Prod.ext ?_ rfl
          show (if pt.removeAffix then StrR.lab a else 1) = StrR.lab (if pt.removeAffix then a else [])
          split <;> rfl
        · intro h; rw [h]; rfl
        · intro h; rw [h]; rfl
        · intro h; rw [h, e]; rfl
        · intro h; rw [h, e]; rfl
  have K'' : ∀ s, ∀ t ∈ r'.trsOf s, GPairR t.weight := fun s t ht => rK s t (by rw [← K' s]; exact ht)
  have F'' : ∀ s v, r'.finOf s = some v → v = 0 ∨ GPairR v := fun s v hv => (F' s v hv).imp_left And.left
  obtain ⟨F, ⟨N2, hN2⟩, f2, f3, f4, part, c1, c2⟩ := pullLabels_spec (r := r') hqd (sh'.wf (rsh.wf gw))
    (SameShape.acceptor sh' (SameShape.acceptor rsh hg.left.acceptor))
    (SameShape.acyclic sh' (SameShape.acyclic rsh gac)) K'' (fun s v hv h0 => (F'' s v hv).resolve_left h0)
  refine ⟨F, a, c, ⟨N1 + N2, fun n hn => ?_⟩, ⟨part, c1, fun n => ?_⟩, f2, f3, fun hacc => f4 (rt' rt) (fun s h => ?_), ha, hc, fun hacc => ?_⟩
  · unfold pushLabelsFinal pushLabels
    rw [eg]
    simp only
    rw [eu]
    simp only
    rw [hN1 n (by omega)]
    simp only
    rw [er']
    exact hN2 n (by omega)
  · obtain ⟨D, d1, d2⟩ := c2 n
    refine ⟨D, d1, Multiset.map_injective gallicPath_injective ?_⟩
    have hl : live (r.accPaths n) = (live (r'.accPaths n)).map (PathT.scaleR (StrR.lab a, c)) := by
      rw [← hp', live_scaleR]
      intro p hp
      rw [accPaths_some (sh'.start.trans (rsh.start.trans gi))] at hp
      exact pathsR_pair K'' F'' n i p hp
    rw [← hg.left.accPaths]
    refine Eq.trans ?_ (hl.symm.trans (rp n))
    refine Eq.trans ?_ (congrArg (Multiset.map (PathT.scaleR (StrR.lab a, c))) d2)
    exact (Multiset.map_map _ _ _).trans (Multiset.map_map (PathT.scaleR (W := StrW × W) (StrW.labels a, c)) gallicPath (∑ k ∈ Finset.range D, part n k)).symm
  · have h0 : r.finOf s = some 0 := by
      rcases F' s 0 h with h | h
      · exact h.2
      · exact absurd rfl (gpairR_ne h)
    rw [rF] at h0
    obtain ⟨w, h3, h4⟩ := Option.map_eq_some_iff.1 h0
    have hsl : s < f.numStates := by rw [← hg.num]; exact lt_of_finOf h3
    have hps : pot l s ≠ 0 := by
      obtain ⟨j, hj, hreach⟩ := hacc s hsl
      rw [hi] at hj
      cases hj
      clear h h0 h3 h4 hsl
      induction hreach with
      | refl => rw [h1]; exact h01
      | tail _ he ih =>
        obtain ⟨t, ht, rfl⟩ := he
        intro hb
        exact labR_ne _ _ (hp.dead _ ⟨t.ilabel, t.ilabel, (StrR.lab (strip t.olabel), t.weight), t.nextstate⟩
          (by rw [hg.trs]; exact List.mem_map.2 ⟨t, ht, rfl⟩) ih hb)
    rcases hGdiv.noZeroDiv _ _ (hP s hsl) (gP.2 s w h3) h4 with h | h
    · exact hps h
    · rw [hg.fin] at h3
      obtain ⟨w, -, rfl⟩ := Option.map_eq_some_iff.1 h3
      exact labR_ne _ _ h
  · obtain ⟨x1, x2⟩ := hchar (hlive hacc)
    refine ⟨fun h => ⟨fun x y w => ?_, fun b hb => ?_⟩, fun h1 h2 => ?_⟩
    · rintro ⟨n, hn⟩
      rw [accPaths_some hi] at hn
      exact (hsuf a).1 (by rw [x1 h]; exact List.suffix_rfl) n _ hn
    · have := (hsuf b).2 fun n p hp => hb p.1 p.2.1 p.2.2 ⟨n, by rw [accPaths_some hi]; exact hp⟩
      rw [x1 h] at this
      exact this
    · obtain ⟨N, hN⟩ := htot h2
      refine ⟨N, fun n hn => ?_⟩
      rw [← x2 h1, ← hN n hn]
      exact Finset.sum_congr rfl fun k _ => by rw [accPaths_some hi]

end

/-! ## Tropical weights -/

section trop
variable {K : Type} [Field K] [LinearOrder K] [IsStrictOrderedRing K] [FloorRing K]

/-- What is removed comes from the beginning or from the end. -/
def PathT.onSide {W : Type u} [Mul W] : ReweightType → List Label → W → PathT W → PathT W
  | .toInitial => PathT.before
  | .toFinal => PathT.behind

/-- The longest common prefix or suffix of all outputs. -/
def Fst.LongestAffix {W : Type u} [One W] [Mul W] (f : Fst W) : ReweightType → List Label → Prop
  | .toInitial => f.LongestPrefix
  | .toFinal => f.LongestSuffix

/-- `push_with_config` for tropical weights; `delta` is the step weights are rounded to. -/
def TW.pushWith (eqv : TW K → TW K → Bool) (delta : K) (ty : ReweightType) (pt : PushType) (f : Fst (TW K)) (n : Nat) : Option (R (Fst (TW K))) :=
  f.pushWithConfig TW.divE TW.divE id id (TW.ops (K := K)).flags (TW.ops (K := K)).flags eqv eqv (fun w => .ok (TW.quantize delta w)) ty pt n

theorem TW.div_full (a b : TW K) (hb : b ≠ .negInf) (h0 : b ≠ 0) : ∃ v, TW.divE a b = .ok v ∧ b * v = a := by
  cases b with
  | negInf => exact absurd rfl hb
  | inf => exact absurd rfl h0
  | fin x =>
    cases a with
    | negInf => exact ⟨.negInf, rfl, rfl⟩
    | inf => exact ⟨.inf, rfl, rfl⟩
    | fin y =>
      refine ⟨.fin (y - x), rfl, ?_⟩
      show TW.fin (x + (y - x)) = TW.fin y
      congr 1; ring

/-- C70 for tropical weights: pushing the labels of an acyclic transducer with finite weights in either direction keeps its paths, except for the string and the weight
that were asked to be removed. The labels may come on other transitions. -/
theorem C70_tropical {eqv : TW K → TW K → Bool} (hexact : ∀ a b, eqv a b = true ↔ b = a) (delta : K) (ty : ReweightType) (pt : PushType) (hl : pt.labels = true)
    {f : Fst (TW K)} (hw : f.WF) (tf : f.Truthful) (hs : f.start ≠ none) (hac : f.Holds .acyclic) (hf : f.WeightsIn fun a => a ≠ .negInf ∧ a ≠ .inf)
    (hne : pt.removeAffix = pt.removeTotal ∨ ∃ x y w, f.Accepts x y w) :
    ∃ F a c, EndsWith (TW.pushWith eqv delta ty pt f) (.ok F) ∧ F.WF ∧ F.AllCounters ∧
      SamePathsAfter (PathT.onSide ty a c) f F ∧
      ((∀ s, s < f.numStates → f.Accessible s) → F.Truthful) ∧ (pt.removeAffix = false → a = []) ∧ (pt.removeTotal = false → c = .fin 0) ∧
      ((∃ x y w, f.Accepts x y w) → (pt.removeAffix = true → f.LongestAffix ty a) ∧
        (pt.removeTotal = true → pt.weights = true → f.IsTotal c)) := by
  have hid : ∀ a : TW K, a + a = a := fun a => by
    change TW.plus a a = a
    cases a <;> simp [TW.plus_fin]
  have h10 : (1 : TW K) ≠ 0 := fun h => by cases h
  have hqd : (fun w : TW K => (.ok (TW.quantize delta w) : R (TW K))) 1 = .ok 1 := by
    show Except.ok (TW.fin (quantize delta 0)) = Except.ok (TW.fin 0)
    unfold quantize
    have : ⌊(0 : K) / delta + 1 / 2⌋ = 0 := by
      rw [zero_div, zero_add, Int.floor_eq_iff]
      constructor <;> norm_num
    rw [this]; simp
  have hP : f.WeightsIn fun a => a ≠ .negInf := ⟨fun s t ht => (hf.1 s t ht).1, fun s w h => (hf.2 s w h).1⟩
  have hnz : f.WeightsIn (· ≠ 0) := ⟨fun s t ht => (hf.1 s t ht).2, fun s w h => (hf.2 s w h).2⟩
  have hc : ∀ a b : TW K, a * b = b * a := mul_comm
  cases ty with
  | toInitial =>
    obtain ⟨F, a, c, ⟨N, h1⟩, h2, h3, h4, h5, h6, h7, h8⟩ := C70_initial (rev := id) (back := id) (sf := (TW.ops (K := K)).flags) (eqv := eqv) (qd := fun w => .ok (TW.quantize delta w))
      ⟨fun _ => rfl, fun _ => rfl, rfl, rfl, fun _ _ => rfl, hc, hexact, rfl, fun _ => hid⟩ TW.weakLeft h10 hqd pt
      (fun _ a b _ hb h0 => TW.div_full a b hb h0) (fun c x hc h0 => TW.div_full _ _ hc h0) hw tf hs hac hP hnz hne
    refine ⟨F, a, c, ⟨N, fun n hn => ?_⟩, h3, h4, h2, fun _ => h5, h6, h7, h8⟩
    unfold TW.pushWith pushWithConfig
    rw [hl]
    simp only [Bool.not_true, Bool.and_false, Bool.false_eq_true, if_false, if_true]
    exact h1 n hn
  | toFinal =>
    obtain ⟨F, a, c, ⟨N, h1⟩, h2, h3, h4, h5, h6, h7, h8⟩ := C70_final (sf := (TW.ops (K := K)).flags) (eqv := eqv) (qd := fun w => .ok (TW.quantize delta w)) hexact rfl (fun _ => hid) TW.weakRight h10 hqd pt
      (fun _ a b _ hb h0 => by
        obtain ⟨v, h1, h2⟩ := TW.div_full a b hb h0
        exact ⟨v, h1, by rw [hc]; exact h2⟩)
      (fun a => by
        obtain ⟨v, h1, h2⟩ := TW.div_full a 1 (fun h => by cases h) h10
        exact ⟨v, h1, by rw [hc]; exact h2⟩)
      (fun c h0 => by
        cases c with
        | inf => exact absurd rfl h0
        | fin _ => rfl
        | negInf => rfl) hw tf hs hac hP hnz (fun _ _ _ a => hc _ a) hne
    refine ⟨F, a, c, ⟨N, fun n hn => ?_⟩, h3, h4, h2, h5, h6, h7, h8⟩
    unfold TW.pushWith pushWithConfig
    rw [hl]
    simp only [Bool.not_true, Bool.and_false, Bool.false_eq_true, if_false, if_true]
    exact h1 n hn

end trop

/-- With neither `PUSH_WEIGHTS` nor `PUSH_LABELS` nothing is pushed and nothing removed. -/
theorem C70_neither {W : Type u} {V : Type v} [Semiring W] [DecidableEq W] [Semiring V] [DecidableEq V] (divL divR : W → W → R W) (rev : W → V) (back : V → W)
    (sf sf' : SemiringFlags) (eqv : V → V → Bool) (eqv' : W → W → Bool) (qd : W → R W) (ty : ReweightType) (pt : PushType) (f : Fst W) (hs : f.start ≠ none)
    (h : pt.weights = false ∧ pt.labels = false) : ∃ F, EndsWith (f.pushWithConfig divL divR rev back sf sf' eqv eqv' qd ty pt) (.ok F) ∧ ∀ n, F.accPaths n = f.accPaths n := by
  refine ⟨f.convert, ⟨0, fun n _ => ?_⟩, (C52_convert_partial f hs).2.2.2.2.1⟩
  unfold pushWithConfig
  rw [h.1, h.2]
  rfl

/-! ## The hypotheses are met -/

/-- Two paths for the outputs `5` and `5 7`. -/
def exPL : Fst (TW ℚ) :=
  (((((((Fst.new.addStates 4).setStart 0).addTr 0 ⟨1, 0, .fin 1, 1⟩).addTr 0 ⟨2, 5, .fin 2, 2⟩).addTr 1 ⟨3, 5, .fin 3, 3⟩).addTr 1 ⟨4, 5, .fin 4, 2⟩).addTr
    2 ⟨5, 7, .fin 0, 3⟩).setFinal 3 (.fin 2)

theorem exPL_truthful : exPL.Truthful := by
  unfold exPL
  repeat' first
    | apply truthful_new
    | (refine truthful_addTr ?_ (by decide) _)
    | (refine truthful_setFinal ?_ (by decide) _)
    | apply truthful_setStart
    | apply truthful_addStates

theorem exPL_acyclic : exPL.Holds .acyclic := by
  have h : ∀ s q, exPL.Edge s q → s < q := by
    have : ∀ s < 4, ∀ t ∈ exPL.trsOf s, s < t.nextstate := by decide +kernel
    rintro s q ⟨t, ht, rfl⟩
    exact this s (lt_of_mem_trsOf ht) t ht
  rintro ⟨s, hs⟩
  have : ∀ q, Relation.TransGen exPL.Edge s q → s < q := by
    intro q hq
    induction hq with
    | single h' => exact h _ _ h'
    | tail _ h' ih => exact Nat.lt_trans ih (h _ _ h')
  exact Nat.lt_irrefl _ (this s hs)

example (ty : ReweightType) : ∃ F a c, EndsWith (TW.pushWith (fun a b => decide (b = a)) 1 ty ⟨true, true, true, true⟩ exPL) (.ok F) ∧
    SamePathsAfter (PathT.onSide ty a c) exPL F := by
  obtain ⟨F, a, c, h1, -, -, h2, -⟩ := C70_tropical (eqv := fun a b => decide (b = a)) (fun a b => by simp) (1 : ℚ) ty ⟨true, true, true, true⟩ rfl (f := exPL)
    (Fst.wf_of_wfB (by decide)) exPL_truthful (by decide) exPL_acyclic
    ⟨fun s t ht => by
      have : ∀ s < 4, ∀ t ∈ exPL.trsOf s, t.weight ≠ .negInf ∧ t.weight ≠ .inf := by decide +kernel
      exact this s (lt_of_mem_trsOf ht) t ht, fun s w h => by
      have : ∀ s < 4, exPL.finOf s ≠ some .negInf ∧ exPL.finOf s ≠ some .inf := by decide +kernel
      have := this s (lt_of_finOf h)
      rw [h] at this
      exact ⟨fun e => this.1 (by rw [e]), fun e => this.2 (by rw [e])⟩⟩ (.inl rfl)
  exact ⟨F, a, c, h1, h2⟩

/-- Towards the initial state: the common label 5 comes first, and 7 as soon as it is known to follow. -/
example : (match TW.pushWith (fun a b => decide (b = a)) 1 .toInitial ⟨true, true, false, false⟩ exPL 20 with
    | some (.ok g) => decide (g.start = some 0 ∧ g.numStates = 5 ∧ g.trsOf 0 = [⟨1, 5, .fin 6, 1⟩, ⟨2, 5, .fin 4, 2⟩] ∧
        g.trsOf 1 = [⟨3, 0, .fin 0, 3⟩, ⟨4, 7, .fin 1, 4⟩] ∧ g.trsOf 2 = [⟨5, 7, .fin 0, 3⟩] ∧ g.trsOf 4 = [⟨5, 0, .fin 0, 3⟩] ∧ g.finOf 3 = some (.fin 0))
    | _ => false) = true := by decide +kernel

/-- The prefix 5 and the total weight 4 are removed. -/
example : (match TW.pushWith (fun a b => decide (b = a)) 1 .toInitial ⟨true, true, true, true⟩ exPL 20 with
    | some (.ok g) => decide (g.start = some 0 ∧ g.trsOf 0 = [⟨1, 0, .fin 2, 1⟩, ⟨2, 7, .fin 0, 2⟩])
    | _ => false) = true := by decide +kernel

/-! ## Defects -/

/-- One transition and no accepting path. -/
def exPLDead : Fst (TW ℚ) := ((Fst.new.addStates 2).setStart 0).addTr 0 ⟨1, 1, .fin 1, 1⟩

/-- Defect: `REMOVE_COMMON_AFFIX` without `REMOVE_TOTAL_WEIGHT` panics for an FST without accepting path. The total weight is zero, of which one component is replaced by one
(push.rs 206-211), so that `remove_weight` does not recognise it and divides by the infinite string. With both options the FST is returned. -/
theorem C70_affix_defect : exPLDead.WF ∧ exPLDead.Holds .acyclic ∧
    TW.pushWith (fun a b => decide (b = a)) 1 .toInitial ⟨true, true, false, true⟩ exPLDead 20 = some (.error .panic) ∧
    ∃ g, TW.pushWith (fun a b => decide (b = a)) 1 .toInitial ⟨true, true, true, true⟩ exPLDead 20 = some (.ok g) := by
  refine ⟨Fst.wf_of_wfB (by decide), ?_, ?_, ?_⟩
  · have h : ∀ s q, exPLDead.Edge s q → s < q := by
      have : ∀ s < 2, ∀ t ∈ exPLDead.trsOf s, s < t.nextstate := by decide +kernel
      rintro s q ⟨t, ht, rfl⟩
      exact this s (lt_of_mem_trsOf ht) t ht
    rintro ⟨s, hs⟩
    have : ∀ q, Relation.TransGen exPLDead.Edge s q → s < q := by
      intro q hq
      induction hq with
      | single h' => exact h _ _ h'
      | tail _ h' ih => exact Nat.lt_trans ih (h _ _ h')
    exact Nat.lt_irrefl _ (this s hs)
  · have h : (match TW.pushWith (fun a b => decide (b = a)) 1 .toInitial ⟨true, true, false, true⟩ exPLDead 20 with
        | some (.error .panic) => true
        | _ => false) = true := by decide +kernel
    split at h
    · assumption
    · cases h
  · have h : (match TW.pushWith (fun a b => decide (b = a)) 1 .toInitial ⟨true, true, true, true⟩ exPLDead 20 with
        | some (.ok _) => true
        | _ => false) = true := by decide +kernel
    split at h
    · next g hg => exact ⟨g, hg⟩
    · cases h

/-- Defect: pushing the labels of a transducer with a cycle changes its outputs, for the reason of `C62_cycle_defect`: the input `1 1`, whose only output is `9`, is now
rewritten to `9 9`. -/
theorem C70_cycle_defect : exCycT.WF ∧ exCycT.Truthful ∧ (∀ y w, exCycT.Accepts [1, 1] y w → y = [9]) ∧
    ∃ g, TW.pushWith (fun a b => decide (b = a)) 1 .toInitial ⟨true, true, false, false⟩ exCycT 30 = some (.ok g) ∧ g.weightOf 3 [1, 1] [9, 9] = .fin 0 := by
  refine ⟨C62_cycle_defect.1, C62_cycle_defect.2.1, C62_cycle_defect.2.2.2.2.1, ?_⟩
  have h : (match TW.pushWith (fun a b => decide (b = a)) 1 .toInitial ⟨true, true, false, false⟩ exCycT 30 with
      | some (.ok g) => decide (g.weightOf 3 [1, 1] [9, 9] = .fin 0)
      | _ => false) = true := by decide +kernel
  split at h
  · next g hg => exact ⟨g, hg, of_decide_eq_true h⟩
  · cases h

end Verif
