import Verif.Spec.Reweight
import Verif.Lemmas.ReweightLoop
import Verif.Lemmas.Path

/-! # Reweighting and paths -/

namespace Verif
set_option linter.unusedSectionVars false
universe u
variable {W : Type u} [Zero W] [DecidableEq W]

@[simp] theorem live_zero : live (0 : Multiset (PathT W)) = 0 := rfl

theorem live_bind {α : Type*} (M : Multiset α) (F : α → Multiset (PathT W)) : live (M.bind F) = M.bind fun a => live (F a) :=
  Multiset.filter_bind M F _

theorem live_eq_zero {M : Multiset (PathT W)} (h : ∀ p ∈ M, p.2.2 = 0) : live M = 0 :=
  Multiset.filter_eq_nil.2 fun p hp => not_not.2 (h p hp)

theorem live_map_live (φ : PathT W → PathT W) (hφ : ∀ p, p.2.2 = 0 → (φ p).2.2 = 0) (M : Multiset (PathT W)) :
    live (M.map φ) = live ((live M).map φ) := by
  induction M using Multiset.induction_on with
  | empty => rfl
  | cons p M ih =>
    unfold live at *
    by_cases hp : p.2.2 = 0
    · rw [Multiset.map_cons, Multiset.filter_cons_of_neg _ (by simp [hφ p hp]), Multiset.filter_cons_of_neg M (by simp [hp]), ih]
    · rw [Multiset.filter_cons_of_pos M (by simpa using hp), Multiset.map_cons, Multiset.map_cons]
      by_cases hq : (φ p).2.2 = 0
      · rw [Multiset.filter_cons_of_neg _ (by simp [hq]), Multiset.filter_cons_of_neg _ (by simp [hq]), ih]
      · rw [Multiset.filter_cons_of_pos _ (by simpa using hq), Multiset.filter_cons_of_pos _ (by simpa using hq), ih]

theorem live_map_congr (φ : PathT W → PathT W) (hφ : ∀ p, p.2.2 = 0 → (φ p).2.2 = 0) {M N : Multiset (PathT W)}
    (h : live M = live N) : live (M.map φ) = live (N.map φ) := by
  rw [live_map_live φ hφ, h, ← live_map_live φ hφ]

theorem live_delay (k : Nat) (A : Nat → Multiset (PathT W)) (n : Nat) : live (delay k A n) = delay k (fun n => live (A n)) n := by
  unfold delay
  split <;> rfl

namespace Fst

variable [Monoid W] {f g : Fst W} {d : StateId → W} {kt : StateId → Tr W → W} {kf : StateId → W → W}

include f in
/-- From a dead state every path has weight zero. -/
theorem dead_paths (hz : ∀ a : W, a * 0 = 0) (hz' : ∀ a : W, 0 * a = 0)
    (hd : ∀ s, d s = 0 → (∀ w, f.finOf s = some w → w = 0) ∧ ∀ t ∈ f.trsOf s, t.weight = 0 ∨ d t.nextstate = 0) :
    ∀ n s, d s = 0 → ∀ p ∈ f.pathsFrom n s, p.2.2 = 0 := by
  intro n
  induction n with
  | zero =>
    intro s hs p hp
    rw [pathsFrom_zero] at hp
    cases hf : f.finOf s with
    | none => rw [hf] at hp; simp at hp
    | some w =>
      rw [hf] at hp
      obtain rfl := Multiset.mem_singleton.1 hp
      exact (hd s hs).1 w hf
  | succ n ih =>
    intro s hs p hp
    rw [pathsFrom_succ, Multiset.mem_bind] at hp
    obtain ⟨t, ht, hp⟩ := hp
    obtain ⟨q, hq, rfl⟩ := Multiset.mem_map.1 hp
    show t.weight * q.2.2 = 0
    rcases (hd s hs).2 t (by simpa using ht) with h | h
    · rw [h, hz']
    · rw [ih _ h q hq, hz]

theorem Weighed.pathsFrom_succ (hw : Weighed f g kt kf) (n s) : g.pathsFrom (n + 1) s =
    (f.trsOf s : Multiset (Tr W)).bind fun t =>
      (g.pathsFrom n t.nextstate).map fun p => ({ t with weight := kt s t } : Tr W).asPath.cat p := by
  rw [Fst.pathsFrom_succ, hw.trs, ← Multiset.map_coe, Multiset.bind_map]

/-- Towards the initial state: the potential of the state in front of a new path gives the old path. -/
theorem initial_paths (hz : ∀ a : W, a * 0 = 0) (hz' : ∀ a : W, 0 * a = 0) (hw : Weighed f g kt kf)
    (ht : ∀ s, ∀ t ∈ f.trsOf s, d s ≠ 0 → d t.nextstate ≠ 0 → d s * kt s t = t.weight * d t.nextstate)
    (ht0 : ∀ s, ∀ t ∈ f.trsOf s, d s = 0 ∨ d t.nextstate = 0 → kt s t = t.weight)
    (hf : ∀ s w, f.finOf s = some w → d s ≠ 0 → d s * kf s w = w)
    (hf0 : ∀ s w, f.finOf s = some w → d s = 0 → kf s w = w)
    (hd : ∀ s, d s = 0 → (∀ w, f.finOf s = some w → w = 0) ∧ ∀ t ∈ f.trsOf s, t.weight = 0 ∨ d t.nextstate = 0) :
    ∀ n s, live ((g.pathsFrom n s).map (PathT.scale (d s))) = live (f.pathsFrom n s) := by
  have hdf := dead_paths hz hz' hd
  have hdg : ∀ n s, d s = 0 → ∀ p ∈ g.pathsFrom n s, p.2.2 = 0 := by
    refine dead_paths hz hz' fun s hs => ⟨fun w hw' => ?_, fun t htm => ?_⟩
    · rw [hw.fin] at hw'
      obtain ⟨w', h1, rfl⟩ := Option.map_eq_some_iff.1 hw'
      rw [hf0 s w' h1 hs, (hd s hs).1 w' h1]
    · rw [hw.trs] at htm
      obtain ⟨t', h1, rfl⟩ := List.mem_map.1 htm
      simp only
      rw [ht0 s t' h1 (.inl hs)]
      exact (hd s hs).2 t' h1
  intro n
  induction n with
  | zero =>
    intro s
    by_cases hs : d s = 0
    · rw [live_eq_zero (hdf 0 s hs), live_eq_zero]
      intro p hp
      obtain ⟨q, hq, rfl⟩ := Multiset.mem_map.1 hp
      show d s * q.2.2 = 0
      rw [hs, hz']
    · rw [pathsFrom_zero, pathsFrom_zero, hw.fin]
      cases h : f.finOf s with
      | none => rfl
      | some w => simp [PathT.scale, hf s w h hs]
  | succ n ih =>
    intro s
    by_cases hs : d s = 0
    · rw [live_eq_zero (hdf _ s hs), live_eq_zero]
      intro p hp
      obtain ⟨q, hq, rfl⟩ := Multiset.mem_map.1 hp
      show d s * q.2.2 = 0
      rw [hs, hz']
    · rw [hw.pathsFrom_succ, Fst.pathsFrom_succ, Multiset.map_bind, live_bind, live_bind]
      refine Multiset.bind_congr fun t htm => ?_
      have htm : t ∈ f.trsOf s := by simpa using htm
      by_cases hn : d t.nextstate = 0
      · rw [live_eq_zero, live_eq_zero]
        · intro p hp
          obtain ⟨q, hq, rfl⟩ := Multiset.mem_map.1 hp
          show t.weight * q.2.2 = 0
          rw [hdf n _ hn q hq, hz]
        · intro p hp
          rw [Multiset.map_map] at hp
          obtain ⟨q, hq, rfl⟩ := Multiset.mem_map.1 hp
          show d s * (kt s t * q.2.2) = 0
          rw [hdg n _ hn q hq, hz, hz]
      · rw [← live_map_congr (fun p => t.asPath.cat p) (fun p hp => by show t.weight * p.2.2 = 0; rw [hp, hz]) (ih t.nextstate),
          Multiset.map_map, Multiset.map_map]
        congr 1
        refine Multiset.map_congr rfl fun q _ => ?_
        simp only [Function.comp, PathT.scale, PathT.cat, Tr.asPath]
        rw [← mul_assoc, ht s t htm hs hn, mul_assoc]

/-- The same when no potential is zero: all paths, and weights need no zero laws. -/
theorem initial_paths_exact (hw : Weighed f g kt kf) (ht : ∀ s, ∀ t ∈ f.trsOf s, d s * kt s t = t.weight * d t.nextstate)
    (hf : ∀ s w, f.finOf s = some w → d s * kf s w = w) :
    ∀ n s, (g.pathsFrom n s).map (PathT.scale (d s)) = f.pathsFrom n s := by
  intro n
  induction n with
  | zero =>
    intro s
    rw [pathsFrom_zero, pathsFrom_zero, hw.fin]
    cases h : f.finOf s with
    | none => rfl
    | some w => simp [PathT.scale, hf s w h]
  | succ n ih =>
    intro s
    rw [hw.pathsFrom_succ, Fst.pathsFrom_succ, Multiset.map_bind]
    refine Multiset.bind_congr fun t htm => ?_
    have htm : t ∈ f.trsOf s := by simpa using htm
    rw [← ih t.nextstate, Multiset.map_map, Multiset.map_map]
    refine Multiset.map_congr rfl fun q _ => ?_
    simp only [Function.comp, PathT.scale, PathT.cat, Tr.asPath]
    rw [← mul_assoc, ht s t htm, mul_assoc]

/-- Towards the final states: a new path is the old path with the potential of the state in front. -/
theorem final_paths (hz : ∀ a : W, a * 0 = 0) (hz' : ∀ a : W, 0 * a = 0) (hw : Weighed f g kt kf)
    (ht : ∀ s, ∀ t ∈ f.trsOf s, d s ≠ 0 → d t.nextstate ≠ 0 → kt s t * d t.nextstate = d s * t.weight)
    (ht0 : ∀ s, ∀ t ∈ f.trsOf s, d s ≠ 0 → d t.nextstate = 0 → t.weight = 0 ∧ kt s t = 0)
    (hf : ∀ s w, f.finOf s = some w → d s ≠ 0 → kf s w = d s * w) :
    ∀ n s, d s ≠ 0 → live (g.pathsFrom n s) = live ((f.pathsFrom n s).map (PathT.scale (d s))) := by
  intro n
  induction n with
  | zero =>
    intro s hs
    rw [pathsFrom_zero, pathsFrom_zero, hw.fin]
    cases h : f.finOf s with
    | none => rfl
    | some w => simp [PathT.scale, hf s w h hs]
  | succ n ih =>
    intro s hs
    rw [hw.pathsFrom_succ, Fst.pathsFrom_succ, Multiset.map_bind, live_bind, live_bind]
    refine Multiset.bind_congr fun t htm => ?_
    have htm : t ∈ f.trsOf s := by simpa using htm
    by_cases hn : d t.nextstate = 0
    · obtain ⟨h1, h2⟩ := ht0 s t htm hs hn
      rw [live_eq_zero, live_eq_zero]
      · intro p hp
        rw [Multiset.map_map] at hp
        obtain ⟨q, hq, rfl⟩ := Multiset.mem_map.1 hp
        show d s * (t.weight * q.2.2) = 0
        rw [h1, hz', hz]
      · intro p hp
        obtain ⟨q, hq, rfl⟩ := Multiset.mem_map.1 hp
        show kt s t * q.2.2 = 0
        rw [h2, hz']
    · rw [live_map_congr (fun p => ({ t with weight := kt s t } : Tr W).asPath.cat p)
        (fun p hp => by show kt s t * p.2.2 = 0; rw [hp, hz]) (ih t.nextstate hn), Multiset.map_map, Multiset.map_map]
      congr 1
      refine Multiset.map_congr rfl fun q _ => ?_
      simp only [Function.comp, PathT.scale, PathT.cat, Tr.asPath]
      rw [← mul_assoc, ht s t htm hs hn, mul_assoc]

theorem final_paths_exact (hw : Weighed f g kt kf)
    (ht : ∀ s, ∀ t ∈ f.trsOf s, kt s t * d t.nextstate = d s * t.weight)
    (hf : ∀ s w, f.finOf s = some w → kf s w = d s * w) :
    ∀ n s, g.pathsFrom n s = (f.pathsFrom n s).map (PathT.scale (d s)) := by
  intro n
  induction n with
  | zero =>
    intro s
    rw [pathsFrom_zero, pathsFrom_zero, hw.fin]
    cases h : f.finOf s with
    | none => rfl
    | some w => simp [PathT.scale, hf s w h]
  | succ n ih =>
    intro s
    rw [hw.pathsFrom_succ, Fst.pathsFrom_succ, Multiset.map_bind]
    refine Multiset.bind_congr fun t htm => ?_
    have htm : t ∈ f.trsOf s := by simpa using htm
    rw [ih t.nextstate, Multiset.map_map, Multiset.map_map]
    refine Multiset.map_congr rfl fun q _ => ?_
    simp only [Function.comp, PathT.scale, PathT.cat, Tr.asPath]
    rw [← mul_assoc, ht s t htm, mul_assoc]

/-- Final weights only, divided on the right. -/
theorem scaleR_paths (hw : Weighed f g kt kf) {c : W} (ht : ∀ s, ∀ t ∈ f.trsOf s, kt s t = t.weight)
    (hf : ∀ s w, f.finOf s = some w → kf s w * c = w) : ∀ n s, (g.pathsFrom n s).map (PathT.scaleR c) = f.pathsFrom n s := by
  intro n
  induction n with
  | zero =>
    intro s
    rw [pathsFrom_zero, pathsFrom_zero, hw.fin]
    cases h : f.finOf s with
    | none => rfl
    | some w => simp [PathT.scaleR, hf s w h]
  | succ n ih =>
    intro s
    rw [hw.pathsFrom_succ, Fst.pathsFrom_succ, Multiset.map_bind]
    refine Multiset.bind_congr fun t htm => ?_
    have htm : t ∈ f.trsOf s := by simpa using htm
    rw [← ih t.nextstate, Multiset.map_map, Multiset.map_map]
    refine Multiset.map_congr rfl fun q _ => ?_
    simp only [Function.comp, PathT.scaleR, PathT.cat, Tr.asPath]
    rw [ht s t htm, mul_assoc]

/-- A change at one state that no transition leads back to. -/
theorem oneState_paths (hw : Weighed f g kt kf) {i : StateId} (hcyc : ¬ f.OnCycle i)
    (ht : ∀ s, s ≠ i → ∀ t ∈ f.trsOf s, kt s t = t.weight) (hf : ∀ s w, s ≠ i → f.finOf s = some w → kf s w = w) :
    ∀ n s, Relation.TransGen f.Edge i s → g.pathsFrom n s = f.pathsFrom n s := by
  intro n
  induction n with
  | zero =>
    intro s hs
    have hne : s ≠ i := fun h => hcyc (h ▸ hs)
    rw [pathsFrom_zero, pathsFrom_zero, hw.fin]
    cases h : f.finOf s with
    | none => rfl
    | some w => simp [hf s w hne h]
  | succ n ih =>
    intro s hs
    have hne : s ≠ i := fun h => hcyc (h ▸ hs)
    rw [hw.pathsFrom_succ, Fst.pathsFrom_succ]
    refine Multiset.bind_congr fun t htm => ?_
    have htm : t ∈ f.trsOf s := by simpa using htm
    rw [ht s hne t htm, ih t.nextstate (hs.tail ⟨t, htm, rfl⟩)]

/-- `c` in front of everything that leaves `i`. -/
theorem scale_at (hw : Weighed f g kt kf) {i : StateId} (hcyc : ¬ f.OnCycle i) (c : W)
    (ht : ∀ s, ∀ t ∈ f.trsOf s, kt s t = if s = i then c * t.weight else t.weight)
    (hf : ∀ s w, f.finOf s = some w → kf s w = if s = i then c * w else w) (n : Nat) :
    g.pathsFrom n i = (f.pathsFrom n i).map (PathT.scale c) := by
  have h1 := oneState_paths hw hcyc (fun s hs t htm => by rw [ht s t htm, if_neg hs]) (fun s w hs hfw => by rw [hf s w hfw, if_neg hs])
  cases n with
  | zero =>
    rw [pathsFrom_zero, pathsFrom_zero, hw.fin]
    cases h : f.finOf i with
    | none => rfl
    | some w => simp [PathT.scale, hf i w h]
  | succ n =>
    rw [hw.pathsFrom_succ, Fst.pathsFrom_succ, Multiset.map_bind]
    refine Multiset.bind_congr fun t htm => ?_
    have htm : t ∈ f.trsOf i := by simpa using htm
    rw [h1 n _ (.single ⟨t, htm, rfl⟩), Multiset.map_map]
    refine Multiset.map_congr rfl fun q _ => ?_
    simp only [Function.comp, PathT.scale, PathT.cat, Tr.asPath]
    rw [ht i t htm, if_pos rfl, mul_assoc]

/-- Everything that leaves `i` divided by `c`. -/
theorem unscale_at (hw : Weighed f g kt kf) {i : StateId} (hcyc : ¬ f.OnCycle i) (c : W)
    (ht : ∀ s, ∀ t ∈ f.trsOf s, if s = i then c * kt s t = t.weight else kt s t = t.weight)
    (hf : ∀ s w, f.finOf s = some w → if s = i then c * kf s w = w else kf s w = w) (n : Nat) :
    (g.pathsFrom n i).map (PathT.scale c) = f.pathsFrom n i := by
  have h1 := oneState_paths hw hcyc (fun s hs t htm => by have := ht s t htm; rwa [if_neg hs] at this)
    (fun s w hs hfw => by have := hf s w hfw; rwa [if_neg hs] at this)
  cases n with
  | zero =>
    rw [pathsFrom_zero, pathsFrom_zero, hw.fin]
    cases h : f.finOf i with
    | none => rfl
    | some w =>
      have := hf i w h
      rw [if_pos rfl] at this
      simp [PathT.scale, this]
  | succ n =>
    rw [hw.pathsFrom_succ, Fst.pathsFrom_succ, Multiset.map_bind]
    refine Multiset.bind_congr fun t htm => ?_
    have htm : t ∈ f.trsOf i := by simpa using htm
    rw [h1 n _ (.single ⟨t, htm, rfl⟩), Multiset.map_map]
    refine Multiset.map_congr rfl fun q _ => ?_
    have := ht i t htm
    rw [if_pos rfl] at this
    simp only [Function.comp, PathT.scale, PathT.cat, Tr.asPath]
    rw [← mul_assoc, this]

end Fst
end Verif
