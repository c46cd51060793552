import Verif.Lemmas.RandFlags
import Verif.Lemmas.DecHist
import Verif.Lemmas.Path
import Verif.Lemmas.Weights
import Verif.Spec.Distance
import Verif.Model.LogWeight

/-!
# C65: random paths

`neglog` stands for `W::new(-p.log())`; `Legal` is the contract of `TrSelector`. Nothing is said about the distribution of the draws.
-/

namespace Verif
universe u v
variable {W : Type u} {σ : Type v}

section
variable [MonoidWithZero W] [DecidableEq W] {f : Fst W} {s0 : StateId} {sel : Selector σ}

/-- C65, weighted output: its paths are the sampled paths, once each, weighted by the share of the samples (or, if the total weight is kept, by the number of
samples). All its flags are true. -/
theorem C65_weighted (hw : f.WF) (h0 : f.start = some s0) (hl : Legal f sel) (g : σ) (cfg : RandCfg) (hc : cfg.weighted = true) (neglog : ℚ → W)
    (hmul : ∀ a b : ℚ, 0 < a → 0 < b → neglog (a * b) = neglog a * neglog b) :
    ∃ out l, EndsWith (randgen f sel g cfg neglog) (.ok out) ∧ Samples f s0 cfg.maxLength cfg.npath l ∧ (f.Truthful → out.Truthful) ∧
      ∀ k, out.accPaths k = (((l.filter (fun a => a.run.length = k)).map (fun a => (a.x, a.y,
        neglog (if cfg.removeTotal then (a.count : ℚ) / cfg.npath else a.count))) : List (PathT W)) : Multiset (PathT W)) := by
  obtain ⟨out, table, sf, nodes, T, hlen, N, hN⟩ := randTree_ok hw h0 hl g cfg neglog
  obtain ⟨hS, nd, hn, h⟩ := T.root_samples hlen
  rw [hc] at hN
  refine ⟨out.setProps (randProps f.props true), _, ⟨N + 1, fun n hn => ?_⟩, hS, T.truthful hlen hc, fun k => ?_⟩
  · unfold randgen
    rw [hN n (by omega)]
    simp only [hc, if_true]
  · rw [Fst.accPaths_some (show (out.setProps (randProps f.props true)).start = some 0 from T.start), Fst.pathsFrom_congr (f := out) (g := out.setProps (randProps f.props true)) (fun _ => rfl) (fun _ => rfl)]
    by_cases hp : cfg.npath = 0
    · have hnil : samplesAt nodes cfg.maxLength 0 = [] := by
        have h1 := hS.total
        rw [hp] at h1
        cases e : samplesAt nodes cfg.maxLength 0 with
        | nil => rfl
        | cons a l =>
          have h2 := (hS.runs a (by rw [e]; exact List.mem_cons_self)).2.2
          rw [e, List.map_cons, List.sum_cons] at h1
          omega
      have hk : nd.kids = [] ∧ nd.stop = 0 := by
        rcases h.drawn.total with ⟨_, h1⟩ | ⟨h1, h2, _⟩
        · have h1' : (nd.kids.map (·.count)).sum + nd.stop = 0 := h1.trans hp
          refine ⟨?_, by omega⟩
          cases e : nd.kids with
          | nil => rfl
          | cons a l =>
            have h2 := h.drawn.pos a (by rw [e]; exact List.mem_cons_self)
            rw [e, List.map_cons, List.sum_cons] at h1'
            omega
        · exact ⟨h1, h2⟩
      rw [hnil]
      cases k with
      | zero => rw [Fst.pathsFrom, h.fin, Node.fin, hk.2, if_neg (by simp)]; rfl
      | succ k => rw [Fst.pathsFrom, h.trs, Node.trs, hk.1, if_pos hc]; rfl
    · have hp' : (0 : ℚ) < cfg.npath := by exact_mod_cast Nat.pos_of_ne_zero hp
      rw [T.paths hlen hc (by unfold RandCfg.total; split <;> [exact one_pos; exact hp']) hmul cfg.maxLength 0 nd _ hn h (Nat.zero_add _) k]
      congr 1
      apply List.map_congr_left
      intro a _
      congr 3
      unfold RandCfg.total
      split
      · rw [mul_one]
      · rw [div_mul_cancel₀ _ hp'.ne']

/-- C65, unweighted output: its paths are the sampled paths, each as often as it was drawn and of weight one, except that the empty path is there only once.
All its flags are true. -/
theorem C65_unweighted (hw : f.WF) (h0 : f.start = some s0) (hl : Legal f sel) (g : σ) (cfg : RandCfg) (hc : cfg.weighted = false) (neglog : ℚ → W)
    (h10 : (1 : W) ≠ 0) :
    ∃ out l, EndsWith (randgen f sel g cfg neglog) (.ok out) ∧ Samples f s0 cfg.maxLength cfg.npath l ∧ out.WF ∧ out.AllCounters ∧ out.Truthful ∧
      (∀ k, out.accPaths (k + 1) = (((l.filter (fun a => a.run.length = k + 1)).flatMap (fun a => List.replicate a.count (a.x, a.y, (1 : W)))
        : List (PathT W)) : Multiset (PathT W))) ∧
      out.accPaths 0 = if ∃ a ∈ l, a.run = [] then {([], [], 1)} else 0 := by
  obtain ⟨out, table, sf, nodes, T, hlen, N, hN⟩ := randTree_ok hw h0 hl g cfg neglog
  obtain ⟨hS, nd, hn, h⟩ := T.root_samples hlen
  have TL := T.treeLike hlen hc h10 (randProps f.props cfg.weighted)
  obtain ⟨hL, hO⟩ := T.outs hlen hc (randProps f.props cfg.weighted) cfg.maxLength 0 nd _ hn h (Nat.zero_add _)
  have F := fanAll_ok (treeOuts (out.setProps (randProps f.props cfg.weighted)) sf cfg.maxLength 0)
  have hfan := TL.fan hL
  revert F hO hfan
  generalize treeOuts (out.setProps (randProps f.props cfg.weighted)) sf cfg.maxLength 0 = os
  intro hO F hfan
  have hnil : [] ∈ os ↔ ∃ a ∈ samplesAt nodes cfg.maxLength 0, a.run = [] := by
    constructor
    · intro hm
      have : (0, labelsOf ([] : List (Tr W))) ∈ os.map (fun l => (l.length, labelsOf l)) := List.mem_map.2 ⟨[], hm, rfl⟩
      rw [hO] at this
      obtain ⟨a, ha, h1⟩ := List.mem_flatMap.1 this
      have h2 := (List.mem_replicate.1 h1).2
      simp only [Prod.mk.injEq] at h2
      exact ⟨a, ha, List.length_eq_zero_iff.1 h2.1.symm⟩
    · rintro ⟨a, ha, e⟩
      have hp := (hS.runs a ha).2.2
      have : (a.run.length, (a.x, a.y, (1 : W))) ∈ os.map (fun l => (l.length, labelsOf l)) := by
        rw [hO]
        exact List.mem_flatMap.2 ⟨a, ha, List.mem_replicate.2 ⟨by omega, rfl⟩⟩
      obtain ⟨l, hl, e'⟩ := List.mem_map.1 this
      have : l.length = a.run.length := by simpa using congrArg Prod.fst e'
      rw [e, List.length_nil] at this
      rw [List.length_eq_zero_iff.1 this] at hl
      exact hl
  have hstart : ∀ k, (fanAll Fst.new os).accPaths k = (fanAll Fst.new os).pathsFrom k 0 := by
    intro k
    by_cases he : os = []
    · rw [Fst.accPaths_none (by rw [F.start, if_pos he])]
      have : (fanAll Fst.new os).numStates = 0 := F.empty he
      cases k with
      | zero => rw [Fst.pathsFrom, Fst.finOf_of_ge (by omega)]
      | succ k => rw [Fst.pathsFrom, Fst.trsOf_of_ge (by omega)]; rfl
    · rw [Fst.accPaths_some (by rw [F.start, if_neg he])]
  refine ⟨fanAll Fst.new os, _, ⟨N + 1, fun n hn => ?_⟩, hS, ⟨fun s hs => ?_, F.wf⟩, F.counters, F.truthful, fun k => ?_, ?_⟩
  · unfold randgen
    rw [hN n (by omega)]
    simp only [hc, Bool.false_eq_true, if_false]
    rw [← hc, hfan]
  · rw [F.start] at hs
    split at hs
    · cases hs
    · rename_i he; cases hs; exact F.pos he
  · rw [hstart, F.paths]
    congr 1
    have e1 : (os.filter (fun p => p.length = k + 1)).map labelsOf =
        ((os.map (fun l => (l.length, labelsOf l))).filter (fun q => decide (q.1 = k + 1))).map Prod.snd := by
      rw [List.filter_map, List.map_map]
      rfl
    rw [e1, hO]
    generalize samplesAt nodes cfg.maxLength 0 = l
    induction l with
    | nil => rfl
    | cons a l ih =>
      rw [List.flatMap_cons, List.filter_append, List.map_append, ih, List.filter_cons]
      by_cases hk : a.run.length = k + 1
      · simp [hk]
      · simp [hk]
  · rw [hstart, Fst.pathsFrom, F.fin]
    by_cases he : [] ∈ os
    · rw [if_pos he, if_pos (hnil.1 he)]
    · rw [if_neg he, if_neg (fun h => he (hnil.2 h))]

/-- C65: whatever is drawn, every path of the output has the strings of an accepting path of the input that is equally long and shorter than `max_length`. -/
theorem C65_only_paths (hw : f.WF) (h0 : f.start = some s0) (hl : Legal f sel) (g : σ) (cfg : RandCfg) (neglog : ℚ → W) (h10 : (1 : W) ≠ 0)
    (hmul : ∀ a b : ℚ, 0 < a → 0 < b → neglog (a * b) = neglog a * neglog b) :
    ∃ out, EndsWith (randgen f sel g cfg neglog) (.ok out) ∧
      ∀ k x y v, (x, y, v) ∈ out.accPaths k → k < cfg.maxLength ∧ ∃ w, (x, y, w) ∈ f.accPaths k := by
  have key : ∀ (l : List Sample), Samples f s0 cfg.maxLength cfg.npath l → ∀ a ∈ l, a.run.length < cfg.maxLength ∧ ∃ w, (a.x, a.y, w) ∈ f.accPaths a.run.length := by
    intro l hS a ha
    obtain ⟨h1, h2, _⟩ := hS.runs a ha
    obtain ⟨w, hw⟩ := h1.path
    exact ⟨h2, w, by rw [Fst.accPaths_some h0]; exact hw⟩
  cases hc : cfg.weighted with
  | true =>
    obtain ⟨out, l, h1, hS, _, h2⟩ := C65_weighted hw h0 hl g cfg hc neglog hmul
    refine ⟨out, h1, fun k x y v hv => ?_⟩
    rw [h2, Multiset.mem_coe] at hv
    obtain ⟨a, ha, e⟩ := List.mem_map.1 hv
    rw [List.mem_filter, decide_eq_true_eq] at ha
    have := key l hS a ha.1
    rw [ha.2] at this
    cases e
    exact this
  | false =>
    obtain ⟨out, l, h1, hS, _, _, _, h2, h3⟩ := C65_unweighted hw h0 hl g cfg hc neglog h10
    refine ⟨out, h1, fun k x y v hv => ?_⟩
    cases k with
    | zero =>
      rw [h3] at hv
      split at hv
      · rename_i he
        obtain ⟨a, ha, e⟩ := he
        have h4 := key l hS a ha
        obtain ⟨h5, _⟩ := hS.runs a ha
        have h6 : a.x = [] ∧ a.y = [] := by
          revert h5
          rw [e]
          generalize a.x = x'
          generalize a.y = y'
          intro h5
          cases h5
          exact ⟨rfl, rfl⟩
        rw [e, h6.1, h6.2] at h4
        rw [Multiset.mem_singleton] at hv
        cases hv
        exact h4
      · simp at hv
    | succ k =>
      rw [h2, Multiset.mem_coe] at hv
      obtain ⟨a, ha, hv⟩ := List.mem_flatMap.1 hv
      rw [List.mem_filter, decide_eq_true_eq] at ha
      have := key l hS a ha.1
      rw [ha.2] at this
      have e := (List.mem_replicate.1 hv).2
      cases e
      exact this

/-- C65: an FST without start state gives an empty FST. -/
theorem C65_startless (h0 : f.start = none) (g : σ) (cfg : RandCfg) (neglog : ℚ → W) (n : Nat) : randgen f sel g cfg neglog n = some (.ok Fst.new) := by
  have h1 : randTree f sel g cfg neglog n = some (.ok Fst.new) := by
    unfold randTree Lz.compute2 Lz.start2
    simp only [randOp, h0, mapCache]
    rfl
  unfold randgen
  rw [h1]
  cases hc : cfg.weighted
  · rfl
  · rfl

/-- C65: the uniform selector keeps the contract if the random number generator keeps its own. -/
theorem C65_uniform (f : Fst W) (draw : σ → Nat → Nat × σ) (hd : ∀ g n, 0 < n → (draw g n).1 < n) : Legal f (uniformSelector f draw) := uniform_legal f draw hd

end

/-- C65: for tropical weights over the reals, with `neglog p = -log p`. -/
theorem C65_tropical [DecidableEq (TW ℝ)] {f : Fst (TW ℝ)} {s0 : StateId} {sel : Selector σ} (hw : f.WF) (h0 : f.start = some s0) (hl : Legal f sel) (g : σ)
    (cfg : RandCfg) (hc : cfg.weighted = true) :
    ∃ out l, EndsWith (randgen f sel g cfg (fun p => TW.fin (-Real.log p))) (.ok out) ∧ Samples f s0 cfg.maxLength cfg.npath l ∧
      ∀ k, out.accPaths k = (((l.filter (fun a => a.run.length = k)).map (fun a => (a.x, a.y,
        TW.fin (-Real.log (((if cfg.removeTotal then (a.count : ℚ) / cfg.npath else a.count) : ℚ) : ℝ)))) : List (PathT (TW ℝ))) : Multiset (PathT (TW ℝ))) := by
  obtain ⟨out, l, h1, h2, _, h3⟩ := C65_weighted hw h0 hl g cfg hc (fun p => TW.fin (-Real.log p)) (fun a b ha hb => by
    have ha' : (a : ℝ) ≠ 0 := by exact_mod_cast ha.ne'
    have hb' : (b : ℝ) ≠ 0 := by exact_mod_cast hb.ne'
    show TW.fin _ = TW.fin (_ + _)
    rw [Rat.cast_mul, Real.log_mul ha' hb', neg_add])
  exact ⟨out, l, h1, h2, h3⟩

namespace C65ex

/-- `0 -1:2-> 1`, `0 -1:3-> 1`, `1 -0:4-> 0`, both states final. -/
def ex : Fst ℚ := (((((((Fst.new.addStates 2).setStart 0).addTr 0 ⟨1, 2, 1, 1⟩).addTr 0 ⟨1, 3, 1, 1⟩).addTr 1 ⟨0, 4, 1, 0⟩).setFinal 0 1).setFinal 1 1)

/-- A generator that counts. -/
def draw (g : Nat) (n : Nat) : Nat × Nat := (g % n, g + 1)

theorem ex_wf : ex.WF := Fst.wf_of_wfB (by decide +kernel)
theorem ex_legal : Legal ex (uniformSelector ex draw) := C65_uniform ex draw (fun g n h => Nat.mod_lt g h)

example := C65_weighted ex_wf (rfl : ex.start = some 0) ex_legal 0 ⟨5, 7, true, false⟩ rfl id (fun _ _ _ _ => rfl)
example := C65_unweighted ex_wf (rfl : ex.start = some 0) ex_legal 0 ⟨5, 7, false, false⟩ rfl id one_ne_zero
example := C65_only_paths ex_wf (rfl : ex.start = some 0) ex_legal 0 ⟨5, 7, false, false⟩ id one_ne_zero (fun _ _ _ _ => rfl)
example : randgen (Fst.new : Fst ℚ) (uniformSelector (Fst.new : Fst ℚ) draw) 0 ⟨5, 7, false, false⟩ id 9 = some (.ok Fst.new) := C65_startless rfl 0 _ id 9

/-- The two outputs for seven samples. -/
def shape (o : Option (R (Fst ℚ))) : Option (List (List (Label × Label × ℚ × StateId) × Option ℚ)) :=
  match o with
  | some (.ok f) => some (f.states.map fun st => (st.trs.map (fun t => (t.ilabel, t.olabel, t.weight, t.nextstate)), st.fin))
  | _ => none

set_option synthInstance.maxSize 1000 in
example : shape (randgen ex (uniformSelector ex draw) 0 ⟨5, 7, true, false⟩ id 40) =
    some [([(1, 2, 3 / 7, 1), (1, 3, 2 / 7, 2)], some 2), ([(0, 4, 1 / 3, 3)], some (14 / 3)), ([(0, 4, 1 / 2, 4)], some (7 / 2)), ([(1, 2, 1, 5)], none),
      ([(1, 3, 1, 6)], none), ([(0, 4, 1, 7)], none), ([], some 7), ([(1, 3, 1, 8)], none), ([], none)] := by decide +kernel

set_option synthInstance.maxSize 1000 in
example : shape (randgen ex (uniformSelector ex draw) 0 ⟨5, 7, false, false⟩ id 40) =
    some [([(1, 2, 1, 1), (1, 2, 1, 2), (1, 3, 1, 3), (1, 3, 1, 6)], some 1), ([], some 1), ([], some 1), ([(0, 4, 1, 4)], none), ([(1, 3, 1, 5)], none),
      ([], some 1), ([], some 1)] := by decide +kernel

/-- An FST whose only path is the empty one. -/
def point : Fst ℚ := ((Fst.new.addStates 1).setStart 0).setFinal 0 1

set_option synthInstance.maxSize 1000 in
/-- C65: three paths are asked for and three are drawn, but the unweighted output has only one: copies of the empty path cannot be written side by side. -/
theorem C65_empty_defect : point.NoDeadEnds 0 5 ∧ shape (randgen point (uniformSelector point draw) 0 ⟨5, 3, false, false⟩ id 40) = some [([], some 1)] := by
  refine ⟨?_, by decide +kernel⟩
  have hp : ∀ q, point.trsOf q = [] := by
    intro q
    match q with
    | 0 => decide +kernel
    | q + 1 => rfl
  intro k q h
  cases h with
  | zero => exact ⟨by omega, Or.inr ⟨1, by decide +kernel, one_ne_zero⟩⟩
  | succ _ ht => rw [hp] at ht; simp at ht

end C65ex
end Verif
