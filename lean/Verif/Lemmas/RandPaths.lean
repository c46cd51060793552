import Verif.Lemmas.RandLoop
import Mathlib.Tactic.Ring
import Mathlib.Tactic.FieldSimp
import Mathlib.Tactic.Positivity
import Mathlib.Data.Rat.Defs
import Mathlib.Algebra.Order.Field.Rat

/-!
# Random paths: the samples in the tree, and the paths of the weighted output
-/

namespace Verif
universe u
variable {W : Type u}

/-- A sample preceded by a transition. -/
def Kid.pre (a : Kid W) (b : Sample) : Sample := ⟨a.pos :: b.run, strip a.tr.ilabel ++ b.x, strip a.tr.olabel ++ b.y, b.count⟩

/-- The samples at a state of the tree. -/
def samplesAt (nodes : List (Node W)) : Nat → StateId → List Sample
  | 0, _ => []
  | L + 1, s => match nodes[s]? with
    | none => []
    | some nd => (nd.kids.zipIdx nd.base).flatMap (fun x => (samplesAt nodes L x.2).map x.1.pre) ++
        if nd.stop = 0 then [] else [⟨[], [], [], nd.stop⟩]

section
variable [Zero W] [One W] [DecidableEq W] {f : Fst W} {s0 : StateId} {cfg : RandCfg} {neglog : ℚ → W} {table : List RandState} {sf : Option StateId}
  {nodes : List (Node W)} {out : Fst W}

omit [Zero W] [One W] [DecidableEq W] in
theorem mem_zipIdx_get {α : Type u} {l : List α} {n : Nat} {x : α × Nat} (h : x ∈ l.zipIdx n) : ∃ i, x.2 = n + i ∧ l[i]? = some x.1 := by
  obtain ⟨i, hi, e⟩ := List.getElem_of_mem h
  rw [List.getElem_zipIdx] at e
  refine ⟨i, by rw [← e], ?_⟩
  rw [← e]
  exact List.getElem?_eq_getElem _

/-- The states that follow an expanded state. -/
theorem STree.kid (T : STree f s0 cfg neglog table sf nodes out) (hlen : nodes.length = table.length) {s : StateId} {nd : Node W} {r : RandState}
    (hn : nodes[s]? = some nd) (h : NodeAt f cfg neglog table sf out s nd r) {x : Kid W × Nat} (hx : x ∈ nd.kids.zipIdx nd.base) :
    s < x.2 ∧ nd.base ≤ x.2 ∧ x.2 < nd.base + nd.kids.length ∧ nd.kids[x.2 - nd.base]? = some x.1 ∧
      ∃ nd', nodes[x.2]? = some nd' ∧ NodeAt f cfg neglog table sf out x.2 nd' (kidState r x.1) := by
  obtain ⟨i, e, hi⟩ := mem_zipIdx_get hx
  have hil := (List.getElem?_eq_some_iff.1 hi).1
  obtain ⟨hb1, hb2, hb3⟩ := T.base s nd hn
  have hl : x.2 < nodes.length := by omega
  refine ⟨by omega, by omega, by omega, by rw [show x.2 - nd.base = i by omega]; exact hi, nodes[x.2]'hl, List.getElem?_eq_getElem hl, ?_⟩
  have ht := h.kids i x.1 hi
  rw [← e] at ht
  rcases T.done x.2 _ (List.getElem?_eq_getElem hl) with ⟨h1, _⟩ | ⟨r', h1⟩
  · rcases hb3 _ h1 with h2 | h2 <;> omega
  · have := h1.entry
    rw [ht] at this
    cases this
    exact h1

omit [Zero W] [One W] [DecidableEq W] in
theorem zipIdx_sum (kids : List (Kid W)) (n : Nat) : ((kids.zipIdx n).map (·.1.count)).sum = (kids.map (·.count)).sum := by
  rw [show (kids.zipIdx n).map (·.1.count) = ((kids.zipIdx n).map Prod.fst).map (·.count) by rw [List.map_map]; rfl]
  rw [List.zipIdx_map_fst]

omit [Zero W] [One W] [DecidableEq W] in
theorem zipIdx_sorted {kids : List (Kid W)} (n : Nat) (h : kids.Pairwise (fun a b => a.pos < b.pos)) :
    (kids.zipIdx n).Pairwise (fun a b => a.1.pos < b.1.pos) := by
  rw [← List.zipIdx_map_fst n kids, List.pairwise_map] at h
  exact h

omit [Zero W] [One W] [DecidableEq W] in
theorem flat_count (S : StateId → List Sample) (ks : List (Kid W × Nat)) :
    ((ks.flatMap (fun x => (S x.2).map x.1.pre)).map (·.count)).sum = (ks.map (fun x => ((S x.2).map (·.count)).sum)).sum := by
  induction ks with
  | nil => rfl
  | cons x ks ih =>
    rw [List.flatMap_cons, List.map_append, List.sum_append, ih, List.map_cons, List.sum_cons, List.map_map]
    rfl

theorem STree.samples (T : STree f s0 cfg neglog table sf nodes out) (hlen : nodes.length = table.length) (L : Nat) :
    ∀ (s : Nat) (nd : Node W) (r : RandState), nodes[s]? = some nd → NodeAt f cfg neglog table sf out s nd r → r.length + L = cfg.maxLength →
      ((samplesAt nodes L s).map (·.run)).Nodup ∧
      (∀ a ∈ samplesAt nodes L s, f.Draws r.stateId a.run a.x a.y ∧ a.run.length < L ∧ 0 < a.count) ∧
      ((samplesAt nodes L s).map (·.count)).sum ≤ r.nsamples ∧
      (f.NoDeadEnds s0 cfg.maxLength → ((samplesAt nodes L s).map (·.count)).sum = r.nsamples) := by
  induction L with
  | zero =>
    intro s nd r hn h hL
    refine ⟨by simp [samplesAt], fun a ha => by simp [samplesAt] at ha, by simp [samplesAt], fun hd => ?_⟩
    exfalso
    have := (hd _ _ (T.entry s r h.entry h.ne).2).1
    omega
  | succ L ih =>
    intro s nd r hn h hL
    have hk : ∀ x ∈ nd.kids.zipIdx nd.base, ∃ nd', nodes[x.2]? = some nd' ∧ NodeAt f cfg neglog table sf out x.2 nd' (kidState r x.1) :=
      fun x hx => (T.kid hlen hn h hx).2.2.2.2
    have hI := fun x hx => ih x.2 _ (kidState r x.1) (hk x hx).choose_spec.1 (hk x hx).choose_spec.2 (by show r.length + 1 + L = _; omega)
    have hmem : ∀ x ∈ nd.kids.zipIdx nd.base, x.1 ∈ nd.kids := fun x hx => by
      obtain ⟨i, _, hi⟩ := mem_zipIdx_get hx
      exact List.mem_of_getElem? hi
    have e : samplesAt nodes (L + 1) s = (nd.kids.zipIdx nd.base).flatMap (fun x => (samplesAt nodes L x.2).map x.1.pre) ++
        if nd.stop = 0 then [] else [⟨[], [], [], nd.stop⟩] := by
      rw [samplesAt, hn]
    rw [e]
    have hstop : ((if nd.stop = 0 then ([] : List Sample) else [⟨[], [], [], nd.stop⟩]).map (·.count)).sum = nd.stop := by
      split <;> simp [*]
    refine ⟨?_, ?_, ?_, ?_⟩
    · rw [List.map_append, List.nodup_append]
      refine ⟨?_, by split <;> simp, ?_⟩
      · rw [List.map_flatMap, List.nodup_flatMap]
        constructor
        · intro x hx
          have := (hI x hx).1
          rw [List.map_map]
          rw [show ((fun a : Sample => a.run) ∘ x.1.pre) = (fun l => x.1.pos :: l) ∘ (fun a : Sample => a.run) from rfl, ← List.map_map]
          exact this.map (fun a b hab => by simpa using hab)
        · refine (zipIdx_sorted nd.base h.drawn.sorted).imp (fun {x y} hxy => ?_)
          intro l h1 h2
          simp only [List.map_map, List.mem_map, Function.comp] at h1 h2
          obtain ⟨a, _, rfl⟩ := h1
          obtain ⟨b, _, hb⟩ := h2
          simp only [Kid.pre, List.cons.injEq] at hb
          omega
      · intro a ha b hb
        rw [List.map_flatMap] at ha
        simp only [List.mem_flatMap, List.mem_map] at ha
        obtain ⟨x, _, y, ⟨z, _, rfl⟩, rfl⟩ := ha
        split at hb
        · simp at hb
        · simp only [List.map_cons, List.map_nil, List.mem_singleton] at hb
          rw [hb]
          simp [Kid.pre]
    · intro a ha
      rcases List.mem_append.1 ha with ha | ha
      · obtain ⟨x, hx, ha⟩ := List.mem_flatMap.1 ha
        obtain ⟨b, hb, rfl⟩ := List.mem_map.1 ha
        obtain ⟨h1, h2, h3⟩ := (hI x hx).2.1 b hb
        exact ⟨.step (h.drawn.tr x.1 (hmem x hx)) h1, by simp only [Kid.pre, List.length_cons]; omega, h3⟩
      · split at ha
        · simp at ha
        · rename_i h0
          rw [List.mem_singleton] at ha
          subst ha
          exact ⟨.stop (h.drawn.stop (by omega)), by simp, by simp only; omega⟩
    · rw [List.map_append, List.sum_append, hstop, flat_count]
      have h1 : ((nd.kids.zipIdx nd.base).map (fun x => ((samplesAt nodes L x.2).map (·.count)).sum)).sum ≤ (nd.kids.map (·.count)).sum := by
        rw [← zipIdx_sum nd.kids nd.base]
        exact List.sum_le_sum (fun x hx => (hI x hx).2.2.1)
      rcases h.drawn.total with ⟨_, h2⟩ | ⟨h2, h3, _⟩
      · omega
      · rw [h2] at h1 ⊢
        simp at h1 ⊢
        omega
    · intro hd
      rw [List.map_append, List.sum_append, hstop, flat_count]
      have h1 : ((nd.kids.zipIdx nd.base).map (fun x => ((samplesAt nodes L x.2).map (·.count)).sum)).sum = (nd.kids.map (·.count)).sum := by
        rw [← zipIdx_sum nd.kids nd.base]
        congr 1
        exact List.map_congr_left (fun x hx => (hI x hx).2.2.2 hd)
      rcases h.drawn.total with ⟨_, h2⟩ | ⟨h2, h3, h4⟩
      · rw [h1]; exact h2
      · exfalso
        obtain ⟨h5, h6⟩ := hd _ _ (T.entry s r h.entry h.ne).2
        rcases h4 with ⟨h4, h7⟩ | h4
        · rcases h6 with h6 | h6
          · exact h6 h4
          · exact h7 h6
        · omega

/-- The samples of the whole tree. -/
theorem STree.root_samples (T : STree f s0 cfg neglog table sf nodes out) (hlen : nodes.length = table.length) :
    Samples f s0 cfg.maxLength cfg.npath (samplesAt nodes cfg.maxLength 0) ∧
      ∃ nd, nodes[0]? = some nd ∧ NodeAt f cfg neglog table sf out 0 nd ⟨s0, cfg.npath, 0⟩ := by
  have hl : 0 < nodes.length := by
    have := (List.getElem?_eq_some_iff.1 T.root).1
    omega
  have hn : nodes[0]? = some (nodes[0]'hl) := List.getElem?_eq_getElem hl
  have hat : NodeAt f cfg neglog table sf out 0 (nodes[0]'hl) ⟨s0, cfg.npath, 0⟩ := by
    rcases T.done 0 _ hn with ⟨h1, _⟩ | ⟨r, h1⟩
    · exact absurd h1 T.sf0
    · have := h1.entry
      rw [T.root] at this
      cases this
      exact h1
  obtain ⟨h1, h2, h3, h4⟩ := T.samples hlen cfg.maxLength 0 _ _ hn hat (Nat.zero_add _)
  exact ⟨⟨h1, h2, h3, h4⟩, _, hn, hat⟩

end

/-! ### The weighted output -/

section
variable [MonoidWithZero W] [DecidableEq W] {f : Fst W} {s0 : StateId} {cfg : RandCfg} {neglog : ℚ → W} {table : List RandState} {sf : Option StateId}
  {nodes : List (Node W)} {out : Fst W}

/-- The factor of all final weights. -/
def RandCfg.total (cfg : RandCfg) : ℚ := if cfg.removeTotal then 1 else cfg.npath

theorem STree.paths (T : STree f s0 cfg neglog table sf nodes out) (hlen : nodes.length = table.length) (hw : cfg.weighted = true) (hK : 0 < cfg.total)
    (hmul : ∀ a b : ℚ, 0 < a → 0 < b → neglog (a * b) = neglog a * neglog b) (L : Nat) :
    ∀ (s : Nat) (nd : Node W) (r : RandState), nodes[s]? = some nd → NodeAt f cfg neglog table sf out s nd r → r.length + L = cfg.maxLength →
      ∀ k, out.pathsFrom k s = ((((samplesAt nodes L s).filter (fun a => a.run.length = k)).map
        (fun a => (a.x, a.y, neglog (a.count / r.nsamples * cfg.total))) : List (PathT W)) : Multiset (PathT W)) := by
  induction L with
  | zero =>
    intro s nd r hn h hL k
    have hkids : nd.kids = [] ∧ nd.stop = 0 := by
      rcases h.drawn.total with ⟨h1, _⟩ | ⟨h1, h2, _⟩
      · exact absurd (by omega) h1
      · exact ⟨h1, h2⟩
    have htr : out.trsOf s = [] := by rw [h.trs, Node.trs, hkids.1, hkids.2]; simp
    have hfin : out.finOf s = none := by rw [h.fin, Node.fin, hkids.2]; simp
    cases k with
    | zero => rw [Fst.pathsFrom, hfin]; rfl
    | succ k => rw [Fst.pathsFrom, htr]; rfl
  | succ L ih =>
    intro s nd r hn h hL k
    have e : samplesAt nodes (L + 1) s = (nd.kids.zipIdx nd.base).flatMap (fun x => (samplesAt nodes L x.2).map x.1.pre) ++
        if nd.stop = 0 then [] else [⟨[], [], [], nd.stop⟩] := by
      rw [samplesAt, hn]
    rw [e]
    cases k with
    | zero =>
      rw [Fst.pathsFrom, h.fin, Node.fin, List.filter_append]
      have e1 : ((nd.kids.zipIdx nd.base).flatMap (fun x => (samplesAt nodes L x.2).map x.1.pre)).filter (fun a => a.run.length = 0) = [] := by
        rw [List.filter_eq_nil_iff]
        intro a ha
        obtain ⟨x, _, ha⟩ := List.mem_flatMap.1 ha
        obtain ⟨b, _, rfl⟩ := List.mem_map.1 ha
        simp [Kid.pre]
      rw [e1, List.nil_append]
      by_cases h0 : nd.stop = 0
      · rw [if_neg (by omega), if_pos h0]; rfl
      · rw [if_pos ⟨hw, by omega⟩, if_neg h0]
        simp only [List.filter_cons, List.length_nil, decide_true, if_true, List.filter_nil, List.map_cons, List.map_nil, Multiset.coe_singleton,
          RandCfg.total]
        congr 3
        split <;> simp
    | succ k =>
      rw [Fst.pathsFrom, h.trs, Node.trs, if_pos hw, List.append_nil, List.filter_append]
      have e1 : (if nd.stop = 0 then ([] : List Sample) else [⟨[], [], [], nd.stop⟩]).filter (fun a => a.run.length = k + 1) = [] := by
        split <;> simp
      rw [e1, List.append_nil]
      have hmem : ∀ x ∈ nd.kids.zipIdx nd.base, x.1 ∈ nd.kids := fun x hx => by
        obtain ⟨i, _, hi⟩ := mem_zipIdx_get hx
        exact List.mem_of_getElem? hi
      have hone : ∀ x ∈ nd.kids.zipIdx nd.base, (out.pathsFrom k x.2).map (fun p => (kidTr cfg neglog r x).asPath.cat p) =
          (((((samplesAt nodes L x.2).map x.1.pre).filter (fun a => a.run.length = k + 1)).map
            (fun a => (a.x, a.y, neglog (a.count / r.nsamples * cfg.total))) : List (PathT W)) : Multiset (PathT W)) := by
        intro x hx
        obtain ⟨_, _, _, _, nd', h1, h2⟩ := T.kid hlen hn h hx
        have hrun := (STree.samples T hlen L x.2 nd' _ h1 h2 (by show r.length + 1 + L = _; omega)).2.1
        rw [ih x.2 nd' _ h1 h2 (by show r.length + 1 + L = _; omega) k, Multiset.map_coe, List.map_map]
        congr 1
        rw [List.filter_map, List.map_map]
        have ef : (samplesAt nodes L x.2).filter ((fun a : Sample => decide (a.run.length = k + 1)) ∘ x.1.pre) =
            (samplesAt nodes L x.2).filter (fun a => decide (a.run.length = k)) := by
          apply List.filter_congr
          intro a _
          simp [Kid.pre]
        rw [ef]
        apply List.map_congr_left
        intro a ha
        have ha3 := (hrun a (List.mem_filter.1 ha).1).2.2
        have hc := h.drawn.pos x.1 (hmem x hx)
        have hn0 : 0 < r.nsamples := by
          rcases h.drawn.total with ⟨_, h3⟩ | ⟨h3, _⟩
          · have : x.1.count ≤ (nd.kids.map (·.count)).sum := List.single_le_sum (by simp) _ (List.mem_map.2 ⟨x.1, hmem x hx, rfl⟩)
            omega
          · rw [h3] at hx; simp at hx
        have ha3' : (0 : ℚ) < a.count := by exact_mod_cast ha3
        have hc' : (0 : ℚ) < x.1.count := by exact_mod_cast hc
        have hn' : (0 : ℚ) < r.nsamples := by exact_mod_cast hn0
        simp only [Function.comp, PathT.cat, Tr.asPath, kidTr, hw, if_true, Kid.pre, kidState]
        congr 2
        rw [← hmul _ _ (by positivity) (by positivity)]
        congr 1
        field_simp
      have hall : ∀ ks : List (Kid W × Nat), (∀ x ∈ ks, x ∈ nd.kids.zipIdx nd.base) →
          ((ks.map (kidTr cfg neglog r) : List (Tr W)) : Multiset (Tr W)).bind (fun t => (out.pathsFrom k t.nextstate).map fun p => t.asPath.cat p) =
          ((((ks.flatMap (fun x => (samplesAt nodes L x.2).map x.1.pre)).filter (fun a => a.run.length = k + 1)).map
            (fun a => (a.x, a.y, neglog (a.count / r.nsamples * cfg.total))) : List (PathT W)) : Multiset (PathT W)) := by
        intro ks
        induction ks with
        | nil => intro _; rfl
        | cons x ks ihk =>
          intro hks
          rw [List.map_cons, ← Multiset.cons_coe, Multiset.cons_bind, ihk (fun y hy => hks y (List.mem_cons_of_mem _ hy)), List.flatMap_cons,
            List.filter_append, List.map_append, ← Multiset.coe_add, ← hone x (hks x List.mem_cons_self)]
          rfl
      exact hall _ (fun x hx => hx)

end
end Verif
