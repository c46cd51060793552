import Verif.Lemmas.Relabel

/-! # C10 invert, C11 project -/

namespace Verif
set_option linter.unusedSectionVars false
universe u
variable {W : Type u} [Zero W] [One W] [DecidableEq W]
namespace Fst

theorem invert_relab (f : Fst W) : Relab f f.invert swapLabels :=
  let h := forStates_spec invertTr_rewrites f
  { trs := h.1, fin := h.2.1, num := h.2.2.1, start := h.2.2.2.1, next := fun _ => rfl }

theorem project_relab (f : Fst W) (ty) : Relab f (f.project ty) (projLabels ty) :=
  let h := forStates_spec (projectTr_rewrites ty) f
  { trs := h.1, fin := h.2.1, num := h.2.2.1, start := h.2.2.2.1, next := fun t => by cases ty <;> rfl }

theorem Relab.accPaths [Mul W] {f g : Fst W} {k} (h : Relab f g k) (φ : PathT W → PathT W)
    (hφ : ∀ t p, φ ((Tr.asPath t).cat p) = (Tr.asPath (k t)).cat (φ p)) (h0 : ∀ w, φ ([], [], w) = ([], [], w)) (n) :
    g.accPaths n = (f.accPaths n).map φ := by
  unfold Fst.accPaths
  rw [h.start]
  cases f.start with
  | none => simp
  | some i =>
    refine pathsFrom_sim id k φ (fun _ => True) (fun s _ => by rw [id, h.trs]) (fun s _ t _ => ⟨trivial, h.next t⟩)
      (fun _ _ _ _ _ => hφ _ _) (fun s _ => ?_) n i trivial
    rw [id, pathsFrom_zero, pathsFrom_zero, h.fin]
    cases f.finOf s <;> simp [h0]

end Fst

/-- C10: the paths of the inverted FST are the paths of the input with the two strings swapped, weights and multiplicities
unchanged. -/
theorem C10_paths [Mul W] (f : Fst W) (n : Nat) :
    f.invert.accPaths n = (f.accPaths n).map (fun p => (p.2.1, p.1, p.2.2)) :=
  (Fst.invert_relab f).accPaths _ (fun t p => rfl) (fun _ => rfl) n

/-- C10: `x` is transduced to `y` by the inverse iff `y` is transduced to `x` by the input. -/
theorem C10_relation [Mul W] (f : Fst W) (x y : List Label) (w : W) : f.invert.Accepts x y w ↔ f.Accepts y x w := by
  simp only [Fst.Accepts, C10_paths, Multiset.mem_map, Prod.mk.injEq, Prod.exists]
  constructor
  · rintro ⟨n, a, b, c, h, rfl, rfl, rfl⟩; exact ⟨n, h⟩
  · rintro ⟨n, h⟩; exact ⟨n, y, x, w, h, rfl, rfl, rfl⟩

/-- C10: states, start, final weights, targets and transition weights stay; ε counters stay exact; labels are swapped. -/
theorem C10_structure (f : Fst W) :
    f.invert.numStates = f.numStates ∧ f.invert.start = f.start ∧ (∀ s, f.invert.finOf s = f.finOf s) ∧
    (∀ s, f.invert.trsOf s = (f.trsOf s).map fun t => { t with ilabel := t.olabel, olabel := t.ilabel }) ∧
    (f.WF → f.invert.WF) ∧ (f.AllCounters → f.invert.AllCounters) := by
  have h := Fst.invert_relab f
  exact ⟨h.num, h.start, h.fin, h.trs, h.wf,
    fun hc => Fst.allCounters_setPropsMask ((Fst.forStates_spec Fst.invertTr_rewrites f).2.2.2.2 hc) _ _⟩

/-- C10: inverting twice gives back the same FST (in the sense of `==`, which compares states and start). -/
theorem C10_involution (f : Fst W) (hc : f.AllCounters) : f.invert.invert.eqv f := by
  obtain ⟨n1, s1, f1, t1, -, c1⟩ := C10_structure f
  obtain ⟨n2, s2, f2, t2, -, c2⟩ := C10_structure f.invert
  refine ⟨Fst.states_ext hc (c2 (c1 hc)) (n2.trans n1) ?_ ?_, s2.trans s1⟩
  · intro s; rw [t2, t1, List.map_map]
    have : ((fun t : Tr W => { t with ilabel := t.olabel, olabel := t.ilabel }) ∘
        fun t : Tr W => { t with ilabel := t.olabel, olabel := t.ilabel }) = id := rfl
    rw [this, List.map_id]
  · intro s; rw [f2, f1]

/-- C10/C51: the flags of the inverted FST are true of it if the flags of the input are true of the input. -/
theorem C10_flags (f : Fst W) (h : f.Truthful) : f.invert.Truthful := by
  intro b hb
  have r := Fst.invert_relab f
  have ht : ∀ s, f.invert.trsOf s = (f.trsOf s).map Fst.swapLabels := r.trs
  have hlf : ∀ b, Fst.labelFree b = true → f.props b = true → f.invert.Holds b := fun b h1 h2 =>
    (r.holds (fun _ => rfl) b h1).2 (h b h2)
  have hp : f.invert.props = Props.invert f.props := Fst.setPropsMask_all _ _
  rw [hp] at hb
  have hi : ∀ s, (f.invert.trsOf s).map (·.ilabel) = (f.trsOf s).map (·.olabel) := by
    intro s; rw [ht, List.map_map]; rfl
  have ho : ∀ s, (f.invert.trsOf s).map (·.olabel) = (f.trsOf s).map (·.ilabel) := by
    intro s; rw [ht, List.map_map]; rfl
  simp only [Props.invert, Props.setIf_apply, Props.has_apply, Props.keep, Props.and_apply, Props.of_apply] at hb
  cases b <;> first
    | exact hlf _ rfl (by simpa using hb)
    | (simp at hb
       have := h _ hb
       simp only [Fst.Holds, hi, ho] at this ⊢
       first
         | exact this
         | simpa [ht, Fst.swapLabels, and_comm] using this
         | (simp only [ht, List.mem_map, forall_exists_index, and_imp, forall_apply_eq_imp_iff₂, Fst.swapLabels]
            simpa only [eq_comm] using this))

/-- C11: the paths of the projection are the paths of the input with the kept string on both sides. -/
theorem C11_paths [Mul W] (f : Fst W) (ty : ProjectType) (n : Nat) :
    (f.project ty).accPaths n = (f.accPaths n).map (fun p =>
      match ty with
      | .projectInput => (p.1, p.1, p.2.2)
      | .projectOutput => (p.2.1, p.2.1, p.2.2)) := by
  refine (Fst.project_relab f ty).accPaths _ (fun t p => ?_) (fun _ => ?_) n <;> cases ty <;> rfl

/-- C11: the result is an acceptor with the same states, start, final weights, targets and transition weights. -/
theorem C11_structure (f : Fst W) (ty : ProjectType) :
    (∀ s, ∀ t ∈ (f.project ty).trsOf s, t.ilabel = t.olabel) ∧
    (f.project ty).numStates = f.numStates ∧ (f.project ty).start = f.start ∧
    (∀ s, (f.project ty).finOf s = f.finOf s) ∧
    (∀ s, ((f.project ty).trsOf s).map (fun t => (t.ilabel, t.weight, t.nextstate)) = (f.trsOf s).map (fun t =>
      ((match ty with | .projectInput => t.ilabel | .projectOutput => t.olabel), t.weight, t.nextstate))) ∧
    (f.WF → (f.project ty).WF) ∧ (f.AllCounters → (f.project ty).AllCounters) := by
  have h := Fst.project_relab f ty
  refine ⟨?_, h.num, h.start, h.fin, ?_, h.wf,
    fun hc => Fst.allCounters_setPropsMask ((Fst.forStates_spec (Fst.projectTr_rewrites ty) f).2.2.2.2 hc) _ _⟩
  · intro s t ht
    rw [h.trs] at ht
    obtain ⟨t', -, rfl⟩ := List.mem_map.1 ht
    cases ty <;> rfl
  · intro s; rw [h.trs, List.map_map]; cases ty <;> rfl

/-- C11/C51: the flags of the projection are true of it. -/
theorem C11_flags (f : Fst W) (ty : ProjectType) (h : f.Truthful) : (f.project ty).Truthful := by
  intro b hb
  have r := Fst.project_relab f ty
  have ht : ∀ s, (f.project ty).trsOf s = (f.trsOf s).map (Fst.projLabels ty) := r.trs
  have hlf : ∀ b, Fst.labelFree b = true → f.props b = true → (f.project ty).Holds b := fun b h1 h2 =>
    (r.holds (fun t => by cases ty <;> rfl) b h1).2 (h b h2)
  have hp : (f.project ty).props = Props.project f.props ty := Fst.setPropsMask_all _ _
  rw [hp] at hb
  have hacc := (C11_structure f ty).1
  have hio : ∀ s, ((f.project ty).trsOf s).map (·.ilabel) =
      (f.trsOf s).map (fun t => match ty with | .projectInput => t.ilabel | .projectOutput => t.olabel) := by
    intro s; rw [ht, List.map_map]; cases ty <;> rfl
  have hoo : ∀ s, ((f.project ty).trsOf s).map (·.olabel) =
      (f.trsOf s).map (fun t => match ty with | .projectInput => t.ilabel | .projectOutput => t.olabel) := by
    intro s; rw [ht, List.map_map]; cases ty <;> rfl
  cases ty <;>
  · simp only [Props.project, Props.setIf_apply, Props.orIf_apply, Props.or_apply, Props.has_apply, Props.keep,
      Props.and_apply, Props.of_apply] at hb
    cases b <;> first
      | exact hlf _ rfl (by simpa using hb)
      | exact hacc
      | (simp at hb
         have := h _ hb
         simp only [Fst.Holds, hio, hoo] at this ⊢
         first
           | exact this
           | simpa [ht, Fst.projLabels] using this)
      | (simp at hb; done)

/-- A transducer with an ε on one side, used as a non-trivial instance below. -/
def exTwoTape : Fst Nat := (((Fst.new.addStates 3).setStart 0).setFinal 2 7
  |>.addTr 0 ⟨1, 5, 2, 1⟩ |>.addTr 0 ⟨1, 0, 1, 1⟩ |>.addTr 1 ⟨0, 4, 3, 2⟩)

/-- The instance has two accepting paths with two transitions, and inversion and projection do change them. -/
example : exTwoTape.accPaths 2 = {([1], [5, 4], 42), ([1], [4], 21)} ∧
    exTwoTape.invert.accPaths 2 = {([5, 4], [1], 42), ([4], [1], 21)} ∧
    (exTwoTape.project .projectOutput).accPaths 2 = {([5, 4], [5, 4], 42), ([4], [4], 21)} := by decide
example : exTwoTape.AllCounters := by
  unfold exTwoTape
  exact Fst.allCounters_addTr (Fst.allCounters_addTr (Fst.allCounters_addTr (Fst.allCounters_setFinal
    (Fst.allCounters_setStart (Fst.allCounters_addStates Fst.allCounters_new 3) 0) 2 7) _ _) _ _) _ _
theorem exTwoTape_truthful : exTwoTape.Truthful := by
  unfold exTwoTape
  refine Fst.truthful_addTr (Fst.truthful_addTr (Fst.truthful_addTr (Fst.truthful_setFinal (Fst.truthful_setStart
    (Fst.truthful_addStates Fst.truthful_new 3) 0) ?_ 7) ?_ _) ?_ _) ?_ _ <;> decide
/-- The flags of the instance and of its inverse are not all off. -/
example : exTwoTape.props .oEpsilons = true ∧ exTwoTape.invert.props .iEpsilons = true ∧
    (exTwoTape.project .projectInput).props .acceptor = true := by decide

end Verif
