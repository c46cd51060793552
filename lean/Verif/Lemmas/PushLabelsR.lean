import Verif.Lemmas.PushLabels

/-! # Pushing labels towards the final states -/

namespace Verif
open Fst
universe u v
set_option linter.unusedSectionVars false

variable {W : Type u} {V : Type v}

/-- A string as value of `StringWeightRight`. -/
def StrR.lab (l : List Label) : StrR := StrW.labels l

/-- The longest common suffix. -/
def suff (l m : List Label) : List Label := (StrW.common l.reverse m.reverse).reverse

theorem suff_left (l m : List Label) : ∃ c, l = c ++ suff l m := by
  obtain ⟨c, hc⟩ := common_prefix_left l.reverse m.reverse
  refine ⟨c.reverse, ?_⟩
  have := congrArg List.reverse hc
  rwa [List.reverse_reverse, List.reverse_append] at this

/-- `b` is a suffix. -/
def StrR.ends (b : List Label) : StrR → Prop
  | .inf => True
  | .labels a => b <:+ a

theorem ends_add (b : List Label) (x y : StrR) : StrR.ends b (x + y) ↔ StrR.ends b x ∧ StrR.ends b y := by
  obtain _ | l := (x : StrW)
  · show StrR.ends b y ↔ True ∧ _
    simp
  · obtain _ | m := (y : StrW)
    · show b <:+ l ↔ b <:+ l ∧ True
      simp
    · show b <:+ suff l m ↔ b <:+ l ∧ b <:+ m
      obtain ⟨h1, h2, h3⟩ := StrW.isLcp_common l.reverse m.reverse
      have e : b <:+ suff l m ↔ b.reverse <+: StrW.common l.reverse m.reverse := by
        rw [← List.reverse_prefix, suff, List.reverse_reverse]
      rw [e, ← List.reverse_prefix, ← List.reverse_prefix (l₂ := m)]
      exact ⟨fun h => ⟨h.trans h1, h.trans h2⟩, fun h => h3 _ h.1 h.2⟩

theorem ends_sum (b : List Label) (M : Multiset StrR) : StrR.ends b M.sum ↔ ∀ x ∈ M, StrR.ends b x := by
  induction M using Multiset.induction_on with
  | empty => exact ⟨fun _ _ h => by simp at h, fun _ => trivial⟩
  | cons x M ih => rw [Multiset.sum_cons, ends_add, ih]; simp

theorem ends_range (b : List Label) (x : Nat → StrR) (n : Nat) : StrR.ends b (∑ k ∈ Finset.range n, x k) ↔ ∀ k < n, StrR.ends b (x k) := by
  induction n with
  | zero => exact ⟨fun _ _ h => by omega, fun _ => trivial⟩
  | succ n ih =>
    rw [Finset.sum_range_succ, ends_add, ih]
    exact ⟨fun h k hk => by rcases Nat.lt_succ_iff_lt_or_eq.1 hk with h' | rfl; exact h.1 k h'; exact h.2, fun h => ⟨fun k hk => h k (by omega), h n (by omega)⟩⟩

section
variable [Semiring W] [DecidableEq W] {divR : W → W → R W} {P : W → Prop} {f : Fst W} {g : Fst (StrR × W)}

/-- `GProp` for right gallic weights. -/
def GPropR (P : W → Prop) (a : StrR × W) : Prop := a = 0 ∨ ∃ l w, a = (StrR.lab l, w) ∧ w ≠ 0 ∧ P w ∧ EPS ∉ l

/-- `GPair` for right gallic weights. -/
def GPairR (a : StrR × W) : Prop := ∃ l w, a = (StrR.lab l, w) ∧ EPS ∉ l

theorem labR_ne (l : List Label) (w : W) : ((StrR.lab l, w) : StrR × W) ≠ 0 := gpair_ne_zero l w
theorem gpairR_ne {a : StrR × W} (h : GPairR a) : a ≠ 0 := gpair_ne (a := a) h
theorem radd (l m : List Label) (a b : W) : ((StrR.lab l, a) : StrR × W) + (StrR.lab m, b) = (StrR.lab (suff l m), a + b) := rfl
theorem rmul (l m : List Label) (a b : W) : ((StrR.lab l, a) : StrR × W) * (StrR.lab m, b) = (StrR.lab (l ++ m), a * b) := rfl
theorem rdiv_eq (l m : List Label) (x y : W) :
    gallicRightDiv divR (StrR.lab l, x) (StrR.lab m, y) = pairR (.ok (StrR.lab (l.reverse.drop m.length).reverse)) (divR x y) := rfl
theorem rdiv_zero (m : List Label) (y : W) : gallicRightDiv divR 0 (StrR.lab m, y) = pairR (.ok (0 : StrR)) (divR 0 y) := rfl
theorem gpairR_mul (a b : StrR × W) (ha : GPairR a) (hb : GPairR b) : GPairR (a * b) := gpair_mul (W := W) a b ha hb

theorem drop_suffix (c m : List Label) : ((c ++ m).reverse.drop m.length).reverse = c := by
  rw [List.reverse_append, List.drop_append]; simp

theorem gallicR_closed (h : WeakRight divR P) (h10 : (1 : W) ≠ 0) : Closed (GPropR P) := by
  refine ⟨.inl rfl, .inr ⟨[], 1, rfl, h10, h.closed.one, by simp⟩, ?_, ?_⟩
  · rintro a b (rfl | ⟨l, x, rfl, hx, px, hl⟩) hb
    · rwa [zero_add]
    · rcases hb with rfl | ⟨m, y, rfl, hy, py, hm⟩
      · rw [add_zero]; exact .inr ⟨l, x, rfl, hx, px, hl⟩
      · refine .inr ⟨_, _, radd l m x y, fun h0 => hx (h.zeroSumFree x y px py h0), h.closed.add _ _ px py, fun hc => hl ?_⟩
        obtain ⟨c, hc'⟩ := suff_left l m
        rw [hc']; exact List.mem_append_right _ hc
  · rintro a b (rfl | ⟨l, x, rfl, hx, px, hl⟩) hb
    · left; exact zero_mul b
    · rcases hb with rfl | ⟨m, y, rfl, hy, py, hm⟩
      · left; exact mul_zero _
      · refine .inr ⟨_, _, rmul l m x y, fun h0 => ?_, h.closed.mul _ _ px py, ?_⟩
        · rcases h.noZeroDiv x y px py h0 with h0 | h0
          · exact hx h0
          · exact hy h0
        · simp [hl, hm]

theorem gallicR_div (h : WeakRight divR P) (h10 : (1 : W) ≠ 0) : WeakRight (gallicRightDiv divR) (GPropR P) := by
  refine ⟨gallicR_closed h h10, ?_, ?_, ?_⟩
  · rintro a b (rfl | ⟨l, x, rfl, hx, px, hl⟩) (rfl | ⟨m, y, rfl, hy, py, hm⟩) e
    · exact .inl rfl
    · exact .inl rfl
    · exact .inr rfl
    · exact absurd e (labR_ne _ _)
  · rintro a b (rfl | ⟨l, x, rfl, hx, px, hl⟩) (rfl | ⟨m, y, rfl, hy, py, hm⟩) e
    · rfl
    · rfl
    · rw [add_zero] at e; exact e
    · exact absurd e (labR_ne _ _)
  · rintro a b (rfl | ⟨l, x, rfl, hx, px, hl⟩) (rfl | ⟨m, y, rfl, hy, py, hm⟩) e
    · rw [add_zero] at e; exact absurd rfl e
    · obtain ⟨v, h1, h2⟩ := h.div 0 y h.closed.zero py (by rwa [zero_add])
      refine ⟨(0, v), ?_, ?_⟩
      · rw [zero_add] at h1 ⊢
        rw [rdiv_zero, h1]; rfl
      · rw [zero_add] at h2 ⊢
        exact Prod.ext rfl h2
    · obtain ⟨v, h1, h2⟩ := h.div x 0 px h.closed.zero (by rwa [add_zero])
      rw [add_zero] at h1 h2
      refine ⟨(StrR.lab [], v), ?_, ?_⟩
      · rw [add_zero, rdiv_eq, h1]
        have : (l.reverse.drop l.length).reverse = [] := by simpa using drop_suffix [] l
        rw [this]; rfl
      · rw [add_zero, rmul, h2, List.nil_append]
    · have hs : x + y ≠ 0 := fun h0 => hx (h.zeroSumFree x y px py h0)
      obtain ⟨v, h1, h2⟩ := h.div x y px py hs
      obtain ⟨c, hc⟩ := suff_left l m
      refine ⟨(StrR.lab c, v), ?_, ?_⟩
      · rw [radd, rdiv_eq, h1]
        have : (l.reverse.drop (suff l m).length).reverse = c := by
          conv_lhs => rw [hc]
          rw [← hc]
          generalize hm' : suff l m = k at hc ⊢
          rw [hc]; exact drop_suffix c k
        rw [this]; rfl
      · rw [radd, rmul, h2, ← hc]

theorem rdiv_pair {a b v : StrR × W} (ha : GPairR a) (hb : GPairR b) (h : gallicRightDiv divR a b = .ok v) : GPairR v := by
  obtain ⟨l, x, rfl, hl⟩ := ha
  obtain ⟨m, y, rfl, hm⟩ := hb
  rw [rdiv_eq] at h
  cases hd : divR x y with
  | error e => rw [hd] at h; cases h
  | ok w =>
    rw [hd] at h
    injection h with h
    exact ⟨_, _, h.symm, fun hc => hl (by simpa using List.mem_of_mem_drop (List.mem_reverse.1 hc))⟩

theorem rdiv_transfer {l m : List Label} {x y z : W}
    (h : ∃ v, gallicRightDiv divR (StrR.lab l, x) (StrR.lab m, y) = .ok v ∧ v * ((StrR.lab m, y) : StrR × W) = (StrR.lab l, x))
    (hz : ∃ v, divR z y = .ok v ∧ v * y = z) :
    ∃ v, gallicRightDiv divR (StrR.lab l, z) (StrR.lab m, y) = .ok v ∧ v * ((StrR.lab m, y) : StrR × W) = (StrR.lab l, z) := by
  obtain ⟨v, h1, h2⟩ := h
  obtain ⟨w, h3, h4⟩ := hz
  rw [rdiv_eq] at h1
  cases hd : divR x y with
  | error e => rw [hd] at h1; cases h1
  | ok w' =>
    rw [hd] at h1
    injection h1 with h1
    refine ⟨(StrR.lab (l.reverse.drop m.length).reverse, w), by rw [rdiv_eq, h3]; rfl, ?_⟩
    rw [← h1] at h2
    exact Prod.ext (congrArg Prod.fst h2 : _) h4

/-- `g` is `f` with the output labels in the weights. -/
structure GallicOfR (f : Fst W) (g : Fst (StrR × W)) : Prop where
  start : g.start = f.start
  num : g.numStates = f.numStates
  trs : ∀ s, g.trsOf s = (f.trsOf s).map fun t => ⟨t.ilabel, t.ilabel, (StrR.lab (strip t.olabel), t.weight), t.nextstate⟩
  fin : ∀ s, g.finOf s = (f.finOf s).map fun w => (StrR.lab [], w)

theorem GallicOfR.left (h : GallicOfR f g) : GallicOf (g := g) f := ⟨h.start, h.num, h.trs, h.fin⟩

theorem gallicOfR_exists (f : Fst W) (hs : f.start ≠ none) (hz : ∀ s, f.finOf s ≠ some 0) :
    ∃ g : Fst (StrR × W), f.weightConvert (toGallic (V := StrR × W) id) = .ok g ∧ GallicOfR f g ∧ (f.Truthful → g.Truthful) := by
  obtain ⟨g, h1, h2, h3⟩ := gallicOf_exists f hs hz
  exact ⟨g, h1, ⟨h2.start, h2.num, h2.trs, h2.fin⟩, h3⟩

theorem GallicOfR.mem (h : GallicOfR f g) {s} {t : Tr (StrR × W)} (ht : t ∈ g.trsOf s) :
    ∃ t' ∈ f.trsOf s, t = ⟨t'.ilabel, t'.ilabel, (StrR.lab (strip t'.olabel), t'.weight), t'.nextstate⟩ := by
  rw [h.trs] at ht
  obtain ⟨t', h1, h2⟩ := List.mem_map.1 ht
  exact ⟨t', h1, h2.symm⟩

theorem GallicOfR.prop {P : W → Prop} (h : GallicOfR f g) (hf : f.WeightsIn P) (hnz : f.WeightsIn (· ≠ 0)) : g.WeightsIn (GPropR P) :=
  h.left.prop hf hnz

/-- The weights of the paths sum up to `finalSum`; no distributivity is needed. -/
theorem sum_pathsFrom' {V : Type*} [AddCommMonoid V] [Monoid V] {f : Fst V} (hz : ∀ a : V, a * 0 = 0) (n : Nat) (s : StateId) :
    ((f.pathsFrom n s).map fun p => p.2.2).sum = f.finalSum (fun _ => true) n s := by
  have key : ∀ n s, (f.pathsFrom n s).map (fun p => p.2.2) =
      (f.walks (fun _ => true) n s).bind fun e => match f.finOf e.1 with | none => 0 | some w => {e.2 * w} := by
    intro n
    induction n with
    | zero =>
      intro s
      rw [pathsFrom_zero, walks, Multiset.singleton_bind]
      cases f.finOf s <;> simp
    | succ n ih =>
      intro s
      rw [pathsFrom_succ, Multiset.map_bind, walks, Multiset.bind_assoc, List.filter_eq_self.2 (fun _ _ => rfl)]
      refine Multiset.bind_congr fun t _ => ?_
      have := congrArg (Multiset.map (fun x => t.weight * x)) (ih t.nextstate)
      rw [Multiset.map_map] at this ⊢
      rw [Multiset.bind_map]
      refine Eq.trans this ?_
      rw [Multiset.map_bind]
      refine Multiset.bind_congr fun e _ => ?_
      cases f.finOf e.1 <;> simp [mul_assoc]
  rw [key, Multiset.sum_bind]
  unfold finalSum
  congr 1
  refine Multiset.map_congr rfl fun e _ => ?_
  cases f.finOf e.1 <;> simp [hz]

theorem distance_partsR (h : GallicOfR f g) {s : StateId} {d : StrR × W} (hd : g.IsFinalDistance (fun _ => true) s d) :
    (∀ b, StrR.ends b d.1 ↔ ∀ n, ∀ p ∈ f.pathsFrom n s, b <:+ p.2.1) ∧
    ∃ N, ∀ n, N ≤ n → ∑ k ∈ Finset.range n, ((f.pathsFrom k s).map fun p => p.2.2).sum = d.2 := by
  obtain ⟨N, hN⟩ := hd
  have hz : ∀ a : StrR × W, a * 0 = 0 := fun a => mul_zero a
  have e : ∀ n, g.finalSum (fun _ => true) n s = (((f.pathsFrom n s).map fun p => StrR.lab p.2.1).sum, ((f.pathsFrom n s).map fun p => p.2.2).sum) := by
    intro n
    rw [← sum_pathsFrom' hz]
    have hp : (g.pathsFrom n s) = (f.pathsFrom n s).map (fun p => (p.1, p.1, (StrR.lab p.2.1, p.2.2))) := h.left.paths n s
    rw [hp, Multiset.map_map]
    refine Prod.ext ?_ ?_
    · rw [← AddMonoidHom.coe_fst, AddMonoidHom.map_multiset_sum, Multiset.map_map]; rfl
    · rw [← AddMonoidHom.coe_snd, AddMonoidHom.map_multiset_sum, Multiset.map_map]; rfl
  constructor
  · intro b
    have key : ∀ n, N ≤ n → (StrR.ends b d.1 ↔ ∀ k < n, ∀ p ∈ f.pathsFrom k s, b <:+ p.2.1) := by
      intro n hn
      rw [← hN n hn, ← AddMonoidHom.coe_fst, map_sum, ends_range]
      refine forall_congr' fun k => imp_congr_right fun _ => ?_
      rw [AddMonoidHom.coe_fst, e]
      rw [ends_sum]
      simp only [Multiset.mem_map, forall_exists_index, and_imp, forall_apply_eq_imp_iff₂]
      rfl
    exact ⟨fun hb n => (key (max N (n + 1)) (by omega)).1 hb n (by omega), fun hb => (key N (Nat.le_refl _)).2 fun k _ => hb k⟩
  · refine ⟨N, fun n hn => ?_⟩
    rw [← hN n hn]
    refine Eq.trans ?_ (map_sum (AddMonoidHom.snd StrR W) _ _).symm
    refine Finset.sum_congr rfl fun k _ => ?_
    rw [AddMonoidHom.coe_snd, e]

/-- Distances in the unweighted copy are potentials too. -/
theorem potFinal_unweighted (hdiv : WeakRight divR P) (hfull : ∀ a b, P a → P b → b ≠ 0 → ∃ v, divR a b = .ok v ∧ v * b = a)
    (hf : f.WeightsIn P) (hg : GallicOfR f g) {u' : Fst W} {u : Fst (StrR × W)} (hu : GallicOfR u' u)
    (ut : ∀ s, u'.trsOf s = (f.trsOf s).map fun t => { t with weight := 1 }) (us : u'.start = f.start)
    {d : StateId → StrR × W} (hw : f.WF) (hd : ∀ s, s < f.numStates → GPropR P (d s)) (hp : u.PotFinal (gallicRightDiv divR) d)
    (hcomm : ∀ s w, f.finOf s = some w → ∀ a, w * a = a * w) : g.PotFinal (gallicRightDiv divR) d := by
  have hmem : ∀ s, ∀ t ∈ f.trsOf s, (⟨t.ilabel, t.ilabel, (StrR.lab (strip t.olabel), (1 : W)), t.nextstate⟩ : Tr (StrR × W)) ∈ u.trsOf s := by
    intro s t ht
    rw [hu.trs, ut]
    exact List.mem_map.2 ⟨_, List.mem_map.2 ⟨t, ht, rfl⟩, rfl⟩
  refine ⟨fun s t ht hs hn => ?_, fun s w hw' hs => ?_, fun s t ht hs hn => ?_, fun i hi => hp.start i (by rw [hu.start, us, ← hg.start]; exact hi)⟩
  · obtain ⟨t, h0, rfl⟩ := hg.mem ht
    have h1 := hp.tr s _ (hmem s t h0) hs hn
    obtain ⟨a, x, ea, hx, px, -⟩ := (hd s (lt_of_mem_trsOf h0)).resolve_left hs
    obtain ⟨b, y, eb, hy, py, -⟩ := (hd t.nextstate (hw.next_lt s t h0)).resolve_left hn
    simp only at h1 ⊢
    rw [ea, eb, rmul] at h1 ⊢
    exact rdiv_transfer h1 (hfull _ _ (hdiv.closed.mul _ _ px (hf.1 s t h0)) py hy)
  · rw [hg.fin] at hw'
    obtain ⟨w, h0, rfl⟩ := Option.map_eq_some_iff.1 hw'
    obtain ⟨a, x, ea, hx, px, -⟩ := (hd s (lt_of_finOf h0)).resolve_left hs
    rw [ea, rmul, rmul, hcomm s w h0, List.append_nil, List.nil_append]
  · obtain ⟨t, h0, rfl⟩ := hg.mem ht
    exact absurd (hp.dead s _ (hmem s t h0) hs hn) (labR_ne _ _)

theorem pairR_paths {x : Fst (StrR × W)} (hx : x.WeightsIn GPairR) (n : Nat) : ∀ p ∈ x.accPaths n, p.2.2 ≠ 0 := pair_paths (x := x) hx n

/-- `reweight` on a gallic FST. -/
theorem reweight_gallicR {d : List (StrR × W)} (hw : g.WF) (ht : g.Truthful) (hac : g.Holds .acyclic) (hK : g.WeightsIn GPairR)
    (hp : g.PotFinal (gallicRightDiv divR) (fun s => d[s]?.getD 0)) (hd : ∀ s, s < g.numStates → pot d s = 0 ∨ GPairR (pot d s)) {i : StateId} (hi : g.start = some i)
    (h1 : pot d i = 1) :
    ∃ r, g.reweight gallicRightDivL (gallicRightDiv divR) .toFinal d = .ok r ∧ SameShape g r ∧ r.Truthful ∧ (∀ s, ∀ t ∈ r.trsOf s, GPairR t.weight) ∧
      (∀ s, r.finOf s = (g.finOf s).map fun w => pot d s * w) ∧ ∀ n, live (r.accPaths n) = g.accPaths n := by
  have hil := hw.start_lt i hi
  have hn : g.numStates ≠ 0 := by omega
  have hz : ∀ a : StrR × W, a * 0 = 0 := fun a => mul_zero a
  have hz' : ∀ a : StrR × W, 0 * a = 0 := fun a => zero_mul a
  obtain ⟨f1, r, w1, hr, rw', rt, -, -, hst⟩ := reweight_spec (divL := gallicRightDivL) (divR := gallicRightDiv divR) (ty := .toFinal) hw ht hn
      (fun s t htm hs => reweightTr_final hp htm hs) (fun s w h => ⟨_, rfl⟩)
      (fun i hi h1 h0 => by obtain ⟨v, hv, -⟩ := (hp.start i hi).2 h1; exact ⟨v, hv⟩)
  obtain ⟨c, k, hin, h2, -⟩ := hst i hi
  obtain ⟨rfl, rfl⟩ := h2 (.inl h1)
  have hpaths := final_paths (d := pot d) hz hz' w1 (fun s t htm hs => (newTr_final hz hp htm hs).1) (fun s t htm hs => (newTr_final hz hp htm hs).2)
      (fun s w h hs => newFin_final hp h hs)
  have hacc := hin.accPaths (w1.shape.wf hw) (w1.start.trans hi)
  have K1 : ∀ s, ∀ t ∈ f1.trsOf s, GPairR t.weight := by
    intro s t htm
    rw [w1.trs] at htm
    obtain ⟨t, h0, rfl⟩ := List.mem_map.1 htm
    by_cases hs : pot d s = 0
    · have : newTr gallicRightDivL (gallicRightDiv divR) .toFinal d s t = t.weight := if_pos hs
      simp only [this]
      exact hK.1 s t h0
    · by_cases hn : pot d t.nextstate = 0
      · exact absurd (hp.dead s t h0 hs hn) (gpairR_ne (hK.1 s t h0))
      · obtain ⟨v, hv, -⟩ := hp.tr s t h0 hs hn
        have : newTr gallicRightDivL (gallicRightDiv divR) .toFinal d s t = v := by
          unfold newTr reweightTr
          rw [if_neg hs, if_neg hn]
          simp only [pot, hv]; rfl
        simp only [this]
        exact rdiv_pair (gpairR_mul _ _ ((hd s (lt_of_mem_trsOf h0)).resolve_left hs) (hK.1 s t h0)) ((hd _ (hw.next_lt s t h0)).resolve_left hn) hv
  have F1 : ∀ s, f1.finOf s = (g.finOf s).map fun w => pot d s * w := by
    intro s
    rw [w1.fin]
    cases h : g.finOf s with
    | none => rfl
    | some w =>
      rw [Option.map_some, Option.map_some]
      congr 1
      by_cases hs0 : pot d s = 0
      · unfold newFin reweightFin
        simp only [hs0, hz, hz']
      · exact newFin_final hp h hs0
  have main : SameShape g r ∧ (∀ s, ∀ t ∈ r.trsOf s, GPairR t.weight) ∧ ∀ s, r.finOf s = f1.finOf s := by
    cases hin with
    | same _ a b c' e =>
      exact ⟨⟨fun s => by rw [a]; exact w1.shape.trs s, fun s => by rw [b]; exact w1.shape.fin s, c'.trans w1.num, e.trans w1.start⟩,
        fun s t h => K1 s t (a s ▸ h), b⟩
    | «at» _ w2 =>
      refine ⟨(w1.trans w2).shape, fun s t h => ?_, fun s => ?_⟩
      · rw [w2.trs] at h
        obtain ⟨t', h', rfl⟩ := List.mem_map.1 h
        simp only [one_mul, ite_self]
        exact K1 s t' h'
      · rw [w2.fin]; simp
  refine ⟨r, hr, main.1, rt, main.2.1, fun s => (main.2.2 s).trans (F1 s), fun n => ?_⟩
  have hone : (PathT.scale 1 : PathT (StrR × W) → _) = id := by funext p; simp [PathT.scale]
  rw [hacc n, delay_zero, hone, Multiset.map_id, hpaths n i (by rw [h1]; exact gpairR_ne ⟨[], 1, rfl, by simp⟩), h1, hone, Multiset.map_id, accPaths_some hi]
  have := pairR_paths hK n
  rw [accPaths_some hi] at this
  exact live_of_ne this

/-- `remove_weight` on a gallic FST. `x` and `y` are what is removed. -/
theorem removeWeight_gallicR {r : Fst (StrR × W)} {x : List Label} {y : W} (hxe : EPS ∉ x)
    (hdv : ∀ s w, r.finOf s = some w → (w = 0 ∧ divR 0 y = .ok 0) ∨ ∃ m z, w = (StrR.lab (m ++ x), z) ∧ EPS ∉ m ∧ ∃ v, divR z y = .ok v ∧ v * y = z) :
    ∃ r', r.removeWeight gallicRightDivL (gallicRightDiv divR) .toFinal (StrR.lab x, y) = .ok r' ∧ SameShape r r' ∧ (r.Truthful → r'.Truthful) ∧
      (∀ s, r'.trsOf s = r.trsOf s) ∧ (∀ s v, r'.finOf s = some v → (v = 0 ∧ r.finOf s = some 0) ∨ GPairR v) ∧
      ∀ n, (r'.accPaths n).map (PathT.scaleR (StrR.lab x, y)) = r.accPaths n := by
  by_cases h1 : ((StrR.lab x, y) : StrR × W) = 1
  · refine ⟨r, by unfold removeWeight; rw [if_pos (.inl h1)], ⟨fun _ => rfl, fun _ => rfl, rfl, rfl⟩, id, fun _ => rfl, fun s v hv => ?_, fun n => ?_⟩
    · rcases hdv s v hv with ⟨rfl, -⟩ | ⟨m, z, rfl, hm, -⟩
      · exact .inl ⟨rfl, hv⟩
      · exact .inr ⟨_, _, rfl, by simp [hm, hxe]⟩
    · have hone : (PathT.scaleR 1 : PathT (StrR × W) → _) = id := by funext p; simp [PathT.scaleR]
      rw [h1, hone, Multiset.map_id]
  · have hdiv : ∀ s w, r.finOf s = some w → (w = 0 ∧ gallicRightDiv divR w (StrR.lab x, y) = .ok 0) ∨
        ∃ v, GPairR v ∧ gallicRightDiv divR w (StrR.lab x, y) = .ok v ∧ v * (StrR.lab x, y) = w := by
      intro s w hsw
      rcases hdv s w hsw with ⟨rfl, h⟩ | ⟨m, z, rfl, hm, v, h, e⟩
      · left; refine ⟨rfl, ?_⟩; rw [rdiv_zero, h]; rfl
      · right
        refine ⟨(StrR.lab m, v), ⟨m, v, rfl, hm⟩, ?_, ?_⟩
        · rw [rdiv_eq, h, drop_suffix]; rfl
        · rw [rmul, e]
    obtain ⟨r', e1, e2, e3, e4, e5, e6⟩ := removeWeight_final (divL := gallicRightDivL) (divR := gallicRightDiv divR) (g := r) h1 (labR_ne _ _)
      (fun s w hsw => by
        rcases hdiv s w hsw with ⟨rfl, h⟩ | ⟨v, -, h, e⟩
        · exact ⟨0, h, zero_mul _⟩
        · exact ⟨v, h, e⟩)
    refine ⟨r', e1, e3, e2, e5, fun s v hv => ?_, e4⟩
    obtain ⟨w, h1, h2⟩ := e6 s v hv
    rcases hdiv s w h1 with ⟨rfl, h⟩ | ⟨v', hp, h, -⟩
    · rw [h] at h2; cases h2; exact .inl ⟨rfl, h1⟩
    · rw [h] at h2; cases h2; exact .inr hp

/-- Accepting paths weigh zero or a pair. -/
theorem pathsR_pair {x : Fst (StrR × W)} (ht : ∀ s, ∀ t ∈ x.trsOf s, GPairR t.weight) (hf : ∀ s v, x.finOf s = some v → v = 0 ∨ GPairR v) (n : Nat) :
    ∀ s, ∀ p ∈ x.pathsFrom n s, p.2.2 = 0 ∨ GPairR p.2.2 := by
  induction n with
  | zero =>
    intro s p hp
    rw [pathsFrom_zero] at hp
    cases h : x.finOf s with
    | none => rw [h] at hp; simp at hp
    | some w =>
      rw [h] at hp
      obtain rfl := Multiset.mem_singleton.1 hp
      exact hf s w h
  | succ n ih =>
    intro s p hp
    rw [pathsFrom_succ] at hp
    obtain ⟨t, h1, h2⟩ := Multiset.mem_bind.1 hp
    obtain ⟨q, h3, rfl⟩ := Multiset.mem_map.1 h2
    rcases ih _ q h3 with h | h
    · left
      show t.weight * q.2.2 = 0
      rw [h]; exact mul_zero _
    · exact .inr (gpairR_mul _ _ (ht s t h1) h)

theorem live_scaleR {x : List Label} {y : W} {M : Multiset (PathT (StrR × W))} (h : ∀ p ∈ M, p.2.2 = 0 ∨ GPairR p.2.2) :
    live (M.map (PathT.scaleR (StrR.lab x, y))) = (live M).map (PathT.scaleR (StrR.lab x, y)) := by
  unfold live
  rw [Multiset.filter_map]
  congr 1
  refine Multiset.filter_congr fun p hp => not_congr ?_
  show p.2.2 * (StrR.lab x, y) = 0 ↔ _
  rcases h p hp with h | ⟨l, w, h, -⟩
  · rw [h]; exact ⟨fun _ => rfl, fun _ => zero_mul _⟩
  · rw [h, rmul]
    exact ⟨fun h => absurd h (labR_ne _ _), fun h => absurd h (labR_ne _ _)⟩

/-- The distances from the initial state. -/
theorem distanceR {sf : SemiringFlags} {eqv : W → W → Bool} (hexact : ∀ a b, eqv a b = true ↔ b = a) (hr : sf.right = true)
    (hid : sf.idempotent = true → ∀ a : W, a + a = a) (hw : g.WF) (ht : g.Truthful) (hac : g.Holds .acyclic) {i : StateId} (hi : g.start = some i) :
    ∃ l, EndsWith (g.shortestDistance (gallicRightFlags sf) (gallicEqv eqv)) (.ok l) ∧ ∀ q, g.IsDistance (fun _ => true) i q (l[q]?.getD 0) := by
  refine C32_shortest_distance (fun a => zero_mul a) ?_ ?_ ?_ hw ht hi (.inl (noCycles_acyclic hac))
  · intro a b
    rw [gallicEqv, Bool.and_eq_true, decide_eq_true_iff, hexact]
    exact ⟨fun h => Prod.ext h.1 h.2, fun h => by rw [h]; exact ⟨rfl, rfl⟩⟩
  · show (true && sf.right) = true
    rw [hr]; rfl
  · intro h a
    have : sf.idempotent = true := by
      simp only [gallicRightFlags, SemiringFlags.prod, Bool.and_eq_true] at h
      exact h.2
    have h3 : ∀ b : StrW, StrW.plusRight b b = b := fun b => by rw [StrW.plusRight_eq, StrW.plusLeft_self, StrW.reverse_reverse]
    have h2 : a.1 + a.1 = a.1 := h3 a.1
    exact Prod.ext h2 (hid this a.2)

end
end Verif
