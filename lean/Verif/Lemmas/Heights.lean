import Verif.Lemmas.MergedLang
import Verif.Lemmas.CyclicMin

/-! # The heights of the states (`fst_depth`) -/

namespace Verif
set_option linter.unusedSectionVars false
universe u v
variable {W : Type u}

namespace Fst

/-- The height of `s` is known. -/
def DepthState.Done (d : DepthState) (s : StateId) : Prop := ∃ x, d.heights[s]? = some x ∧ 0 ≤ x

structure DInv (f : Fst W) (d : DepthState) : Prop where
  len : d.heights.length ≤ f.numStates
  acc : ∀ s ∈ d.acc, s < d.heights.length
  done : ∀ (s : Nat) x, d.heights[s]? = some x → 0 ≤ x → s ∈ d.acc ∧
    (∀ t ∈ f.trsOf s, ∃ y, d.heights[t.nextstate]? = some y ∧ 0 ≤ y ∧ y < x) ∧ (x = 0 ∨ ∃ t ∈ f.trsOf s, d.heights[t.nextstate]? = some (x - 1))

structure DExt (d d' : DepthState) : Prop where
  acc : ∀ s ∈ d.acc, s ∈ d'.acc
  keep : ∀ (s : Nat) x, d.heights[s]? = some x → 0 ≤ x → d'.heights[s]? = some x
  new : ∀ s ∈ d'.acc, s ∈ d.acc ∨ d'.Done s
  old : ∀ s ∈ d.acc, d'.Done s → d.Done s
  len : d.heights.length ≤ d'.heights.length

theorem DExt.refl (d : DepthState) : DExt d d := ⟨fun _ h => h, fun _ _ h _ => h, fun _ h => Or.inl h, fun _ _ h => h, le_rfl⟩

theorem DExt.trans {a b c : DepthState} (h : DExt a b) (h' : DExt b c) : DExt a c := by
  refine ⟨fun s hs => h'.acc s (h.acc s hs), fun s x h1 h2 => h'.keep s x (h.keep s x h1 h2) h2, ?_, fun s hs hd => h.old s hs (h'.old s (h.acc s hs) hd), h.len.trans h'.len⟩
  intro s hs
  rcases h'.new s hs with h1 | h1
  · rcases h.new s h1 with h2 | ⟨x, h2, h3⟩
    · exact Or.inl h2
    · exact Or.inr ⟨x, h'.keep s x h2 h3, h3⟩
  · exact Or.inr h1

theorem depthTrs_spec (f : Fst W) (go : StateId → DepthState → R DepthState) (s : StateId) (d0 : DepthState)
    (hgo : ∀ q d, f.Edge s q → DInv f d → DExt d0 d → s ∈ d.acc → ¬ d.Done s → q ∉ d.acc → ∃ d', go q d = .ok d' ∧ DInv f d' ∧ DExt d d' ∧ d'.Done q) :
    ∀ (ts pre : List (Tr W)) (h : Int) (d : DepthState), f.trsOf s = pre ++ ts → DInv f d → DExt d0 d → s ∈ d.acc → ¬ d.Done s →
      (∀ t ∈ ts, t.nextstate ∈ d.acc → d.Done t.nextstate) → 0 ≤ h →
      (∀ t ∈ pre, ∃ y, d.heights[t.nextstate]? = some y ∧ 0 ≤ y ∧ y < h) → (h = 0 ∨ ∃ t ∈ pre, d.heights[t.nextstate]? = some (h - 1)) →
      ∃ h' d', depthTrs go ts h d = .ok (h', d') ∧ DInv f d' ∧ DExt d d' ∧ ¬ d'.Done s ∧ 0 ≤ h' ∧
        (∀ t ∈ f.trsOf s, ∃ y, d'.heights[t.nextstate]? = some y ∧ 0 ≤ y ∧ y < h') ∧
        (h' = 0 ∨ ∃ t ∈ f.trsOf s, d'.heights[t.nextstate]? = some (h' - 1)) := by
  intro ts
  induction ts with
  | nil =>
    intro pre h d hp hi hx hs hd hts h0 h1 h2
    rw [List.append_nil] at hp
    exact ⟨h, d, rfl, hi, DExt.refl d, hd, h0, hp ▸ h1, hp ▸ h2⟩
  | cons t ts ih =>
    intro pre h d hp hi hx hs hd hts h0 h1 h2
    have htm : t ∈ f.trsOf s := by rw [hp]; simp
    obtain ⟨d1, e1, i1, x1, y, hy, hy0⟩ : ∃ d1, (if t.nextstate ∈ d.acc then (.ok d : R DepthState) else go t.nextstate d) = .ok d1 ∧ DInv f d1 ∧ DExt d d1 ∧ d1.Done t.nextstate := by
      by_cases hm : t.nextstate ∈ d.acc
      · exact ⟨d, by rw [if_pos hm], hi, DExt.refl d, hts t (by simp) hm⟩
      · rw [if_neg hm]; exact hgo _ d ⟨t, htm, rfl⟩ hi hx hs hd hm
    obtain ⟨h', d', g1, g2, g3, g4⟩ := ih (pre ++ [t]) (max h (1 + y)) d1 (by rw [hp]; simp) i1 (hx.trans x1) (x1.acc s hs) (fun hh => hd (x1.old s hs hh)) (by
        intro u hu hua
        rcases x1.new _ hua with h3 | h3
        · obtain ⟨z, hz, hz0⟩ := hts u (by simp [hu]) h3
          exact ⟨z, x1.keep _ _ hz hz0, hz0⟩
        · exact h3) (by omega) (by
        intro u hu
        rcases List.mem_append.1 hu with hu | hu
        · obtain ⟨z, hz, hz0, hz1⟩ := h1 u hu
          exact ⟨z, x1.keep _ _ hz hz0, hz0, by omega⟩
        · have : u = t := by simpa using hu
          subst this
          exact ⟨y, hy, hy0, by omega⟩) (by
        by_cases hm : h < 1 + y
        · right
          refine ⟨t, by simp, ?_⟩
          rw [hy]; congr 1; omega
        · rcases h2 with h2 | ⟨u, hu, hu2⟩
          · omega
          · right
            obtain ⟨z, hz, hz0, hz1⟩ := h1 u hu
            refine ⟨u, by simp [hu], ?_⟩
            rw [hu2] at hz; injection hz with hz
            rw [x1.keep _ _ hu2 (by omega)]; congr 1; omega)
    refine ⟨h', d', ?_, g2, x1.trans g3, g4⟩
    simp only [depthTrs, bind, Except.bind]
    split at e1
    · rename_i hm
      injection e1 with e1; subst e1
      rw [if_pos hm]
      simp only [hy]; exact g1
    · rename_i hm
      rw [if_neg hm, e1]
      simp only [hy]; exact g1

theorem depth_spec (f : Fst W) (hw : f.WF) (hac : ∀ s, ¬ f.OnCycle s) : ∀ (n : Nat) (s : StateId) (d : DepthState) (stk : List StateId), DInv f d →
    s ∉ d.acc → s < f.numStates → stk.Nodup → (∀ x ∈ stk, x ∈ d.acc ∧ x < f.numStates ∧ f.Reach x s) → (∀ x ∈ d.acc, d.Done x ∨ x ∈ stk) →
    f.numStates + 1 ≤ stk.length + n → ∃ d', f.depth n s d = .ok d' ∧ DInv f d' ∧ DExt d d' ∧ d'.Done s := by
  intro n
  induction n with
  | zero =>
    intro s d stk _ _ _ hnd hst _ hle
    have := Part.nodup_length_le hnd (n := f.numStates) (fun x hx => (hst x hx).2.1)
    omega
  | succ n ih =>
    intro s d stk hi hs hsn hnd hst hdone hle
    obtain ⟨d0, hd0⟩ : ∃ d0 : DepthState, d0 = ⟨s :: d.acc, d.heights ++ List.replicate (s + 1 - d.heights.length) (-1)⟩ := ⟨_, rfl⟩
    have hlen0 : d0.heights.length = max d.heights.length (s + 1) := by
      rw [hd0]; simp only [List.length_append, List.length_replicate]; omega
    have hold : ∀ (q : Nat) x, d.heights[q]? = some x → d0.heights[q]? = some x := by
      intro q x hq
      have := (List.getElem?_eq_some_iff.1 hq).1
      rw [hd0]; simp only
      rw [List.getElem?_append_left this]; exact hq
    have hnew : ∀ (q : Nat) x, d0.heights[q]? = some x → 0 ≤ x → d.heights[q]? = some x := by
      intro q x hq hx
      rw [hd0] at hq; simp only at hq
      by_cases hql : q < d.heights.length
      · rwa [List.getElem?_append_left hql] at hq
      · rw [List.getElem?_append_right (by omega)] at hq
        have := List.mem_replicate.1 (List.mem_of_getElem? hq)
        omega
    have hacc0 : ∀ x, x ∈ d0.acc ↔ x = s ∨ x ∈ d.acc := by intro x; rw [hd0]; simp
    have i0 : DInv f d0 := by
      refine ⟨by have := hi.len; omega, ?_, ?_⟩
      · intro q hq
        rcases (hacc0 q).1 hq with rfl | h
        · omega
        · have := hi.acc q h; omega
      · intro q x hq hx
        obtain ⟨h1, h2, h3⟩ := hi.done q x (hnew q x hq hx) hx
        refine ⟨(hacc0 q).2 (Or.inr h1), fun t ht => ?_, ?_⟩
        · obtain ⟨y, hy, hy2⟩ := h2 t ht
          exact ⟨y, hold _ _ hy, hy2⟩
        · rcases h3 with h3 | ⟨t, ht, h3⟩
          · exact Or.inl h3
          · exact Or.inr ⟨t, ht, hold _ _ h3⟩
    have nd0 : ¬ d0.Done s := by
      rintro ⟨x, hx, hx0⟩
      exact hs (hi.done s x (hnew s x hx hx0) hx0).1
    have hedge : ∀ q, f.Edge s q → q ≠ s ∧ q ∉ stk := by
      intro q hq
      refine ⟨?_, ?_⟩
      · rintro rfl; exact hac q (.single hq)
      · intro hm
        exact hac s (Relation.TransGen.head' hq (hst q hm).2.2)
    have hsd : s < f.states.length := hsn
    have hg : f.getTrsR s = .ok (f.trsOf s) := by
      simp [getTrsR, trsOf, List.getElem?_eq_getElem hsd]
    -- states visited after this call started are done or on the stack
    obtain ⟨h', d', g1, g2, g3, g4, g5, g6, g7⟩ := depthTrs_spec f (f.depth n) s d0 (by
      intro q d1 hq i1 x1 hsa hsd hqa
      have hqn : q < f.numStates := by
        obtain ⟨t, ht, rfl⟩ := hq; exact hw.next_lt s t ht
      exact ih q d1 (s :: stk) i1 hqa hqn (List.nodup_cons.2 ⟨fun hm => hs (hst s hm).1, hnd⟩) (by
          intro x hx
          rcases List.mem_cons.1 hx with rfl | hx
          · exact ⟨hsa, hsn, .single hq⟩
          · exact ⟨x1.acc x ((hacc0 x).2 (Or.inr (hst x hx).1)), (hst x hx).2.1, (hst x hx).2.2.tail hq⟩) (by
          intro x hx
          rcases x1.new x hx with h | h
          · rcases (hacc0 x).1 h with rfl | h
            · right; simp
            · rcases hdone x h with ⟨y, hy, hy0⟩ | h
              · exact Or.inl ⟨y, x1.keep _ _ (hold _ _ hy) hy0, hy0⟩
              · right; simp [h]
          · exact Or.inl h) (by simp only [List.length_cons]; omega))
      (f.trsOf s) [] 0 d0 rfl i0 (DExt.refl d0) ((hacc0 s).2 (Or.inl rfl)) nd0 (by
        intro t ht hta
        obtain ⟨h1, h2⟩ := hedge t.nextstate ⟨t, ht, rfl⟩
        rcases (hacc0 _).1 hta with h | h
        · exact absurd h h1
        · rcases hdone _ h with ⟨y, hy, hy0⟩ | h
          · exact ⟨y, hold _ _ hy, hy0⟩
          · exact absurd h h2) le_rfl (by simp) (Or.inl rfl)
    have hsl : s < d'.heights.length := by have := g3.len; omega
    have hset : ∀ q, q ≠ s → (d'.heights.set s h')[q]? = d'.heights[q]? := fun q hq => by rw [List.getElem?_set_ne (Ne.symm hq)]
    have hsets : (d'.heights.set s h')[s]? = some h' := by rw [List.getElem?_set_self hsl]
    have hns : ∀ x, d'.heights[s]? = some x → ¬ 0 ≤ x := fun x hx hx0 => g4 ⟨x, hx, hx0⟩
    refine ⟨{ d' with heights := d'.heights.set s h' }, ?_, ⟨?_, ?_, ?_⟩, ⟨?_, ?_, ?_, ?_, ?_⟩, ⟨h', hsets, g5⟩⟩
    · simp only [depth, ← hd0, hg, R.andThen_ok, g1, bind, Except.bind, if_pos hsl]
    · simpa using g2.len
    · simpa using g2.acc
    · intro q x hq hx
      by_cases hqs : q = s
      · subst hqs
        simp only at hq
        rw [hsets] at hq; injection hq with hq; subst hq
        refine ⟨g3.acc q ((hacc0 q).2 (Or.inl rfl)), fun t ht => ?_, ?_⟩
        · obtain ⟨y, hy, hy2⟩ := g6 t ht
          exact ⟨y, by simp only; rw [hset _ (hedge _ ⟨t, ht, rfl⟩).1]; exact hy, hy2⟩
        · rcases g7 with g7 | ⟨t, ht, g7⟩
          · exact Or.inl g7
          · exact Or.inr ⟨t, ht, by simp only; rw [hset _ (hedge _ ⟨t, ht, rfl⟩).1]; exact g7⟩
      · simp only at hq
        rw [hset q hqs] at hq
        obtain ⟨h1, h2, h3⟩ := g2.done q x hq hx
        have hne : ∀ t ∈ f.trsOf q, t.nextstate ≠ s := by
          intro t ht hts
          obtain ⟨y, hy, hy0, -⟩ := h2 t ht
          exact hns y (hts ▸ hy) hy0
        refine ⟨h1, fun t ht => ?_, ?_⟩
        · obtain ⟨y, hy, hy2⟩ := h2 t ht
          exact ⟨y, by simp only; rw [hset _ (hne t ht)]; exact hy, hy2⟩
        · rcases h3 with h3 | ⟨t, ht, h3⟩
          · exact Or.inl h3
          · exact Or.inr ⟨t, ht, by simp only; rw [hset _ (hne t ht)]; exact h3⟩
    · exact fun q hq => g3.acc q ((hacc0 q).2 (Or.inr hq))
    · intro q x hq hx
      have h1 := g3.keep q x (hold q x hq) hx
      have hqs : q ≠ s := by rintro rfl; exact hns x h1 hx
      simp only; rw [hset q hqs]; exact h1
    · intro q hq
      by_cases hqs : q = s
      · subst hqs; exact Or.inr ⟨h', hsets, g5⟩
      · rcases g3.new q hq with h1 | ⟨x, h1, h2⟩
        · rcases (hacc0 q).1 h1 with h | h
          · exact absurd h hqs
          · exact Or.inl h
        · exact Or.inr ⟨x, by simp only; rw [hset q hqs]; exact h1, h2⟩
    · rintro q hq ⟨x, hx, hx0⟩
      have hqs : q ≠ s := by rintro rfl; exact hs hq
      simp only at hx; rw [hset q hqs] at hx
      obtain ⟨y, hy, hy0⟩ := g3.old q ((hacc0 q).2 (Or.inr hq)) ⟨x, hx, hx0⟩
      exact ⟨y, hnew q y hy hy0, hy0⟩
    · have := g3.len
      simp only [List.length_set]; omega

/-- The heights of all states of an acyclic FST. -/
structure HeightsOf (f : Fst W) (H : Nat → Nat) : Prop where
  lt : ∀ s, ∀ t ∈ f.trsOf s, H t.nextstate < H s
  pred : ∀ s, s < f.numStates → H s = 0 ∨ ∃ t ∈ f.trsOf s, H s = H t.nextstate + 1

theorem heights_ok (f : Fst W) (hw : f.WF) (hac : ∀ s, ¬ f.OnCycle s) (hu : ∀ s, s < f.numStates → f.Accessible s) {i} (hi : f.start = some i) :
    ∃ d H, f.depth (f.numStates + 1) i ⟨[], []⟩ = .ok d ∧ d.heights = (List.range f.numStates).map (fun s => (H s : Int)) ∧ HeightsOf f H := by
  obtain ⟨d, h1, h2, h3, h4⟩ := depth_spec f hw hac (f.numStates + 1) i ⟨[], []⟩ [] ⟨by simp, by simp, by simp⟩ (by simp) (hw.start_lt i hi) (by simp)
    (by simp) (by simp) (by simp)
  have hall : ∀ s, s < f.numStates → d.Done s := by
    intro s hs
    obtain ⟨i', hi', hr⟩ := hu s hs
    rw [hi] at hi'; injection hi' with hi'; subst hi'
    induction hr with
    | refl => exact h4
    | tail hr he ih =>
      obtain ⟨t, ht, rfl⟩ := he
      obtain ⟨x, hx, hx0⟩ := ih (lt_of_mem_trsOf ht)
      obtain ⟨y, hy, hy0, -⟩ := (h2.done _ x hx hx0).2.1 t ht
      exact ⟨y, hy, hy0⟩
  have hget : ∀ s, s < f.numStates → d.heights[s]? = some (((d.heights[s]?.getD 0).toNat : Nat) : Int) := by
    intro s hs
    obtain ⟨x, hx, hx0⟩ := hall s hs
    rw [hx]; simp; omega
  have hget' : ∀ s, s < f.numStates → ∀ x, d.heights[s]? = some x → x = (((d.heights[s]?.getD 0).toNat : Nat) : Int) := by
    intro s hs x hx
    have := hget s hs
    rw [hx] at this; injection this with this
    rw [hx]; exact this
  refine ⟨d, fun s => (d.heights[s]?.getD 0).toNat, h1, ?_, ?_, ?_⟩
  · apply List.ext_getElem?
    intro s
    by_cases hs : s < f.numStates
    · rw [hget s hs]; simp [hs]
    · rw [List.getElem?_eq_none (by have := h2.len; omega), List.getElem?_eq_none (by simp; omega)]
  · intro s t ht
    have hs := lt_of_mem_trsOf ht
    have hx := hget s hs
    obtain ⟨y, hy, hy0, hy1⟩ := (h2.done s _ hx (by omega)).2.1 t ht
    have := hget' _ (hw.next_lt s t ht) y hy
    omega
  · intro s hs
    have hx := hget s hs
    rcases (h2.done s _ hx (by omega)).2.2 with h5 | ⟨t, ht, h5⟩
    · left; omega
    · right
      refine ⟨t, ht, ?_⟩
      have := hget' _ (hw.next_lt s t ht) _ h5
      omega

theorem HeightsOf.reads {f : Fst W} {H} (h : HeightsOf f H) {s x q} (hr : f.Reads s x q) : x.length ≤ H s := by
  induction hr with
  | nil => simp
  | cons ht _ ih => have := h.lt _ _ ht; simp only [List.length_cons]; omega

/-- The height of a state is the length of the longest string read from it. -/
theorem HeightsOf.longest {f : Fst W} {H} (h : HeightsOf f H) (hw : f.WF) (hu : ∀ s, s < f.numStates → f.Coaccessible s) :
    ∀ (k : Nat) (s : StateId), s < f.numStates → H s = k → ∃ x ∈ f.langFrom s, x.length = k := by
  intro k
  induction k with
  | zero =>
    intro s hs hk
    obtain ⟨q, hq, hf⟩ := hu s hs
    obtain ⟨x, hx⟩ := reads_of_reach hq
    have := h.reads hx
    exact ⟨x, ⟨q, hx, hf⟩, by omega⟩
  | succ k ih =>
    intro s hs hk
    rcases h.pred s hs with h1 | ⟨t, ht, h1⟩
    · omega
    · obtain ⟨x, ⟨q, hx, hf⟩, hl⟩ := ih t.nextstate (hw.next_lt s t ht) (by omega)
      exact ⟨_, ⟨q, .cons ht hx, hf⟩, by simp [hl]⟩

theorem HeightsOf.of_lang {f : Fst W} {H} (h : HeightsOf f H) (hw : f.WF) (hu : ∀ s, s < f.numStates → f.Coaccessible s) {s s'} (hs : s < f.numStates)
    (hs' : s' < f.numStates) (hl : f.langFrom s = f.langFrom s') : H s = H s' := by
  obtain ⟨x, hx, hxl⟩ := h.longest hw hu _ s hs rfl
  obtain ⟨y, hy, hyl⟩ := h.longest hw hu _ s' hs' rfl
  rw [hl] at hx
  rw [← hl] at hy
  obtain ⟨q, hq, -⟩ := hx
  obtain ⟨r, hr, -⟩ := hy
  have h1 := h.reads hq
  have h2 := h.reads hr
  omega

theorem HeightsOf.down {f : Fst W} {H} (h : HeightsOf f H) (hw : f.WF) : ∀ (k : Nat) (s : StateId), s < f.numStates → k ≤ H s →
    ∃ q, q < f.numStates ∧ H q = k := by
  intro k s
  induction hn : H s generalizing s with
  | zero => intro hs hk; exact ⟨s, hs, by omega⟩
  | succ m ih =>
    intro hs hk
    by_cases hkm : k = m + 1
    · exact ⟨s, hs, by omega⟩
    · rcases h.pred s hs with h1 | ⟨t, ht, h1⟩
      · omega
      · exact ih t.nextstate (by omega) (hw.next_lt s t ht) (by omega)

/-- The partition by height. -/
theorem heightPartition_ok (f : Fst W) (hw : f.WF) (hac : ∀ s, ¬ f.OnCycle s) (hu : ∀ s, s < f.numStates → f.Accessible s) {i} (hi : f.start = some i) :
    ∃ p σ H M, f.heightPartition = .ok p ∧ Part.Rep p σ ∧ σ.n = f.numStates ∧ σ.nc = M + 1 ∧ (∀ e, σ.marked e = false) ∧
      (∀ e, e < f.numStates → σ.cls e = some (H e) ∧ H e ≤ M) ∧ HeightsOf f H ∧ ∀ k, k ≤ M → ∃ q, q < f.numStates ∧ H q = k := by
  obtain ⟨d, H, h1, h2, h3⟩ := heights_ok f hw hac hu hi
  have hin := hw.start_lt i hi
  obtain ⟨m, hm⟩ : ∃ m, d.heights.max? = some m := by
    cases hc : d.heights.max? with
    | some m => exact ⟨m, rfl⟩
    | none =>
      rw [List.max?_eq_none_iff, h2] at hc
      have := congrArg List.length hc
      simp at this; omega
  obtain ⟨hm1, hm2⟩ := List.max?_eq_some_iff.1 hm
  rw [h2] at hm1 hm2
  obtain ⟨e0, he0, rfl⟩ := List.mem_map.1 hm1
  rw [List.mem_range] at he0
  have hM : ∀ e, e < f.numStates → H e ≤ H e0 := by
    intro e he
    have := hm2 (H e : Int) (List.mem_map.2 ⟨e, List.mem_range.2 he, rfl⟩)
    omega
  obtain ⟨cl, hcl⟩ : ∃ cl, cl = (List.range f.numStates).map H := ⟨_, rfl⟩
  have hh : d.heights = cl.map (fun x : Nat => (x : Int)) := by rw [h2, hcl, List.map_map]; rfl
  have hlen : cl.length = f.numStates := by simp [hcl]
  have hfold : ∀ (l : List Nat) (k : Nat) (p : Part), ((l.map (fun x : Nat => (x : Int))).zipIdx k).foldlM addHeight p =
      (l.zipIdx k).foldlM (fun p (x : Nat × Nat) => p.add x.2 x.1) p := by
    intro l
    induction l with
    | nil => intro k p; rfl
    | cons x l ih =>
      intro k p
      simp only [List.map_cons, List.zipIdx_cons, List.foldlM_cons]
      have : addHeight p ((x : Int), k) = p.add k x := by simp [addHeight]
      rw [this]
      congr 1
      funext p'
      exact ih _ _
  obtain ⟨p, σ, g1, g2, g3, g4, g5, g6⟩ := addAll_rep cl (H e0 + 1) (by
      intro c hc
      rw [hcl] at hc
      obtain ⟨e, he, rfl⟩ := List.mem_map.1 hc
      have := hM e (List.mem_range.1 he); omega) cl 0 ((Part.new cl.length).allocateClasses (H e0 + 1)) _ (Part.rep_allocate (Part.rep_new cl.length) _)
    (by simp [PState.new]) (by simp [PState.new]) rfl (by intro e; simp [PState.new]) (fun _ => rfl)
  refine ⟨p, σ, H, H e0, ?_, g2, by rw [g4, hlen], g3, g6, ?_, h3, fun k hk => h3.down hw k e0 he0 hk⟩
  · simp only [heightPartition, hi, h1, bind, Except.bind, hm]
    rw [hh, hfold, List.length_map]
    exact g1
  · intro e he
    refine ⟨?_, hM e he⟩
    rw [g5, hcl]; simp [he]

end Fst
end Verif
