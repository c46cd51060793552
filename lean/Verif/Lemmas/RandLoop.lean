import Verif.Lemmas.RandTree
import Verif.Lemmas.Wf

/-!
# Random paths: `compute` builds the tree of samples
-/

namespace Verif
universe u v w
variable {W : Type u} [Zero W] [One W] [DecidableEq W]

/-- What is known about a state that has been expanded. -/
structure NodeAt (f : Fst W) (cfg : RandCfg) (neglog : ℚ → W) (table : List RandState) (sf : Option StateId) (out : Fst W) (s : StateId) (nd : Node W)
    (r : RandState) : Prop where
  ne : sf ≠ some s
  entry : table[s]? = some r
  drawn : Drawn f cfg.maxLength r nd
  kids : ∀ i a, nd.kids[i]? = some a → table[nd.base + i]? = some (kidState r a)
  has : cfg.weighted = true ∨ nd.stop = 0 ∨ sf.isSome
  trs : out.trsOf s = nd.trs cfg neglog r sf
  fin : out.finOf s = nd.fin cfg neglog r

/-- The tree after the expansion of the first states. -/
structure STree (f : Fst W) (s0 : StateId) (cfg : RandCfg) (neglog : ℚ → W) (table : List RandState) (sf : Option StateId) (nodes : List (Node W))
    (out : Fst W) : Prop where
  le : nodes.length ≤ table.length
  root : table[0]? = some ⟨s0, cfg.npath, 0⟩
  sf0 : sf ≠ some 0
  num : out.numStates = table.length
  start : out.start = some 0
  later : ∀ s, nodes.length ≤ s → out.trsOf s = [] ∧ out.finOf s = none
  sfIn : ∀ x, sf = some x → table[x]? = some ⟨NO_STATE_ID, 0, 0⟩ ∧ cfg.weighted = false
  entry : ∀ i r, table[i]? = some r → sf ≠ some i → r.length ≤ cfg.maxLength ∧ f.In s0 r.length r.stateId
  base : ∀ (s : Nat) (nd : Node W), nodes[s]? = some nd → s < nd.base ∧ nd.base + nd.kids.length ≤ table.length ∧
    (∀ x, sf = some x → x < nd.base ∨ nd.base + nd.kids.length ≤ x)
  done : ∀ (s : Nat) (nd : Node W), nodes[s]? = some nd →
    (sf = some s ∧ nd.kids = [] ∧ nd.stop = 0 ∧ out.trsOf s = [] ∧ out.finOf s = some 1) ∨ ∃ r, NodeAt f cfg neglog table sf out s nd r
  order : ∀ (s s' : Nat) (nd nd' : Node W), s < s' → nodes[s]? = some nd → nodes[s']? = some nd' → nd.base + nd.kids.length ≤ nd'.base
  cover : ∀ i, 0 < i → i < table.length → (sf = some i ∧ ∃ (s : Nat) (nd : Node W), nodes[s]? = some nd ∧ 0 < nd.stop) ∨
    ∃ (s : Nat) (nd : Node W), nodes[s]? = some nd ∧ nd.base ≤ i ∧ i < nd.base + nd.kids.length

omit [One W] [DecidableEq W] in
theorem Fst.In.lt {f : Fst W} (hw : f.WF) {s0 : StateId} (h0 : s0 < f.numStates) {k q} (h : f.In s0 k q) : q < f.numStates := by
  cases h with
  | zero => exact h0
  | succ _ ht => exact hw.next_lt _ _ ht

omit [Zero W] [DecidableEq W] in
theorem Node.trs_congr (cfg : RandCfg) (neglog : ℚ → W) (r : RandState) {sf sf' : Option StateId} (nd : Node W)
    (h : cfg.weighted = true ∨ nd.stop = 0 ∨ sf = sf') : nd.trs cfg neglog r sf = nd.trs cfg neglog r sf' := by
  unfold Node.trs
  rcases h with h | h | h
  · rw [if_pos h, if_pos h]
  · rw [h]; rfl
  · rw [h]

theorem get_append_left {α : Type u} {l m : List α} {i : Nat} {a : α} (h : l[i]? = some a) : (l ++ m)[i]? = some a := by
  rw [List.getElem?_append_left (List.getElem?_eq_some_iff.1 h).1, h]

theorem get_snoc {α : Type u} {l : List α} {b : α} {i : Nat} {a : α} (h : (l ++ [b])[i]? = some a) : l[i]? = some a ∨ (i = l.length ∧ a = b) := by
  by_cases hi : i < l.length
  · left; rwa [List.getElem?_append_left hi] at h
  · right
    rw [List.getElem?_append_right (by omega)] at h
    have h1 : i - l.length = 0 := by
      by_contra h2
      rw [List.getElem?_eq_none (by simp; omega)] at h
      cases h
    rw [h1] at h
    exact ⟨by omega, by simpa using h.symm⟩

/-- The superfinal state is expanded. -/
theorem STree.superfinal {f : Fst W} {s0 : StateId} {cfg : RandCfg} {neglog : ℚ → W} {table : List RandState} {sf : Option StateId} {nodes : List (Node W)}
    {out : Fst W} (T : STree f s0 cfg neglog table sf nodes out) (hk : nodes.length < table.length) (hsf : sf = some nodes.length) :
    STree f s0 cfg neglog table sf (nodes ++ [⟨[], 0, table.length⟩]) (out.setFinal nodes.length 1) where
  le := by simp; omega
  root := T.root
  sf0 := T.sf0
  num := by simp [T.num]
  start := by simp [T.start]
  later s hs := by
    simp only [List.length_append, List.length_singleton] at hs
    rw [Fst.setFinal_trsOf, Fst.setFinal_finOf, if_neg (by omega)]
    exact T.later s (by omega)
  sfIn := T.sfIn
  entry := T.entry
  base s nd h := by
    rcases get_snoc h with h | ⟨rfl, rfl⟩
    · exact T.base s nd h
    · refine ⟨hk, by simp, fun x hx => Or.inl ?_⟩
      rw [hsf] at hx; cases hx; exact hk
  done s nd h := by
    rcases get_snoc h with h | ⟨rfl, rfl⟩
    · have hl := (List.getElem?_eq_some_iff.1 h).1
      rcases T.done s nd h with ⟨h1, _⟩ | ⟨r, h1⟩
      · rw [hsf] at h1; cases h1; omega
      · refine Or.inr ⟨r, h1.ne, h1.entry, h1.drawn, h1.kids, h1.has, by rw [Fst.setFinal_trsOf]; exact h1.trs, ?_⟩
        rw [Fst.setFinal_finOf, if_neg (by omega)]; exact h1.fin
    · refine Or.inl ⟨hsf, rfl, rfl, ?_, ?_⟩
      · rw [Fst.setFinal_trsOf]; exact (T.later _ le_rfl).1
      · rw [Fst.setFinal_finOf, if_pos ⟨rfl, by rw [T.num]; exact hk⟩]
  order s s' nd nd' hss h h' := by
    rcases get_snoc h' with h' | ⟨rfl, rfl⟩
    · rcases get_snoc h with h | ⟨rfl, rfl⟩
      · exact T.order s s' nd nd' hss h h'
      · have := (List.getElem?_eq_some_iff.1 h').1; omega
    · rcases get_snoc h with h | ⟨rfl, rfl⟩
      · exact (T.base s nd h).2.1
      · exact absurd hss (lt_irrefl _)
  cover i hi hl := by
    rcases T.cover i hi hl with ⟨h, s, nd, h1, h2⟩ | ⟨s, nd, h1, h2⟩
    · exact Or.inl ⟨h, s, nd, get_append_left h1, h2⟩
    · exact Or.inr ⟨s, nd, get_append_left h1, h2⟩

/-- Another state is expanded. -/
theorem STree.expand {f : Fst W} {s0 : StateId} {cfg : RandCfg} {neglog : ℚ → W} {table : List RandState} {sf : Option StateId} {nodes : List (Node W)}
    {out : Fst W} (T : STree f s0 cfg neglog table sf nodes out) {r : RandState} (hr : table[nodes.length]? = some r) (hsf : sf ≠ some nodes.length)
    {nd : Node W} (hb : nd.base = table.length) (hd : Drawn f cfg.maxLength r nd) {extra : List RandState} {sf' : Option StateId}
    (hx : (extra = [] ∧ sf' = sf ∧ (cfg.weighted = true ∨ nd.stop = 0 ∨ sf.isSome)) ∨
      (extra = [⟨NO_STATE_ID, 0, 0⟩] ∧ sf = none ∧ sf' = some (table.length + nd.kids.length) ∧ cfg.weighted = false ∧ 0 < nd.stop)) {out' : Fst W}
    (hnum : out'.numStates = (table ++ nd.kids.map (kidState r) ++ extra).length) (hst : out'.start = out.start)
    (htr : ∀ x, out'.trsOf x = if x = nodes.length then nd.trs cfg neglog r sf' else out.trsOf x)
    (hfin : ∀ x, out'.finOf x = if x = nodes.length then nd.fin cfg neglog r else out.finOf x) :
    STree f s0 cfg neglog (table ++ nd.kids.map (kidState r) ++ extra) sf' (nodes ++ [nd]) out' := by
  have hk : nodes.length < table.length := (List.getElem?_eq_some_iff.1 hr).1
  have hpre : ∀ {i : Nat} {a : RandState}, table[i]? = some a → (table ++ nd.kids.map (kidState r) ++ extra)[i]? = some a := fun h =>
    get_append_left (get_append_left h)
  have hsf' : ∀ x, sf' = some x → sf = some x ∨ (x = table.length + nd.kids.length ∧ extra = [⟨NO_STATE_ID, 0, 0⟩] ∧ cfg.weighted = false ∧ 0 < nd.stop) := by
    intro x h
    rcases hx with ⟨_, h1, _⟩ | ⟨h0, _, h1, h2, h3⟩
    · exact Or.inl (by rw [← h1]; exact h)
    · rw [h1] at h; cases h; exact Or.inr ⟨rfl, h0, h2, h3⟩
  have hkeep : ∀ x, sf = some x → sf' = some x := by
    intro x h
    rcases hx with ⟨_, h1, _⟩ | ⟨_, h1, _⟩
    · rw [h1]; exact h
    · rw [h1] at h; cases h
  have hkid : ∀ i a, nd.kids[i]? = some a → (table ++ nd.kids.map (kidState r) ++ extra)[nd.base + i]? = some (kidState r a) := by
    intro i a h
    refine get_append_left ?_
    rw [hb, List.getElem?_append_right (by omega), show table.length + i - table.length = i by omega, List.getElem?_map, h]
    rfl
  have hsome : cfg.weighted = true ∨ nd.stop = 0 ∨ sf'.isSome := by
    rcases hx with ⟨_, h1, h2⟩ | ⟨_, _, h1, _⟩
    · rw [h1]; exact h2
    · exact Or.inr (Or.inr (by rw [h1]; rfl))
  refine ⟨?_, hpre T.root, ?_, hnum, by rw [hst, T.start], ?_, ?_, ?_, ?_, ?_, ?_, ?_⟩
  · simp only [List.length_append, List.length_singleton]; omega
  · intro h
    rcases hsf' 0 h with h | ⟨h, _⟩
    · exact T.sf0 h
    · omega
  · intro s hs
    simp only [List.length_append, List.length_singleton] at hs
    rw [htr, hfin, if_neg (by omega), if_neg (by omega)]
    exact T.later s (by omega)
  · intro x h
    rcases hsf' x h with h | ⟨rfl, h1, h2, _⟩
    · exact ⟨hpre (T.sfIn x h).1, (T.sfIn x h).2⟩
    · refine ⟨?_, h2⟩
      rw [h1, List.getElem?_append_right (by simp)]
      simp
  · intro i e he hi
    by_cases h1 : i < table.length
    · rw [List.append_assoc, List.getElem?_append_left h1] at he
      exact T.entry i e he (fun h => hi (hkeep i h))
    · rw [List.append_assoc, List.getElem?_append_right (by omega)] at he
      by_cases h2 : i - table.length < nd.kids.length
      · rw [List.getElem?_append_left (by simpa using h2), List.getElem?_map] at he
        obtain ⟨a, ha, rfl⟩ := Option.map_eq_some_iff.1 he
        have hm := List.mem_of_getElem? ha
        have hne : r.length ≠ cfg.maxLength := by
          rcases hd.total with h | ⟨h, _⟩
          · exact h.1
          · rw [h] at hm; cases hm
        obtain ⟨hl, hin⟩ := T.entry _ r hr hsf
        refine ⟨?_, ?_⟩
        · show r.length + 1 ≤ cfg.maxLength; omega
        · exact hin.succ (List.mem_of_getElem? (hd.tr a hm))
      · rw [List.getElem?_append_right (by simpa using h2)] at he
        rcases hx with ⟨h0, _⟩ | ⟨h0, _, h4, _⟩
        · rw [h0] at he; simp at he
        · exfalso
          apply hi
          rw [h0] at he
          have := (List.getElem?_eq_some_iff.1 he).1
          simp only [List.length_map, List.length_singleton] at this
          rw [h4]
          congr 1
          omega
  · intro s n h
    rcases get_snoc h with h | ⟨rfl, rfl⟩
    · obtain ⟨h1, h2, h3⟩ := T.base s n h
      refine ⟨h1, by simp only [List.length_append]; omega, fun x hx' => ?_⟩
      rcases hsf' x hx' with h4 | ⟨rfl, _⟩
      · exact h3 x h4
      · exact Or.inr (by omega)
    · refine ⟨by omega, by simp only [List.length_append, List.length_map]; omega, fun x hx' => ?_⟩
      rcases hsf' x hx' with h4 | ⟨rfl, _⟩
      · have := (List.getElem?_eq_some_iff.1 (T.sfIn x h4).1).1
        exact Or.inl (by omega)
      · exact Or.inr (by omega)
  · intro s n h
    rcases get_snoc h with h | ⟨rfl, rfl⟩
    · have hl := (List.getElem?_eq_some_iff.1 h).1
      rcases T.done s n h with ⟨h1, h2, h3, h4, h5⟩ | ⟨r', h1⟩
      · refine Or.inl ⟨hkeep _ h1, h2, h3, ?_, ?_⟩
        · rw [htr, if_neg (by omega)]; exact h4
        · rw [hfin, if_neg (by omega)]; exact h5
      · refine Or.inr ⟨r', ?_, hpre h1.entry, h1.drawn, fun i a ha => hpre (h1.kids i a ha), ?_, ?_, ?_⟩
        · intro h2
          rcases hsf' s h2 with h3 | ⟨h3, _⟩
          · exact h1.ne h3
          · omega
        · rcases h1.has with h2 | h2 | h2
          · exact Or.inl h2
          · exact Or.inr (Or.inl h2)
          · obtain ⟨x, hx2⟩ := Option.isSome_iff_exists.1 h2
            exact Or.inr (Or.inr (by rw [hkeep x hx2]; rfl))
        · rw [htr, if_neg (by omega), h1.trs]
          refine Node.trs_congr _ _ _ _ ?_
          rcases h1.has with h2 | h2 | h2
          · exact Or.inl h2
          · exact Or.inr (Or.inl h2)
          · obtain ⟨x, hx2⟩ := Option.isSome_iff_exists.1 h2
            exact Or.inr (Or.inr (by rw [hkeep x hx2, hx2]))
        · rw [hfin, if_neg (by omega), h1.fin]
    · refine Or.inr ⟨r, ?_, hpre hr, hd, hkid, hsome, ?_, ?_⟩
      · intro h2
        rcases hsf' _ h2 with h3 | ⟨h3, _⟩
        · exact hsf h3
        · omega
      · rw [htr, if_pos rfl]
      · rw [hfin, if_pos rfl]
  · intro s s' n n' hss h h'
    rcases get_snoc h' with h2 | ⟨rfl, rfl⟩
    · have h3 := (List.getElem?_eq_some_iff.1 h2).1
      rcases get_snoc h with h | ⟨h, _⟩
      · exact T.order s s' n n' hss h h2
      · omega
    · rcases get_snoc h with h | ⟨rfl, rfl⟩
      · rw [hb]; exact (T.base s n h).2.1
      · exact absurd hss (lt_irrefl _)
  · intro i hi hl
    by_cases h1 : i < table.length
    · rcases T.cover i hi h1 with ⟨h, s, n, h1, h2⟩ | ⟨s, n, h1, h2⟩
      · exact Or.inl ⟨hkeep _ h, s, n, get_append_left h1, h2⟩
      · exact Or.inr ⟨s, n, get_append_left h1, h2⟩
    · by_cases h2 : i < table.length + nd.kids.length
      · exact Or.inr ⟨nodes.length, nd, by simp, by omega, by omega⟩
      · rcases hx with ⟨h0, _⟩ | ⟨h0, _, h4, _, h5⟩
        · rw [h0] at hl; simp at hl; omega
        · rw [h0] at hl; simp at hl
          exact Or.inl ⟨by rw [h4]; congr 1; omega, nodes.length, nd, by simp, h5⟩

/-! ### The measure of the loop -/

/-- Work that a random state can still cause. -/
def pot (len : Nat) (r : RandState) : Nat := r.nsamples * (len - r.length) + 1

omit [Zero W] [One W] [DecidableEq W] in
theorem kids_pot {len : Nat} {r : RandState} (h : r.length < len) (kids : List (Kid W)) (hp : ∀ a ∈ kids, 0 < a.count) :
    ((kids.map (kidState r)).map (pot len)).sum ≤ (kids.map (·.count)).sum * (len - r.length) := by
  induction kids with
  | nil => simp
  | cons a kids ih =>
    have h1 := ih (fun b hb => hp b (List.mem_cons_of_mem _ hb))
    have h2 := hp a List.mem_cons_self
    simp only [List.map_cons, List.sum_cons, Nat.add_mul]
    have h3 : pot len (kidState r a) ≤ a.count * (len - r.length) := by
      show a.count * (len - (r.length + 1)) + 1 ≤ _
      obtain ⟨d, hd⟩ : ∃ d, len - r.length = d + 1 := ⟨len - r.length - 1, by omega⟩
      rw [show len - (r.length + 1) = d by omega, hd, Nat.mul_succ]
      omega
    omega

omit [One W] [DecidableEq W] in
theorem drawn_pot {f : Fst W} {len : Nat} {r : RandState} {nd : Node W} (hd : Drawn f len r nd) (hl : r.length ≤ len) :
    ((nd.kids.map (kidState r)).map (pot len)).sum < pot len r ∧
      (0 < nd.stop → ((nd.kids.map (kidState r)).map (pot len)).sum + 1 < pot len r) := by
  rcases hd.total with ⟨h1, h2⟩ | ⟨h1, h2, _⟩
  · have h3 := kids_pot (len := len) (r := r) (by omega) nd.kids hd.pos
    obtain ⟨d, hd⟩ : ∃ d, len - r.length = d + 1 := ⟨len - r.length - 1, by omega⟩
    have h4 : pot len r = (nd.kids.map (·.count)).sum * (len - r.length) + nd.stop * (len - r.length) + 1 := by
      unfold pot; rw [← h2, Nat.add_mul]
    refine ⟨by omega, fun hs => ?_⟩
    have : nd.stop ≤ nd.stop * (len - r.length) := Nat.le_mul_of_pos_right _ (by omega)
    omega
  · rw [h1, h2]
    exact ⟨by simp [pot], fun h => by omega⟩

/-! ### The loop -/

variable {C : Type v} {σ : Type w} {K : CacheOps W C} {inv : C → Prop}

theorem putFinal_trsOf (out : Fst W) (s : StateId) (w : Option W) (q : StateId) : (Lz.putFinal out s w).trsOf q = out.trsOf q := by
  cases w <;> simp [Lz.putFinal]

theorem putFinal_finOf (out : Fst W) (s : StateId) (w : Option W) (hs : s < out.numStates) (h0 : out.finOf s = none) (q : StateId) :
    (Lz.putFinal out s w).finOf q = if q = s then w else out.finOf q := by
  cases w with
  | none => simp only [Lz.putFinal]; split <;> simp_all
  | some w => simp only [Lz.putFinal, Fst.setFinal_finOf, hs, and_true]

theorem putFinal_num (out : Fst W) (s : StateId) (w : Option W) : (Lz.putFinal out s w).numStates = out.numStates := by
  cases w <;> simp [Lz.putFinal]

theorem putFinal_start (out : Fst W) (s : StateId) (w : Option W) : (Lz.putFinal out s w).start = out.start := by
  cases w <;> simp [Lz.putFinal]

/-- A state that is not in the cache is computed once. -/
theorem turn2 (L : CacheLaw K inv) (O : LazyOp2 σ W) {z : Lz C σ} (hi : inv z.cache) {s : StateId} (hn : K.getTrs z.cache s = none)
    {l : List (Tr W)} {w : Option W} {o : σ} (he : O.computeTrsFinal s z.op = (.ok (l, w), o)) :
    ∃ c, inv c ∧ (∀ q, q ≠ s → K.getTrs c q = K.getTrs z.cache q) ∧ z.getTrs2 K O s = (.ok l, ⟨c, o⟩) ∧
      Lz.finalWeight2 K O ⟨c, o⟩ s = (.ok w, ⟨c, o⟩) := by
  refine ⟨K.insertFinal (K.insertTrs z.cache s l) s w, L.inv_fin _ _ _ (L.inv_trs _ _ _ hi), fun q hq => ?_, ?_, ?_⟩
  · rw [L.trs_fin _ _ _ _ (L.inv_trs _ _ _ hi), L.trs_trs _ _ _ _ hi, if_neg hq]
  · unfold Lz.getTrs2; rw [hn]; simp only; rw [he]
  · unfold Lz.finalWeight2; simp only [L.fin_fin _ _ _ _ (L.inv_trs _ _ _ hi), if_true]

theorem randLoop_ok (L : CacheLaw K inv) {f : Fst W} (hw : f.WF) {s0 : StateId} (h0 : s0 < f.numStates) {sel : Selector σ} (hl : Legal f sel)
    (cfg : RandCfg) (neglog : ℚ → W) (Φ : Nat) :
    ∀ (nodes : List (Node W)) (q vis : List StateId) (out : Fst W) (z : Lz C (RandOp σ)),
      STree f s0 cfg neglog z.op.table z.op.superfinal nodes out → inv z.cache → (∀ s, nodes.length ≤ s → K.getTrs z.cache s = none) →
      q = List.range' nodes.length (z.op.table.length - nodes.length) → (∀ x, x ∈ vis ↔ x < z.op.table.length) →
      ((z.op.table.drop nodes.length).map (pot cfg.maxLength)).sum ≤ Φ →
      ∃ out' nodes' z', STree f s0 cfg neglog z'.op.table z'.op.superfinal nodes' out' ∧ nodes'.length = z'.op.table.length ∧
        ∀ n, Φ < n → Lz.computeLoop2 K (randOp f sel cfg neglog) n q vis out z = some (.ok out', z') := by
  induction Φ using Nat.strong_induction_on with
  | _ Φ ih =>
    intro nodes q vis out z T hi hc hq hv hΦ
    by_cases hlen : nodes.length = z.op.table.length
    · refine ⟨out, nodes, z, T, hlen, fun n hn => ?_⟩
      obtain ⟨n, rfl⟩ : ∃ m, n = m + 1 := ⟨n - 1, by omega⟩
      rw [hq, hlen, Nat.sub_self]
      rfl
    · have hk : nodes.length < z.op.table.length := lt_of_le_of_ne T.le hlen
      obtain ⟨r, hr⟩ : ∃ r, z.op.table[nodes.length]? = some r := ⟨_, List.getElem?_eq_getElem hk⟩
      have hdrop : z.op.table.drop nodes.length = r :: z.op.table.drop (nodes.length + 1) := by
        rw [List.drop_eq_getElem_cons hk]
        congr 1
        rw [List.getElem?_eq_getElem hk] at hr
        exact Option.some.inj hr
      have hq' : q = nodes.length :: List.range' (nodes.length + 1) (z.op.table.length - (nodes.length + 1)) := by
        rw [hq, show z.op.table.length - nodes.length = (z.op.table.length - (nodes.length + 1)) + 1 by omega, List.range'_succ]
      rw [hdrop, List.map_cons, List.sum_cons] at hΦ
      have hpos : 0 < pot cfg.maxLength r := Nat.succ_pos _
      -- one turn, for any result of the computation
      have hturn : ∀ (l : List (Tr W)) (w : Option W) (g : σ) (extra : List RandState) (sf' : Option StateId) (nd : Node W),
          (randOp f sel cfg neglog).computeTrsFinal nodes.length z.op = (.ok (l, w), ⟨g, z.op.table ++ extra, sf'⟩) →
          Fresh z.op.table.length l (z.op.table ++ extra).length → (extra.map (pot cfg.maxLength)).sum < pot cfg.maxLength r →
          (∀ out', out'.numStates = (z.op.table ++ extra).length → out'.start = out.start →
            (∀ x, out'.trsOf x = if x = nodes.length then l else out.trsOf x) →
            (∀ x, out'.finOf x = if x = nodes.length then w else out.finOf x) →
            STree f s0 cfg neglog (z.op.table ++ extra) sf' (nodes ++ [nd]) out') →
          ∃ out' nodes' z', STree f s0 cfg neglog z'.op.table z'.op.superfinal nodes' out' ∧ nodes'.length = z'.op.table.length ∧
            ∀ n, Φ < n → Lz.computeLoop2 K (randOp f sel cfg neglog) n q vis out z = some (.ok out', z') := by
        intro l w g extra sf' nd he hfr hpot hT
        obtain ⟨c, hci, hcq, e1, e2⟩ := turn2 L (randOp f sel cfg neglog) hi (hc _ le_rfl) he
        obtain ⟨vis', out1, e3, hv', hn', hs', hf', ht'⟩ := scan2_ok nodes.length (nodes.length + 1) l _ _ _ vis out hfr hk
          (by omega) rfl hv T.num
        have hT' := hT (Lz.putFinal out1 nodes.length w) (by rw [putFinal_num, hn']) (by rw [putFinal_start, hs'])
          (fun x => by
            rw [putFinal_trsOf, ht', (T.later _ le_rfl).1, List.nil_append])
          (fun x => by
            rw [putFinal_finOf _ _ _ (by rw [hn']; simp; omega) (by rw [hf']; exact (T.later _ le_rfl).2), hf'])
        have hlt : (((z.op.table ++ extra).drop (nodes.length + 1)).map (pot cfg.maxLength)).sum < Φ := by
          rw [List.drop_append_of_le_length (by omega), List.map_append, List.sum_append]
          omega
        obtain ⟨out', nodes', z', hT2, hlen2, hrun⟩ := ih _ hlt (nodes ++ [nd]) _ vis' _ ⟨c, ⟨g, z.op.table ++ extra, sf'⟩⟩ hT' hci
          (fun s hs => by
            simp only [List.length_append, List.length_singleton] at hs
            rw [hcq s (by omega)]
            exact hc s (by omega))
          (by rw [List.length_append, List.length_singleton]) hv' (by rw [List.length_append, List.length_singleton])
        refine ⟨out', nodes', z', hT2, hlen2, fun n hn => ?_⟩
        obtain ⟨n, rfl⟩ : ∃ m, n = m + 1 := ⟨n - 1, by omega⟩
        rw [hq', Lz.computeLoop2, e1]
        simp only
        rw [e3]
        simp only
        rw [e2]
        exact hrun n (by omega)
      by_cases hsf : z.op.superfinal = some nodes.length
      · refine hturn [] (some 1) z.op.gen [] z.op.superfinal ⟨[], 0, z.op.table.length⟩ ?_ ?_ hpos ?_
        · show randTrsFinal f sel cfg neglog _ _ = _
          unfold randTrsFinal
          rw [if_pos hsf, List.append_nil]
        · simp [Fresh]
        · intro out' h1 h2 h3 h4
          have T' := T.superfinal hk hsf
          rw [List.append_nil] at *
          exact ⟨T'.le, T'.root, T'.sf0, h1, by rw [h2, T.start], (fun s hs => by
            simp only [List.length_append, List.length_singleton] at hs
            rw [h3, h4, if_neg (by omega), if_neg (by omega)]
            exact T.later s (by omega)), T'.sfIn, T'.entry, T'.base, (fun s nd h => by
              rcases T'.done s nd h with ⟨a1, a2, a3, a4, a5⟩ | ⟨r, a⟩
              · rw [hsf] at a1
                cases a1
                exact Or.inl ⟨hsf, a2, a3, by rw [h3, if_pos rfl], by rw [h4, if_pos rfl]⟩
              · have hne : s ≠ nodes.length := fun e => a.ne (by rw [e]; exact hsf)
                refine Or.inr ⟨r, a.ne, a.entry, a.drawn, a.kids, a.has, ?_, ?_⟩
                · rw [h3, if_neg hne, ← a.trs, Fst.setFinal_trsOf]
                · rw [h4, if_neg hne, ← a.fin, Fst.setFinal_finOf, if_neg (fun e => hne e.1)]), T'.order, T'.cover⟩
      · obtain ⟨hrl, hrin⟩ := T.entry _ r hr hsf
        obtain ⟨nd, g, hb, hd, hcase⟩ := randTrsFinal_ok hl cfg neglog hr hsf (hrin.lt hw h0)
        have hpd := drawn_pot hd hrl
        rcases hcase with ⟨h1, e⟩ | ⟨⟨h1, h2, h3⟩, e⟩
        · refine hturn _ _ g (nd.kids.map (kidState r)) _ nd e ?_ hpd.1 ?_
          · unfold Node.trs
            rw [hb, List.length_append, List.length_map]
            refine Fresh.append ?_ _ _ (fresh_kids cfg neglog r nd.kids _)
            by_cases hwt : cfg.weighted = true
            · rw [if_pos hwt]; rfl
            · rw [if_neg hwt]
              rcases h1 with h1 | h1 | h1
              · exact absurd h1 hwt
              · rw [h1]; rfl
              · obtain ⟨x, hx⟩ := Option.isSome_iff_exists.1 h1
                have := (List.getElem?_eq_some_iff.1 (T.sfIn x hx).1).1
                refine fresh_old ?_ _
                rw [hx]
                show x < _
                omega
          · intro out' a1 a2 a3 a4
            have := T.expand hr hsf hb hd (extra := []) (sf' := z.op.superfinal) (Or.inl ⟨rfl, rfl, h1⟩) (out' := out') (by rw [List.append_nil]; exact a1) a2 a3 a4
            rwa [List.append_nil] at this
        · rw [List.append_assoc] at e
          refine hturn _ _ g (nd.kids.map (kidState r) ++ [(⟨NO_STATE_ID, 0, 0⟩ : RandState)]) _ nd e ?_ ?_ ?_
          · unfold Node.trs
            rw [hb, List.length_append, List.length_append, List.length_map, ← Nat.add_assoc, List.length_singleton]
            refine Fresh.append ?_ _ _ (fresh_kids cfg neglog r nd.kids _)
            rw [if_neg (by rw [h1]; simp)]
            refine fresh_new ?_ h2
            rfl
          · rw [List.map_append, List.sum_append]
            have := hpd.2 h2
            simpa [pot] using this
          · intro out' a1 a2 a3 a4
            have := T.expand hr hsf hb hd (extra := [⟨NO_STATE_ID, 0, 0⟩]) (sf' := some (z.op.table.length + nd.kids.length))
              (Or.inr ⟨rfl, h3, rfl, h1, h2⟩) (out' := out') (by rw [List.append_assoc]; exact a1) a2 a3 a4
            rwa [List.append_assoc] at this

/-- `compute` ends, and its result is a tree of samples. -/
theorem randTree_ok {f : Fst W} (hw : f.WF) {s0 : StateId} (h0 : f.start = some s0) {sel : Selector σ} (hl : Legal f sel) (g : σ)
    (cfg : RandCfg) (neglog : ℚ → W) : ∃ out table sf nodes, STree f s0 cfg neglog table sf nodes out ∧ nodes.length = table.length ∧
      ∃ N, ∀ n, N < n → randTree f sel g cfg neglog n = some (.ok (out.setProps (randProps f.props cfg.weighted))) := by
  have hs0 : s0 < f.numStates := hw.start_lt s0 h0
  have hT : STree f s0 cfg neglog [⟨s0, cfg.npath, 0⟩] none [] ((Fst.new.addStates (0 + 1)).setStart 0) := by
    refine ⟨by simp, rfl, by simp, by simp, by simp, (fun s _ => by simp), (fun x h => by cases h), ?_, (fun s nd h => by simp at h), (fun s nd h => by simp at h),
      (fun s s' nd nd' _ h _ => by simp at h), (fun i h1 h2 => by simp at h2; omega)⟩
    intro i r h _
    have hi : i = 0 := by
      have := (List.getElem?_eq_some_iff.1 h).1
      simpa using this
    subst hi
    simp only [List.length_singleton, List.getElem?_cons_zero, Option.some.injEq] at h
    subst h
    exact ⟨Nat.zero_le _, .zero⟩
  have hc : ∀ s, mapCache.getTrs ((mapCache (W := W)).insertStart mapCache.empty (some 0)) s = none := fun s => by
    rw [mapCache_law.trs_start _ _ _ mapCache_law.inv_empty, mapCache_law.trs_empty]
  obtain ⟨out, nodes, z, T, hlen, hrun⟩ := randLoop_ok (mapCache_law (W := W)) hw hs0 hl cfg neglog _ [] [0] [0]
    ((Fst.new.addStates (0 + 1)).setStart 0) ⟨mapCache.insertStart mapCache.empty (some 0), ⟨g, [⟨s0, cfg.npath, 0⟩], none⟩⟩ hT
    (mapCache_law.inv_start _ _ mapCache_law.inv_empty) (fun s _ => hc s) rfl (fun x => by simp) le_rfl
  refine ⟨out, z.op.table, z.op.superfinal, nodes, T, hlen, ?_⟩
  refine ⟨((([⟨s0, cfg.npath, 0⟩] : List RandState).drop 0).map (pot cfg.maxLength)).sum, fun n hn => ?_⟩
  have h1 : Lz.start2 mapCache (randOp f sel cfg neglog) ⟨mapCache.empty, ⟨g, [], none⟩⟩ =
      (.ok (some 0), ⟨mapCache.insertStart mapCache.empty (some 0), ⟨g, [⟨s0, cfg.npath, 0⟩], none⟩⟩) := by
    unfold Lz.start2
    rw [show mapCache.getStart (⟨mapCache.empty, ⟨g, [], none⟩⟩ : Lz (MapCache W) (RandOp σ)).cache = none from mapCache_law.start_empty]
    simp only [randOp, h0]
    rfl
  unfold randTree Lz.compute2
  rw [h1]
  simp only
  rw [hrun n hn]
  rfl

end Verif
