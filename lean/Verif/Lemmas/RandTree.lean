import Verif.Lemmas.RandSample
import Verif.Lemmas.Caches

/-!
# Random paths: the tree of samples
-/

namespace Verif
universe u v
variable {W : Type u}

/-! ### One state -/

/-- A transition drawn at a state. -/
structure Kid (W : Type u) where
  pos : Nat
  count : Nat
  tr : Tr W

/-- What was drawn at a state: transitions, and `stop` times the end. The new states are numbered from `base` on. -/
structure Node (W : Type u) where
  kids : List (Kid W)
  stop : Nat
  base : Nat

/-- What is drawn at the random state `r`. -/
structure Drawn [Zero W] (f : Fst W) (len : Nat) (r : RandState) (nd : Node W) : Prop where
  sorted : nd.kids.Pairwise (fun a b => a.pos < b.pos)
  pos : ∀ a ∈ nd.kids, 0 < a.count
  tr : ∀ a ∈ nd.kids, (f.trsOf r.stateId)[a.pos]? = some a.tr
  stop : 0 < nd.stop → f.Ends r.stateId
  total : (r.length ≠ len ∧ (nd.kids.map (·.count)).sum + nd.stop = r.nsamples) ∨
    (nd.kids = [] ∧ nd.stop = 0 ∧ ((f.trsOf r.stateId = [] ∧ ¬ f.Ends r.stateId) ∨ r.length = len))

section
variable [One W]

def kidTr (cfg : RandCfg) (neglog : ℚ → W) (r : RandState) (a : Kid W × Nat) : Tr W :=
  ⟨a.1.tr.ilabel, a.1.tr.olabel, if cfg.weighted then neglog (a.1.count / r.nsamples) else 1, a.2⟩

def kidState (r : RandState) (a : Kid W) : RandState := ⟨a.tr.nextstate, a.count, r.length + 1⟩

def Node.trs (cfg : RandCfg) (neglog : ℚ → W) (r : RandState) (sf : Option StateId) (nd : Node W) : List (Tr W) :=
  (nd.kids.zipIdx nd.base).map (kidTr cfg neglog r) ++
    if cfg.weighted then [] else List.replicate nd.stop ⟨EPS, EPS, 1, sf.getD 0⟩

def Node.fin (cfg : RandCfg) (neglog : ℚ → W) (r : RandState) (nd : Node W) : Option W :=
  if cfg.weighted ∧ 0 < nd.stop then
    some (if cfg.removeTotal then neglog (nd.stop / r.nsamples) else neglog (nd.stop / r.nsamples * cfg.npath)) else none

theorem fold_kids (cfg : RandCfg) (neglog : ℚ → W) (trs : List (Tr W)) (r : RandState) (kids : List (Kid W)) :
    ∀ e : RandExp W, (∀ a ∈ kids, trs[a.pos]? = some a.tr) →
      (kids.map fun a => (a.pos, a.count)).foldl (expandOne cfg neglog trs r) e =
        { e with
          table := e.table ++ kids.map (kidState r)
          trs := e.trs ++ (kids.zipIdx e.table.length).map (kidTr cfg neglog r) } := by
  induction kids with
  | nil => intro e _; simp
  | cons a kids ih =>
    intro e h
    have ha := h a List.mem_cons_self
    rw [List.map_cons, List.foldl_cons, ih _ (fun b hb => h b (List.mem_cons_of_mem _ hb))]
    simp only [expandOne, ha, List.map_cons, List.zipIdx_cons, List.append_assoc, List.length_append, List.length_cons, List.length_nil,
      List.singleton_append, List.cons_append, List.nil_append]
    rfl

variable [Zero W] [DecidableEq W] {σ : Type v}

/-- `compute_trs_and_final_weight` on a state that is not the superfinal one. -/
theorem randTrsFinal_ok {f : Fst W} {sel : Selector σ} (hl : Legal f sel) (cfg : RandCfg) (neglog : ℚ → W) {s : StateId} {o : RandOp σ} {r : RandState}
    (hs : o.table[s]? = some r) (hsf : o.superfinal ≠ some s) (hr : r.stateId < f.numStates) :
    ∃ nd g, nd.base = o.table.length ∧ Drawn f cfg.maxLength r nd ∧
      ((cfg.weighted = true ∨ nd.stop = 0 ∨ o.superfinal.isSome) ∧
        randTrsFinal f sel cfg neglog s o =
          (.ok (nd.trs cfg neglog r o.superfinal, nd.fin cfg neglog r), ⟨g, o.table ++ nd.kids.map (kidState r), o.superfinal⟩) ∨
      (cfg.weighted = false ∧ 0 < nd.stop ∧ o.superfinal = none) ∧
        randTrsFinal f sel cfg neglog s o =
          (.ok (nd.trs cfg neglog r (some (o.table.length + nd.kids.length)), nd.fin cfg neglog r),
            ⟨g, o.table ++ nd.kids.map (kidState r) ++ [⟨NO_STATE_ID, 0, 0⟩], some (o.table.length + nd.kids.length)⟩)) := by
  obtain ⟨m, g, e, hm⟩ := sample_ok hl (len := cfg.maxLength) hr o.gen
  have e1 : randTrsFinal f sel cfg neglog s o =
      (let e := m.foldl (expandOne cfg neglog (f.trsOf r.stateId) r) ⟨o.table, o.superfinal, [], none⟩
       (.ok (e.trs, e.fin), ⟨g, e.table, e.superfinal⟩)) := by
    unfold randTrsFinal
    rw [if_neg hsf, hs]
    simp only
    rw [e]
    simp only
    rw [Fst.getTrsR_eq hr]
  rcases hm with ⟨rfl, hd⟩ | ⟨hlen, hm⟩
  · refine ⟨⟨[], 0, o.table.length⟩, g, rfl, ⟨List.Pairwise.nil, (fun _ h => by cases h), (fun _ h => by cases h), (fun h => by cases h),
      Or.inr ⟨rfl, rfl, hd⟩⟩, Or.inl ⟨Or.inr (Or.inl rfl), ?_⟩⟩
    rw [e1]
    simp [Node.trs, Node.fin]
  · obtain ⟨ms, c, em, hms⟩ := split_last (N := (f.trsOf r.stateId).length) hm.sorted
      (fun a ha => by rcases hm.legal a ha with h | h <;> omega) hm.pos
    have hsub : ∀ a ∈ ms, a ∈ m := fun a ha => by rw [em]; exact List.mem_append_left _ ha
    obtain ⟨kids, ek, hk⟩ : ∃ kids : List (Kid W), ms = kids.map (fun a => (a.pos, a.count)) ∧
        ∀ a ∈ kids, (f.trsOf r.stateId)[a.pos]? = some a.tr := by
      clear em hsub
      induction ms with
      | nil => exact ⟨[], rfl, fun _ h => by cases h⟩
      | cons a ms ih =>
        obtain ⟨kids, ek, hk⟩ := ih (fun b hb => hms b (List.mem_cons_of_mem _ hb))
        have ha := hms a List.mem_cons_self
        refine ⟨⟨a.1, a.2, (f.trsOf r.stateId)[a.1]'ha⟩ :: kids, by rw [ek]; rfl, fun b hb => ?_⟩
        rcases List.mem_cons.1 hb with rfl | hb
        · exact List.getElem?_eq_getElem ha
        · exact hk b hb
    have hdr : Drawn f cfg.maxLength r ⟨kids, c, o.table.length⟩ := by
      refine ⟨?_, fun a ha => ?_, hk, fun hc => ?_, Or.inl ⟨hlen, ?_⟩⟩
      · have := hm.sorted
        rw [em, ek] at this
        have := (List.pairwise_append.1 this).1
        rw [List.pairwise_map] at this
        exact this
      · exact hm.pos (a.pos, a.count) (hsub _ (by rw [ek]; exact List.mem_map.2 ⟨a, ha, rfl⟩))
      · have hc : 0 < c := hc
        have : ((f.trsOf r.stateId).length, c) ∈ m := by rw [em, if_neg (by omega)]; simp
        rcases hm.legal _ this with h | h
        · exact absurd h (lt_irrefl _)
        · exact h.2
      · have := hm.total
        rw [em, ek, List.map_append, List.map_map, List.sum_append] at this
        rw [← this]
        show _ + c = _
        congr 1
        by_cases hc : c = 0
        · subst hc; rfl
        · rw [if_neg hc]; simp
    refine ⟨⟨kids, c, o.table.length⟩, g, rfl, hdr, ?_⟩
    rw [e1, em, ek, List.foldl_append, fold_kids cfg neglog _ r kids _ hk]
    by_cases hc : c = 0
    · subst hc
      refine Or.inl ⟨Or.inr (Or.inl rfl), ?_⟩
      simp [Node.trs, Node.fin]
    · rw [if_neg hc]
      have hc' : 0 < c := Nat.pos_of_ne_zero hc
      have hN : (f.trsOf r.stateId)[(f.trsOf r.stateId).length]? = none := by simp
      by_cases hw : cfg.weighted = true
      · refine Or.inl ⟨Or.inl hw, ?_⟩
        simp only [List.foldl_cons, List.foldl_nil, expandOne, hN, hw, if_true, Node.trs, Node.fin, List.append_nil, List.nil_append]
        simp [hc']
      · have hw : cfg.weighted = false := by simpa using hw
        cases hsf' : o.superfinal with
        | some x =>
          refine Or.inl ⟨Or.inr (Or.inr rfl), ?_⟩
          simp only [List.foldl_cons, List.foldl_nil, expandOne, hN, hw, Node.trs, Node.fin, List.nil_append]
          simp
        | none =>
          refine Or.inr ⟨⟨hw, hc', rfl⟩, ?_⟩
          simp only [List.foldl_cons, List.foldl_nil, expandOne, hN, hw, Node.trs, Node.fin, List.nil_append]
          simp

end

/-! ### The output of `compute` -/

section
variable [Zero W] [One W] [DecidableEq W]

/-- Starting with `n` states, each target is a state or the next new one; in the end there are `n'` states. -/
def Fresh : Nat → List (Tr W) → Nat → Prop
  | n, [], n' => n = n'
  | n, t :: ts, n' => (t.nextstate < n ∧ Fresh n ts n') ∨ (t.nextstate = n ∧ Fresh (n + 1) ts n')

theorem Fresh.append {l2 : List (Tr W)} {m n' : Nat} (h2 : Fresh m l2 n') : ∀ (l1 : List (Tr W)) (n : Nat), Fresh n l1 m → Fresh n (l1 ++ l2) n' := by
  intro l1
  induction l1 with
  | nil => intro n h; cases h; exact h2
  | cons t ts ih => intro n h; exact h.imp (fun h => ⟨h.1, ih _ h.2⟩) (fun h => ⟨h.1, ih _ h.2⟩)

theorem Fresh.le : ∀ (l : List (Tr W)) (n n' : Nat), Fresh n l n' → n ≤ n'
  | [], _, _, h => le_of_eq h
  | _ :: ts, n, n', h => by
    rcases h with ⟨_, h⟩ | ⟨_, h⟩
    · exact Fresh.le ts n n' h
    · exact le_trans (Nat.le_succ n) (Fresh.le ts (n + 1) n' h)

theorem Fresh.lt : ∀ (l : List (Tr W)) (n n' : Nat), Fresh n l n' → ∀ t ∈ l, t.nextstate < n'
  | [], _, _, _ => fun _ h => by cases h
  | t :: ts, n, n', h => by
    intro u hu
    rcases h with ⟨h1, h⟩ | ⟨h1, h⟩ <;> rcases List.mem_cons.1 hu with rfl | hu
    · exact lt_of_lt_of_le h1 (Fresh.le ts _ _ h)
    · exact Fresh.lt ts _ _ h u hu
    · rw [h1]; exact Fresh.le ts _ _ h
    · exact Fresh.lt ts _ _ h u hu

theorem fresh_kids (cfg : RandCfg) (neglog : ℚ → W) (r : RandState) (kids : List (Kid W)) :
    ∀ n, Fresh n ((kids.zipIdx n).map (kidTr cfg neglog r)) (n + kids.length) := by
  induction kids with
  | nil => intro n; rfl
  | cons a kids ih =>
    intro n
    rw [List.zipIdx_cons, List.map_cons]
    refine Or.inr ⟨rfl, ?_⟩
    rw [show n + (a :: kids).length = n + 1 + kids.length by simp; omega]
    exact ih (n + 1)

theorem fresh_old {n : Nat} {t : Tr W} (h : t.nextstate < n) (c : Nat) : Fresh n (List.replicate c t) n := by
  induction c with
  | zero => rfl
  | succ c ih => rw [List.replicate_succ]; exact Or.inl ⟨h, ih⟩

theorem fresh_new {n : Nat} {t : Tr W} (h : t.nextstate = n) {c : Nat} (hc : 0 < c) : Fresh n (List.replicate c t) (n + 1) := by
  obtain ⟨c, rfl⟩ : ∃ d, c = d + 1 := ⟨c - 1, by omega⟩
  rw [List.replicate_succ]
  exact Or.inr ⟨h, fresh_old (by omega) c⟩

theorem scan2_ok (s : StateId) (k : Nat) : ∀ (l : List (Tr W)) (n n' : Nat) (q vis : List StateId) (out : Fst W), Fresh n l n' → s < n → k ≤ n →
    q = List.range' k (n - k) → (∀ x, x ∈ vis ↔ x < n) → out.numStates = n →
    ∃ vis' out', Lz.scan2 s l q vis out = (List.range' k (n' - k), vis', out') ∧ (∀ x, x ∈ vis' ↔ x < n') ∧ out'.numStates = n' ∧
      out'.start = out.start ∧ (∀ x, out'.finOf x = out.finOf x) ∧ (∀ x, out'.trsOf x = if x = s then out.trsOf s ++ l else out.trsOf x) := by
  intro l
  induction l with
  | nil =>
    intro n n' q vis out h hs hk hq hv ho
    cases h
    exact ⟨vis, out, by rw [Lz.scan2, hq], hv, ho, rfl, fun _ => rfl, fun x => by split <;> simp [*]⟩
  | cons t ts ih =>
    intro n n' q vis out h hs hk hq hv ho
    rw [Lz.scan2]
    rcases h with ⟨h1, h⟩ | ⟨h1, h⟩
    · rw [if_pos ((hv _).2 h1)]
      have en : t.nextstate + 1 - out.numStates = 0 := by omega
      rw [en]
      obtain ⟨vis', out', e, h2, h3, h4, h5, h6⟩ := ih n n' q vis ((out.addStates 0).addTr s t) h hs hk hq hv (by simp [ho])
      refine ⟨vis', out', e, h2, h3, by rw [h4]; simp, fun x => by rw [h5]; simp, fun x => ?_⟩
      rw [h6, Fst.addTr_trsOf, Fst.addTr_trsOf]
      by_cases hx : x = s
      · subst hx; simp [ho, hs]
      · simp [hx]
    · rw [if_neg (fun hh => by have := (hv _).1 hh; omega)]
      have en : t.nextstate + 1 - out.numStates = 1 := by omega
      rw [en]
      have hq' : q ++ [t.nextstate] = List.range' k (n + 1 - k) := by
        rw [hq, h1, show n + 1 - k = n - k + 1 by omega, List.range'_concat, show k + 1 * (n - k) = n by omega]
      have hv' : ∀ x, x ∈ t.nextstate :: vis ↔ x < n + 1 := by
        intro x; rw [List.mem_cons, hv x]; omega
      obtain ⟨vis', out', e, h2, h3, h4, h5, h6⟩ := ih (n + 1) n' (q ++ [t.nextstate]) (t.nextstate :: vis) ((out.addStates 1).addTr s t) h
        (by omega) (by omega) hq' hv' (by simp [ho])
      refine ⟨vis', out', e, h2, h3, by rw [h4]; simp, fun x => by rw [h5]; simp, fun x => ?_⟩
      rw [h6, Fst.addTr_trsOf, Fst.addTr_trsOf]
      by_cases hx : x = s
      · subst hx; simp [ho, show x < n + 1 by omega]
      · simp [hx]

end
end Verif
