import Verif.Spec.TrMap
import Verif.Lemmas.Relabel

/-! # The loops of `tr_map` -/

namespace Verif
set_option linter.unusedSectionVars false
universe u v
variable {W : Type u} {σ : Type v} [Zero W] [One W] [DecidableEq W]

/-- `g` is `f` with the transitions of `s` replaced by `ts`. -/
structure TrsSet (f g : Fst W) (s : StateId) (ts : List (Tr W)) : Prop where
  trs : ∀ q, g.trsOf q = if q = s then ts else f.trsOf q
  fin : ∀ q, g.finOf q = f.finOf q
  num : g.numStates = f.numStates
  start : g.start = f.start
  counters : f.AllCounters → g.AllCounters

theorem setTrR_spec {f : Fst W} {s i : Nat} {t : Tr W} (h : (f.trsOf s)[i]? = some t) (t' : Tr W) :
    TrsSet f (f.setTrR s i t').1 s ((f.trsOf s).set i t') := by
  have hl : s < f.states.length := Fst.lt_of_mem_trsOf (List.mem_of_getElem? h)
  unfold Fst.setTrR
  rw [if_pos hl, h]
  simp only
  refine ⟨?_, ?_, ?_, ?_, ?_⟩
  · intro q; rw [Fst.replaceTr_trsOf]
  · intro q; simp
  · simp
  · simp
  · intro hc
    exact Fst.allCounters_replaceTr hc h (Or.inl rfl) (Or.inl rfl)

theorem mapTrs_aux (m : Mapper σ W) (s : Nat) (suf : List (Tr W)) : ∀ (pre : List (Tr W)) (k : σ) (f : Fst W),
    f.trsOf s = pre ++ suf →
    match m.runTrs k suf with
    | .error e => (List.range' pre.length suf.length).foldlM (mapTrAt m s) (k, f) = .error e
    | .ok (k', ts') => ∃ g, (List.range' pre.length suf.length).foldlM (mapTrAt m s) (k, f) = .ok (k', g) ∧
        TrsSet f g s (pre ++ ts') := by
  induction suf with
  | nil =>
    intro pre k f h
    simp only [Mapper.runTrs]
    refine ⟨f, rfl, ?_, fun _ => rfl, rfl, rfl, id⟩
    intro q
    split
    · rename_i e; rw [e, h]
    · rfl
  | cons t suf ih =>
    intro pre k f h
    have hget : (f.trsOf s)[pre.length]? = some t := by rw [h]; simp
    simp only [Mapper.runTrs, List.length_cons, List.range'_succ, List.foldlM_cons]
    have hstep : mapTrAt m s (k, f) pre.length = match m.tr k t with
        | .error e => .error e
        | .ok (k', t') => .ok (k', (f.setTrR s pre.length t').1) := by
      unfold mapTrAt
      simp only
      rw [hget]
      show (match m.tr k t with | .error e => _ | .ok (k, t') => _) = _
      cases m.tr k t <;> rfl
    rw [hstep]
    cases hm : m.tr k t with
    | error e => rfl
    | ok r =>
      obtain ⟨k', t'⟩ := r
      have hs := setTrR_spec hget t'
      have e1 : (f.trsOf s).set pre.length t' = (pre ++ [t']) ++ suf := by rw [h]; simp
      have := ih (pre ++ [t']) k' (f.setTrR s pre.length t').1 (by rw [hs.trs, if_pos rfl, e1])
      have e2 : (pre ++ [t']).length = pre.length + 1 := by simp
      rw [e2] at this
      simp only
      cases hr : m.runTrs k' suf with
      | error e => rw [hr] at this; exact this
      | ok r =>
        obtain ⟨k'', ts'⟩ := r
        rw [hr] at this
        obtain ⟨g, h1, h2⟩ := this
        refine ⟨g, h1, ?_, ?_, ?_, ?_, ?_⟩
        · intro q
          rw [h2.trs]
          split
          · simp
          · rename_i hq; rw [hs.trs, if_neg hq]
        · intro q; rw [h2.fin, hs.fin]
        · rw [h2.num, hs.num]
        · rw [h2.start, hs.start]
        · intro hc; exact h2.counters (hs.counters hc)

theorem mapTrs_spec (m : Mapper σ W) (s : Nat) (k : σ) (f : Fst W) :
    match m.runTrs k (f.trsOf s) with
    | .error e => mapTrs m s k f = .error e
    | .ok (k', ts') => ∃ g, mapTrs m s k f = .ok (k', g) ∧ TrsSet f g s ts' := by
  have := mapTrs_aux m s (f.trsOf s) [] k f rfl
  simp only [List.length_nil, List.nil_append] at this
  unfold mapTrs
  rw [List.range_eq_range']
  exact this

theorem runAll_append (m : Mapper σ W) (k : σ) (a b : List (List (Tr W) × Option W)) :
    m.runAll k (a ++ b) = match m.runAll k a with
      | .error e => .error e
      | .ok (k', x) => match m.runAll k' b with
        | .error e => .error e
        | .ok (k'', y) => .ok (k'', x ++ y) := by
  induction a generalizing k with
  | nil =>
    simp only [List.nil_append, Mapper.runAll]
    cases m.runAll k b <;> rfl
  | cons r a ih =>
    simp only [List.cons_append, Mapper.runAll]
    cases m.runState k r with
    | error e => rfl
    | ok p =>
      simp only
      rw [ih]
      cases m.runAll p.1 a with
      | error e => rfl
      | ok q =>
        simp only
        cases m.runAll q.1 b <;> rfl

/-- No labelled final weight when the mapper does not want a superfinal state. -/
def goodFin (act : FinalAction) (t : Option (FinalTr W)) : Prop :=
  act = .noSuperfinal → ∀ x, t = some x → x.labelled = false

/-- What the code does with the mapped final weight; differs from `placed` when `MapRequireSuperfinal` meets an unlabelled zero. -/
def placedCode (act : FinalAction) (sf : StateId) (old : Option W) (ts : List (Tr W)) (t : Option (FinalTr W)) :
    List (Tr W) × Option W :=
  match t with
  | none => (ts, none)
  | some x => if act = .requireSuperfinal ∧ x.labelled = false ∧ x.weight = 0 then (ts, old) else placed act sf ts t

/-- Loop invariant: the first `i` of the `n` original states are done, with results `out`. -/
structure MapInv (act : FinalAction) (n : Nat) (f : Fst W) (i : Nat) (out : List (List (Tr W) × Option (FinalTr W)))
    (g : Fst W) (sf : Option StateId) : Prop where
  len : out.length = i
  start : g.start = f.start
  sfE : sf = if usesSuper act out then some n else none
  num : g.numStates = n + if usesSuper act out then 1 else 0
  low : ∀ s ts t, s < i → out[s]? = some (ts, t) → (g.trsOf s, g.finOf s) = placedCode act n (f.finOf s) ts t
  high : ∀ s, i ≤ s → s < n → g.trsOf s = f.trsOf s ∧ g.finOf s = f.finOf s
  sup : usesSuper act out = true → g.trsOf n = [] ∧ g.finOf n = some 1
  counters : f.AllCounters → g.AllCounters

theorem usesSuper_append (act : FinalAction) (out : List (List (Tr W) × Option (FinalTr W))) (r) :
    usesSuper act (out ++ [r]) = (usesSuper act out || (decide (act = .allowSuperfinal) && r.2.any FinalTr.labelled)) := by
  cases act <;> simp [usesSuper]

theorem finToSuper_trsOf (f : Fst W) (s : Nat) (t : FinalTr W) (q r : Nat) (hs : s < f.numStates) :
    (finToSuper f s t q).trsOf r = if r = s then f.trsOf s ++ [⟨t.ilabel, t.olabel, t.weight, q⟩] else f.trsOf r := by
  unfold finToSuper
  rw [Fst.delFinal_trsOf, Fst.addTr_trsOf]
  by_cases h : r = s
  · subst h; simp [hs]
  · simp [h]

theorem finToSuper_finOf (f : Fst W) (s : Nat) (t : FinalTr W) (q r : Nat) :
    (finToSuper f s t q).finOf r = if r = s then none else f.finOf r := by
  unfold finToSuper
  rw [Fst.delFinal_finOf, Fst.addTr_finOf]

theorem finToSuper_num (f : Fst W) (s : Nat) (t : FinalTr W) (q : Nat) : (finToSuper f s t q).numStates = f.numStates := by
  simp [finToSuper]
theorem finToSuper_start (f : Fst W) (s : Nat) (t : FinalTr W) (q : Nat) : (finToSuper f s t q).start = f.start := rfl
theorem finToSuper_counters {f : Fst W} (h : f.AllCounters) (s : Nat) (t : FinalTr W) (q : Nat) :
    (finToSuper f s t q).AllCounters := Fst.allCounters_delFinal (Fst.allCounters_addTr h _ _) _

variable {act : FinalAction} {n i : Nat} {f g g1 g' : Fst W} {out : List (List (Tr W) × Option (FinalTr W))}
  {sf sf' : Option StateId} {ts : List (Tr W)} {t : Option (FinalTr W)}

theorem MapInv.next (inv : MapInv act n f i out g sf) (hi : i < n) (ht : TrsSet g g1 i ts)
    (hsf : sf' = if usesSuper act (out ++ [(ts, t)]) then some n else none)
    (hnum : g'.numStates = n + if usesSuper act (out ++ [(ts, t)]) then 1 else 0)
    (hstart : g'.start = g1.start)
    (hat : (g'.trsOf i, g'.finOf i) = placedCode act n (f.finOf i) ts t)
    (hoth : ∀ q, q < n → q ≠ i → g'.trsOf q = g1.trsOf q ∧ g'.finOf q = g1.finOf q)
    (hsup : usesSuper act (out ++ [(ts, t)]) = true → g'.trsOf n = [] ∧ g'.finOf n = some 1)
    (hc : g1.AllCounters → g'.AllCounters) : MapInv act n f (i + 1) (out ++ [(ts, t)]) g' sf' where
  len := by simp [inv.len]
  start := by rw [hstart, ht.start, inv.start]
  sfE := hsf
  num := hnum
  low s ts2 t2 hs hg := by
    by_cases h : s = i
    · subst h
      rw [List.getElem?_append_right (by rw [inv.len]), inv.len] at hg
      simp only [Nat.sub_self, List.getElem?_cons_zero, Option.some.injEq, Prod.mk.injEq] at hg
      obtain ⟨rfl, rfl⟩ := hg
      exact hat
    · have hs' : s < i := by omega
      obtain ⟨a, b⟩ := hoth s (by omega) h
      rw [a, b, ht.trs, if_neg h, ht.fin]
      rw [List.getElem?_append_left (by rw [inv.len]; exact hs')] at hg
      exact inv.low s ts2 t2 hs' hg
  high s hs hsn := by
    obtain ⟨a, b⟩ := hoth s hsn (by omega)
    rw [a, b, ht.trs, if_neg (by omega), ht.fin]
    exact inv.high s (by omega) hsn
  sup := hsup
  counters h := hc (ht.counters (inv.counters h))

theorem mapState_step (m : Mapper σ W) (k : σ) (hi : i < n) (inv : MapInv m.action n f i out g sf) :
    match m.runState k (f.trsOf i, f.finOf i) with
    | .error e => mapState m ⟨k, g, sf⟩ i = .error e
    | .ok (k', ts, t) =>
      (goodFin m.action t → ∃ g' sf', mapState m ⟨k, g, sf⟩ i = .ok ⟨k', g', sf'⟩ ∧
        MapInv m.action n f (i + 1) (out ++ [(ts, t)]) g' sf') ∧
      (¬ goodFin m.action t → mapState m ⟨k, g, sf⟩ i = .error .err) := by
  obtain ⟨hg1, hg2⟩ := inv.high i (le_refl _) hi
  have htr := mapTrs_spec m i k g
  rw [hg1] at htr
  unfold Mapper.runState mapState
  simp only
  cases hr : m.runTrs k (f.trsOf i) with
  | error e => rw [hr] at htr; simp only at htr ⊢; rw [htr]
  | ok r =>
    obtain ⟨k', ts⟩ := r
    rw [hr] at htr
    obtain ⟨g1, h1, ht⟩ := htr
    simp only
    rw [h1]
    simp only
    have hfin : g1.finOf i = f.finOf i := by rw [ht.fin, hg2]
    have htrs : g1.trsOf i = ts := by rw [ht.trs, if_pos rfl]
    have hn1 : n ≤ g1.numStates := by rw [ht.num, inv.num]; omega
    have hsup1 : usesSuper m.action out = true → g1.trsOf n = [] ∧ g1.finOf n = some 1 := by
      intro h; rw [ht.trs, if_neg (by omega), ht.fin]; exact inv.sup h
    unfold mapFin
    rw [hfin]
    cases hf : f.finOf i with
    | none =>
      simp only [Mapper.runFin]
      have hu : usesSuper m.action (out ++ [(ts, (none : Option (FinalTr W)))]) = usesSuper m.action out := by
        rw [usesSuper_append]; simp
      refine ⟨fun _ => ⟨g1, sf, rfl, inv.next hi ht ?_ ?_ rfl ?_ ?_ ?_ id⟩, fun h => absurd (fun _ x hx => by simp at hx) h⟩
      · rw [hu]; exact inv.sfE
      · rw [hu, ht.num]; exact inv.num
      · rw [htrs, hfin, hf]; rfl
      · intro q _ _; exact ⟨rfl, rfl⟩
      · rw [hu]; exact hsup1
    | some w =>
      simp only [Mapper.runFin]
      cases hmf : m.fin k' ⟨EPS, EPS, w⟩ with
      | error e => rfl
      | ok r =>
        obtain ⟨k'', t⟩ := r
        simp only
        cases ha : m.action with
        | noSuperfinal =>
          rw [ha] at inv hsup1
          have hu : ∀ o : List (List (Tr W) × Option (FinalTr W)), usesSuper .noSuperfinal o = false := fun _ => rfl
          unfold placeFin
          simp only
          constructor
          · intro hgood
            have hl := hgood rfl t rfl
            rw [if_neg (by simp [hl])]
            refine ⟨_, _, rfl, inv.next hi ht ?_ ?_ rfl ?_ ?_ ?_ ?_⟩
            · rw [hu]; rw [inv.sfE, hu]
            · rw [hu, Fst.setFinal_numStates, ht.num, inv.num, hu]
            · rw [Fst.setFinal_trsOf, Fst.setFinal_finOf, if_pos ⟨rfl, by omega⟩, htrs]
              simp [placedCode, placed]
            · intro q hq hqi
              rw [Fst.setFinal_trsOf, Fst.setFinal_finOf, if_neg (by tauto)]
              exact ⟨rfl, rfl⟩
            · rw [hu]; intro h; cases h
            · intro hc; exact Fst.allCounters_setFinal hc _ _
          · intro hbad
            have hl : t.labelled = true := by
              by_contra hc
              exact hbad (fun _ x hx => by cases hx; simpa using hc)
            rw [if_pos hl]
        | requireSuperfinal =>
          rw [ha] at inv hsup1
          have hu : ∀ o : List (List (Tr W) × Option (FinalTr W)), usesSuper .requireSuperfinal o = true := fun _ => rfl
          have hsfe : sf = some n := by rw [inv.sfE, hu]; rfl
          subst hsfe
          unfold placeFin
          simp only
          refine ⟨fun _ => ?_, fun h => absurd (fun h => by cases h) h⟩
          have hne : i ≠ n := by omega
          have hnum : g1.numStates = n + 1 := by rw [ht.num, inv.num, hu]; rfl
          by_cases hc : t.labelled = true ∨ t.weight ≠ 0
          · rw [if_pos ⟨hne, hc⟩]
            refine ⟨_, _, rfl, inv.next hi ht ?_ ?_ rfl ?_ ?_ ?_ ?_⟩
            · rw [hu]; rfl
            · rw [hu, finToSuper_num, hnum]; rfl
            · rw [finToSuper_trsOf _ _ _ _ _ (by omega), finToSuper_finOf, if_pos rfl, if_pos rfl, htrs]
              unfold placedCode placed
              have h1 : ¬ (FinalAction.requireSuperfinal = FinalAction.requireSuperfinal ∧ t.labelled = false ∧ t.weight = 0) := by
                rintro ⟨-, h1, h2⟩
                rcases hc with hc | hc
                · rw [h1] at hc; cases hc
                · exact hc h2
              have h2 : t.ilabel ≠ EPS ∨ t.olabel ≠ EPS ∨ t.weight ≠ 0 := by
                rcases hc with hc | hc
                · simp only [FinalTr.labelled, Bool.or_eq_true, decide_eq_true_eq] at hc
                  rcases hc with hc | hc
                  · exact Or.inl hc
                  · exact Or.inr (Or.inl hc)
                · exact Or.inr (Or.inr hc)
              show _ = if _ then _ else _
              rw [if_neg h1]
              exact (if_pos h2).symm
            · intro q hq hqi
              rw [finToSuper_trsOf _ _ _ _ _ (by omega), finToSuper_finOf, if_neg hqi, if_neg hqi]
              exact ⟨rfl, rfl⟩
            · intro _
              rw [finToSuper_trsOf _ _ _ _ _ (by omega), finToSuper_finOf, if_neg (Ne.symm hne), if_neg (Ne.symm hne)]
              exact hsup1 (hu _)
            · intro hc; exact finToSuper_counters hc _ _ _
          · rw [if_neg (by tauto)]
            refine ⟨_, _, rfl, inv.next hi ht ?_ ?_ rfl ?_ ?_ ?_ id⟩
            · rw [hu]; rfl
            · rw [hu, hnum]; rfl
            · rw [htrs, hfin, hf]
              show _ = if _ then _ else _
              rw [if_pos]
              refine ⟨rfl, ?_, ?_⟩
              · by_contra h; exact hc (Or.inl (by simpa using h))
              · by_contra h; exact hc (Or.inr h)
            · intro q hq hqi; exact ⟨rfl, rfl⟩
            · intro _; exact hsup1 (hu _)
        | allowSuperfinal =>
          rw [ha] at inv hsup1
          have hsfn : some i ≠ sf := by
            rw [inv.sfE]
            split
            · intro h; cases h; omega
            · intro h; cases h
          have hpc : placedCode .allowSuperfinal n (some w) ts (some t) = placed .allowSuperfinal n ts (some t) := by
            simp [placedCode]
          unfold placeFin
          simp only
          refine ⟨fun _ => ?_, fun h => absurd (fun h => by cases h) h⟩
          rw [if_pos hsfn]
          by_cases hl : t.labelled = true
          · have hu : usesSuper .allowSuperfinal (out ++ [(ts, some t)]) = true := by
              rw [usesSuper_append]; simp [hl]
            have hl' : t.ilabel ≠ EPS ∨ t.olabel ≠ EPS := by
              simpa only [FinalTr.labelled, Bool.or_eq_true, decide_eq_true_eq] using hl
            rw [if_pos hl]
            obtain ⟨g2, q2, he, hq2, hnum2, hst2, htr2, hfi2, hsup2, hct2⟩ : ∃ g2 q2, ensureSuper g1 sf = (g2, q2) ∧ q2 = n ∧
                g2.numStates = n + 1 ∧ g2.start = g1.start ∧ (∀ q, q < n → g2.trsOf q = g1.trsOf q) ∧
                (∀ q, q < n → g2.finOf q = g1.finOf q) ∧ (g2.trsOf n = [] ∧ g2.finOf n = some 1) ∧
                (g1.AllCounters → g2.AllCounters) := by
              by_cases hb : usesSuper .allowSuperfinal out = true
              · have : sf = some n := by rw [inv.sfE, if_pos hb]
                subst this
                exact ⟨g1, n, rfl, rfl, by rw [ht.num, inv.num, if_pos hb], rfl, fun _ _ => rfl, fun _ _ => rfl, hsup1 hb, id⟩
              · have : sf = none := by rw [inv.sfE, if_neg hb]
                subst this
                have hnn : g1.numStates = n := by rw [ht.num, inv.num, if_neg hb]; rfl
                refine ⟨_, _, rfl, hnn, by simp [hnn], rfl, fun q _ => by simp, fun q hq => ?_, ⟨?_, ?_⟩, fun hc =>
                  Fst.allCounters_setFinal (Fst.allCounters_addStates hc 1) _ _⟩
                · rw [Fst.setFinal_finOf, if_neg (by omega)]; simp
                · rw [Fst.setFinal_trsOf, Fst.addState_trsOf, Fst.trsOf_of_ge (by omega)]
                · rw [Fst.setFinal_finOf, if_pos ⟨hnn.symm, by simp⟩]
            subst hq2
            rw [he]
            have hi2 : i < g2.numStates := by omega
            refine ⟨_, _, rfl, inv.next hi ht ?_ ?_ ?_ ?_ ?_ ?_ ?_⟩
            · rw [if_pos hu]
            · rw [if_pos hu, finToSuper_num, hnum2]
            · exact hst2
            · rw [finToSuper_trsOf _ _ _ _ _ hi2, finToSuper_finOf, if_pos rfl, if_pos rfl, htr2 i hi, htrs, hf, hpc]
              simp only [placed, if_pos hl']
            · intro q hq hqi
              rw [finToSuper_trsOf _ _ _ _ _ hi2, finToSuper_finOf, if_neg hqi, if_neg hqi, htr2 q hq, hfi2 q hq]
              exact ⟨rfl, rfl⟩
            · intro _
              rw [finToSuper_trsOf _ _ _ _ _ hi2, finToSuper_finOf, if_neg (by omega), if_neg (by omega)]
              exact hsup2
            · intro hc; exact finToSuper_counters (hct2 hc) _ _ _
          · have hu : usesSuper .allowSuperfinal (out ++ [(ts, some t)]) = usesSuper .allowSuperfinal out := by
              rw [usesSuper_append]; simp [hl]
            have hl' : ¬ (t.ilabel ≠ EPS ∨ t.olabel ≠ EPS) := by
              simpa only [FinalTr.labelled, Bool.or_eq_true, decide_eq_true_eq] using hl
            rw [if_neg hl]
            refine ⟨_, _, rfl, inv.next hi ht ?_ ?_ rfl ?_ ?_ ?_ ?_⟩
            · rw [hu]; exact inv.sfE
            · rw [hu, Fst.setFinal_numStates, ht.num]; exact inv.num
            · rw [Fst.setFinal_trsOf, Fst.setFinal_finOf, if_pos ⟨rfl, by omega⟩, htrs, hf, hpc]
              simp only [placed, if_neg hl']
            · intro q hq hqi
              rw [Fst.setFinal_trsOf, Fst.setFinal_finOf, if_neg (by tauto)]
              exact ⟨rfl, rfl⟩
            · rw [hu]; intro h
              rw [Fst.setFinal_trsOf, Fst.setFinal_finOf, if_neg (by omega)]
              exact hsup1 h
            · intro hc; exact Fst.allCounters_setFinal hc _ _

/-- All mapped final weights are unlabelled when the mapper does not want a superfinal state. -/
def goodOut (act : FinalAction) (out : List (List (Tr W) × Option (FinalTr W))) : Prop := ∀ r ∈ out, goodFin act r.2

theorem mapLoop_spec (m : Mapper σ W) (k : σ) (f g0 : Fst W) (n : Nat) (sf0 : Option StateId)
    (h0 : MapInv m.action n f 0 [] g0 sf0) (i : Nat) (hi : i ≤ n) :
    match m.runAll k ((List.range i).map fun s => (f.trsOf s, f.finOf s)) with
    | .error e => ∃ e', (List.range i).foldlM (mapState m) ⟨k, g0, sf0⟩ = .error e'
    | .ok (k', out) =>
      (goodOut m.action out → ∃ g sf, (List.range i).foldlM (mapState m) ⟨k, g0, sf0⟩ = .ok ⟨k', g, sf⟩ ∧
        MapInv m.action n f i out g sf) ∧
      (¬ goodOut m.action out → ∃ e', (List.range i).foldlM (mapState m) ⟨k, g0, sf0⟩ = .error e') := by
  induction i with
  | zero =>
    simp only [List.range_zero, List.map_nil, Mapper.runAll]
    exact ⟨fun _ => ⟨g0, sf0, rfl, h0⟩, fun h => absurd (fun r hr => by simp at hr) h⟩
  | succ i ih =>
    have ih := ih (by omega)
    rw [List.range_succ, List.map_append, runAll_append, List.foldlM_append]
    cases hr : m.runAll k ((List.range i).map fun s => (f.trsOf s, f.finOf s)) with
    | error e =>
      rw [hr] at ih
      obtain ⟨e', he⟩ := ih
      exact ⟨e', by rw [he]; rfl⟩
    | ok r =>
      obtain ⟨k1, out⟩ := r
      rw [hr] at ih
      obtain ⟨ih1, ih2⟩ := ih
      simp only [List.map_cons, List.map_nil, Mapper.runAll, List.foldlM_cons, List.foldlM_nil]
      by_cases hg : goodOut m.action out
      · obtain ⟨g, sf, he, inv⟩ := ih1 hg
        rw [he]
        have st := mapState_step m k1 (by omega) inv
        cases hs : m.runState k1 (f.trsOf i, f.finOf i) with
        | error e =>
          rw [hs] at st
          simp only at st ⊢
          exact ⟨e, by show (mapState m ⟨k1, g, sf⟩ i >>= _) = _; rw [st]; rfl⟩
        | ok r =>
          obtain ⟨k2, ts, t⟩ := r
          rw [hs] at st
          simp only at st ⊢
          constructor
          · intro hgood
            obtain ⟨g', sf', e, inv'⟩ := st.1 (hgood (ts, t) (by simp))
            exact ⟨g', sf', by show (mapState m ⟨k1, g, sf⟩ i >>= _) = _; rw [e]; rfl, inv'⟩
          · intro hbad
            refine ⟨.err, ?_⟩
            show (mapState m ⟨k1, g, sf⟩ i >>= _) = _
            rw [st.2 ?_]
            · rfl
            · intro hc
              refine hbad fun r hr => ?_
              rcases List.mem_append.1 hr with h | h
              · exact hg r h
              · rw [List.mem_singleton.1 h]; exact hc
      · obtain ⟨e', he⟩ := ih2 hg
        rw [he]
        cases hs : m.runState k1 (f.trsOf i, f.finOf i) with
        | error e => exact ⟨e', rfl⟩
        | ok r =>
          obtain ⟨k2, ts, t⟩ := r
          refine ⟨fun hgood => absurd (fun r hr => hgood r (by simp [hr])) hg, fun _ => ⟨e', rfl⟩⟩

end Verif
