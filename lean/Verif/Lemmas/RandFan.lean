import Verif.Lemmas.RandVisit
import Verif.Lemmas.Truthful
import Verif.Lemmas.Shape

/-!
# Random paths: the FST that is written
-/

namespace Verif
universe u v
variable {W : Type u}

/-! ### Writing paths side by side -/

/-- The strings on a list of transitions, with weight one. -/
def labelsOf [One W] (l : List (Tr W)) : PathT W := (l.flatMap (fun t => strip t.ilabel), l.flatMap (fun t => strip t.olabel), 1)

section
variable [MonoidWithZero W] [DecidableEq W]

theorem pathsFrom_closed {f g : Fst W} (S : StateId → Prop) (ht : ∀ s, S s → g.trsOf s = f.trsOf s) (hf : ∀ s, S s → g.finOf s = f.finOf s)
    (hc : ∀ s, S s → ∀ t ∈ f.trsOf s, S t.nextstate) (n : Nat) : ∀ s, S s → g.pathsFrom n s = f.pathsFrom n s := by
  induction n with
  | zero => intro s hs; rw [Fst.pathsFrom, Fst.pathsFrom, hf s hs]
  | succ n ih =>
    intro s hs
    rw [Fst.pathsFrom, Fst.pathsFrom, ht s hs]
    refine Multiset.bind_congr (fun t h => ?_)
    rw [ih _ (hc s hs t h)]

theorem labelsOf_cons (t : Tr W) (l : List (Tr W)) (n : StateId) : (⟨t.ilabel, t.olabel, 1, n⟩ : Tr W).asPath.cat (labelsOf l) = labelsOf (t :: l) := by
  simp [Tr.asPath, labelsOf, PathT.cat]

structure ChainOf (o g : Fst W) (src : StateId) (ts : List (Tr W)) : Prop where
  num : g.numStates = o.numStates + ts.length
  start : g.start = o.start
  old : ∀ x, x < o.numStates → x ≠ src → g.trsOf x = o.trsOf x ∧ g.finOf x = o.finOf x
  wf : (∀ s, ∀ t ∈ o.trsOf s, t.nextstate < o.numStates) → ∀ s, ∀ t ∈ g.trsOf s, t.nextstate < g.numStates
  fresh : o.trsOf src = [] → o.finOf src = none → ∀ k, g.pathsFrom k src = if k = ts.length then {labelsOf ts} else 0
  truthful : o.Truthful → g.Truthful
  counters : o.AllCounters → g.AllCounters

theorem chain_ok (ts : List (Tr W)) : ∀ (o : Fst W) (src : StateId), src < o.numStates → ChainOf o (RandV.chain o src ts) src ts := by
  induction ts with
  | nil =>
    intro o src hs
    rw [RandV.chain]
    refine ⟨by simp, by simp, ?_, ?_, ?_, fun h => Fst.truthful_setFinal h hs 1, fun h => Fst.allCounters_setFinal h _ _⟩
    · intro x _ hne
      rw [Fst.setFinal_trsOf, Fst.setFinal_finOf, if_neg (fun h => hne h.1)]
      exact ⟨rfl, rfl⟩
    · intro h s t ht
      rw [Fst.setFinal_trsOf] at ht
      rw [Fst.setFinal_numStates]
      exact h s t ht
    · intro h1 h2 k
      cases k with
      | zero => rw [Fst.pathsFrom, Fst.setFinal_finOf, if_pos ⟨rfl, hs⟩]; rfl
      | succ k => rw [Fst.pathsFrom, Fst.setFinal_trsOf, h1]; rfl
  | cons t ts ih =>
    intro o src hs
    rw [RandV.chain]
    have hn : o.numStates < (o.addState.addTr src ⟨t.ilabel, t.olabel, 1, o.numStates⟩).numStates := by simp
    have C := ih (o.addState.addTr src ⟨t.ilabel, t.olabel, 1, o.numStates⟩) o.numStates hn
    have htr : ∀ x, (o.addState.addTr src ⟨t.ilabel, t.olabel, 1, o.numStates⟩).trsOf x =
        if x = src then o.trsOf src ++ [⟨t.ilabel, t.olabel, 1, o.numStates⟩] else o.trsOf x := by
      intro x
      rw [Fst.addTr_trsOf]
      by_cases h : x = src
      · subst h; rw [if_pos ⟨rfl, by simp; omega⟩, if_pos rfl]; simp
      · rw [if_neg (fun e => h e.1), if_neg h]; simp
    have hfin : ∀ x, (o.addState.addTr src ⟨t.ilabel, t.olabel, 1, o.numStates⟩).finOf x = o.finOf x := by intro x; simp
    refine ⟨?_, ?_, ?_, ?_, ?_, ?_, ?_⟩
    · rw [C.num]; simp; omega
    · rw [C.start]; simp
    · intro x hx hne
      obtain ⟨h1, h2⟩ := C.old x (by simp; omega) (by omega)
      rw [h1, h2, htr, hfin, if_neg hne]
      exact ⟨rfl, rfl⟩
    · intro h
      refine C.wf (fun s u hu => ?_)
      rw [htr] at hu
      simp only [Fst.addTr_numStates, Fst.addState_numStates]
      split at hu
      · rcases List.mem_append.1 hu with hu | hu
        · have := h _ u hu; omega
        · rw [List.mem_singleton] at hu; subst hu; simp
      · have := h _ u hu; omega
    · intro h1 h2 k
      obtain ⟨h3, h4⟩ := C.old src (by simp; omega) (by omega)
      rw [htr, if_pos rfl, h1, List.nil_append] at h3
      rw [hfin, h2] at h4
      cases k with
      | zero => rw [Fst.pathsFrom, h4]; simp
      | succ k =>
        rw [Fst.pathsFrom, h3]
        rw [show (([⟨t.ilabel, t.olabel, 1, o.numStates⟩] : List (Tr W)) : Multiset (Tr W)) = {⟨t.ilabel, t.olabel, 1, o.numStates⟩} from rfl,
          Multiset.singleton_bind]
        rw [C.fresh (by rw [htr, if_neg (by omega), Fst.trsOf_of_ge le_rfl]) (by rw [hfin, Fst.finOf_of_ge le_rfl]) k]
        by_cases hk : k = ts.length
        · rw [if_pos hk, if_pos (by rw [hk]; rfl), Multiset.map_singleton, labelsOf_cons]
        · rw [if_neg hk, if_neg (by simpa using hk), Multiset.map_zero]
    · intro h
      exact C.truthful (Fst.truthful_addTr (by rw [Fst.addState_eq]; exact Fst.truthful_addStates h 1) (by simp; omega) _)
    · intro h
      exact C.counters (Fst.allCounters_addTr (by rw [Fst.addState_eq]; exact Fst.allCounters_addStates h 1) _ _)

/-- The FST after some paths have been written. -/
structure FanOf (o : Fst W) (l : List (List (Tr W))) : Prop where
  start : o.start = if l = [] then none else some 0
  pos : l ≠ [] → 0 < o.numStates
  empty : l = [] → o.numStates = 0
  wf : ∀ s, ∀ t ∈ o.trsOf s, t.nextstate < o.numStates
  ne : ∀ s, ∀ t ∈ o.trsOf s, t.nextstate ≠ 0
  fin : o.finOf 0 = if [] ∈ l then some 1 else none
  paths : ∀ k, o.pathsFrom (k + 1) 0 = (((l.filter (fun p => p.length = k + 1)).map labelsOf : List (PathT W)) : Multiset (PathT W))
  truthful : o.Truthful
  counters : o.AllCounters

theorem FanOf.chain {o : Fst W} {l : List (List (Tr W))} (hp : 0 < o.numStates) (hs : o.start = some 0) (hwf : ∀ s, ∀ t ∈ o.trsOf s, t.nextstate < o.numStates)
    (hne : ∀ s, ∀ t ∈ o.trsOf s, t.nextstate ≠ 0) (hfin : o.finOf 0 = if [] ∈ l then some 1 else none)
    (hpa : ∀ k, o.pathsFrom (k + 1) 0 = (((l.filter (fun p => p.length = k + 1)).map labelsOf : List (PathT W)) : Multiset (PathT W)))
    (ht : o.Truthful) (hc : o.AllCounters) (p : List (Tr W)) : FanOf (RandV.chain o 0 p) (l ++ [p]) := by
  have C := chain_ok p o 0 hp
  have hkeep : ∀ (g : Fst W), (∀ x, x < o.numStates → x ≠ 0 → g.trsOf x = o.trsOf x ∧ g.finOf x = o.finOf x) → ∀ k, ∀ t ∈ o.trsOf 0,
      g.pathsFrom k t.nextstate = o.pathsFrom k t.nextstate := by
    intro g hg k t ht
    exact pathsFrom_closed (fun x => x < o.numStates ∧ x ≠ 0) (fun x hx => (hg x hx.1 hx.2).1) (fun x hx => (hg x hx.1 hx.2).2)
      (fun x _ u hu => ⟨hwf x u hu, hne x u hu⟩) k _ ⟨hwf 0 t ht, hne 0 t ht⟩
  cases p with
  | nil =>
    have e : RandV.chain o 0 [] = o.setFinal 0 1 := rfl
    have hnext : ∀ s, (RandV.chain o 0 []).trsOf s = o.trsOf s := by intro s; rw [e]; simp
    refine ⟨by rw [C.start, hs]; simp, fun _ => by rw [C.num]; simpa using hp, fun h => by simp at h, C.wf hwf, ?_, ?_, ?_, C.truthful ht, C.counters hc⟩
    · intro s t ht; rw [hnext] at ht; exact hne s t ht
    · rw [e, Fst.setFinal_finOf, if_pos ⟨rfl, hp⟩, if_pos (by simp)]
    · intro k
      rw [Fst.pathsFrom, hnext]
      rw [List.filter_append, show ([[]] : List (List (Tr W))).filter (fun p => decide (p.length = k + 1)) = [] by simp, List.append_nil, ← hpa k, Fst.pathsFrom]
      refine Multiset.bind_congr (fun t h => ?_)
      rw [hkeep _ (fun x hx hx' => C.old x hx hx') k t h]
  | cons t ts =>
    have e : RandV.chain o 0 (t :: ts) = RandV.chain (o.addState.addTr 0 ⟨t.ilabel, t.olabel, 1, o.numStates⟩) o.numStates ts := rfl
    have hn : o.numStates < (o.addState.addTr 0 ⟨t.ilabel, t.olabel, 1, o.numStates⟩).numStates := by simp
    have C' := chain_ok ts (o.addState.addTr 0 ⟨t.ilabel, t.olabel, 1, o.numStates⟩) o.numStates hn
    have htr : ∀ x, (o.addState.addTr 0 ⟨t.ilabel, t.olabel, 1, o.numStates⟩).trsOf x =
        if x = 0 then o.trsOf 0 ++ [⟨t.ilabel, t.olabel, 1, o.numStates⟩] else o.trsOf x := by
      intro x
      rw [Fst.addTr_trsOf]
      by_cases h : x = 0
      · subst h; rw [if_pos ⟨rfl, by simp⟩, if_pos rfl]; simp
      · rw [if_neg (fun e => h e.1), if_neg h]; simp
    obtain ⟨h3, h4⟩ := C'.old 0 (by simp) (by omega)
    rw [htr, if_pos rfl] at h3
    have h4' : (RandV.chain (o.addState.addTr 0 ⟨t.ilabel, t.olabel, 1, o.numStates⟩) o.numStates ts).finOf 0 = o.finOf 0 := by rw [h4]; simp
    refine ⟨by rw [C.start, hs]; simp, fun _ => by rw [C.num]; omega, fun h => by simp at h, C.wf hwf, ?_, ?_, ?_, C.truthful ht, C.counters hc⟩
    · have key : ∀ (ts : List (Tr W)) (o : Fst W) (src : StateId), 0 < o.numStates → (∀ s, ∀ t ∈ o.trsOf s, t.nextstate ≠ 0) →
          ∀ s, ∀ t ∈ (RandV.chain o src ts).trsOf s, t.nextstate ≠ 0 := by
        intro ts
        induction ts with
        | nil => intro o src _ h s t ht; rw [RandV.chain, Fst.setFinal_trsOf] at ht; exact h s t ht
        | cons u ts ih =>
          intro o src hp h
          rw [RandV.chain]
          refine ih _ _ (by simp) (fun s t ht => ?_)
          rw [Fst.addTr_trsOf] at ht
          split at ht
          · rcases List.mem_append.1 ht with ht | ht
            · rw [Fst.addState_trsOf] at ht; exact h _ t ht
            · rw [List.mem_singleton] at ht; subst ht; simp only; omega
          · rw [Fst.addState_trsOf] at ht; exact h _ t ht
      exact key _ o 0 hp hne
    · rw [e, h4', hfin]; simp
    · intro k
      rw [e, Fst.pathsFrom, h3, ← Multiset.coe_add, Multiset.add_bind]
      rw [show (([⟨t.ilabel, t.olabel, 1, o.numStates⟩] : List (Tr W)) : Multiset (Tr W)) = {⟨t.ilabel, t.olabel, 1, o.numStates⟩} from rfl,
        Multiset.singleton_bind, C'.fresh (by rw [htr, if_neg (by omega), Fst.trsOf_of_ge le_rfl]) (by simp [Fst.finOf_of_ge]) k]
      rw [List.filter_append, List.map_append, ← Multiset.coe_add, ← hpa k, Fst.pathsFrom]
      congr 1
      · refine Multiset.bind_congr (fun u h => ?_)
        rw [hkeep _ (fun x hx hx' => ?_) k u h]
        have := C.old x hx hx'
        rw [e] at this
        exact this
      · by_cases hk : k = ts.length
        · rw [if_pos hk, Multiset.map_singleton, labelsOf_cons]
          simp [hk]
        · rw [if_neg hk, Multiset.map_zero]
          have : ¬ ts.length = k := fun e => hk e.symm
          simp [this]

theorem FanOf.output {o : Fst W} {l : List (List (Tr W))} (F : FanOf o l) (p : List (Tr W)) : FanOf (RandV.output o p) (l ++ [p]) := by
  by_cases hl : l = []
  · have h0 := F.empty hl
    have hs : o.start = none := by rw [F.start, if_pos hl]
    have e : RandV.output o p = RandV.chain (o.addState.setStart 0) 0 p := by
      unfold RandV.output
      rw [hs, h0]
    rw [e]
    have htr : ∀ s, (o.addState.setStart 0).trsOf s = [] := by
      intro s
      rw [Fst.setStart_trsOf, Fst.addState_trsOf, Fst.trsOf_of_ge (by omega)]
    refine FanOf.chain (by simp) (by simp) (fun s t ht => ?_) (fun s t ht => ?_) ?_ (fun k => ?_) ?_ ?_ p
    · rw [htr] at ht; simp at ht
    · rw [htr] at ht; simp at ht
    · rw [hl, if_neg (by simp), Fst.setStart_finOf, Fst.addState_finOf, Fst.finOf_of_ge (by omega)]
    · rw [Fst.pathsFrom, htr, hl]; rfl
    · exact Fst.truthful_setStart (by rw [Fst.addState_eq]; exact Fst.truthful_addStates F.truthful 1) _
    · exact Fst.allCounters_setStart (by rw [Fst.addState_eq]; exact Fst.allCounters_addStates F.counters 1) _
  · have hs : o.start = some 0 := by rw [F.start, if_neg hl]
    have e : RandV.output o p = RandV.chain o 0 p := by
      unfold RandV.output
      rw [hs]
    rw [e]
    exact FanOf.chain (F.pos hl) hs F.wf F.ne F.fin F.paths F.truthful F.counters p

theorem fanOf_new : FanOf (Fst.new : Fst W) [] where
  start := rfl
  pos h := absurd rfl h
  empty _ := rfl
  wf s t ht := by simp at ht
  ne s t ht := by simp at ht
  fin := rfl
  paths k := rfl
  truthful := Fst.truthful_new
  counters := Fst.allCounters_new

theorem fanAll_ok (l : List (List (Tr W))) : FanOf (fanAll (Fst.new : Fst W) l) l := by
  have key : ∀ (l l' : List (List (Tr W))) (o : Fst W), FanOf o l' → FanOf (fanAll o l) (l' ++ l) := by
    intro l
    induction l with
    | nil => intro l' o h; rw [List.append_nil]; exact h
    | cons p l ih =>
      intro l' o h
      have := ih (l' ++ [p]) _ (h.output p)
      rw [List.append_assoc] at this
      exact this
  exact key l [] _ fanOf_new

end

/-! ### The tree of samples is a tree -/

section
variable [Zero W] [One W] [DecidableEq W] {f : Fst W} {s0 : StateId} {cfg : RandCfg} {neglog : ℚ → W} {table : List RandState} {sf : Option StateId}
  {nodes : List (Node W)} {out : Fst W}

/-- The transitions of the tree. -/
theorem STree.tr_cases (T : STree f s0 cfg neglog table sf nodes out) (hw : cfg.weighted = false) {s : StateId} {t : Tr W} (ht : t ∈ out.trsOf s) :
    ∃ nd r, nodes[s]? = some nd ∧ NodeAt f cfg neglog table sf out s nd r ∧
      ((∃ x ∈ nd.kids.zipIdx nd.base, t = kidTr cfg neglog r x) ∨ (0 < nd.stop ∧ ∃ q, sf = some q ∧ t = ⟨EPS, EPS, 1, q⟩)) := by
  have hl : s < nodes.length := by
    by_contra h
    rw [(T.later s (by omega)).1] at ht
    simp at ht
  rcases T.done s _ (List.getElem?_eq_getElem hl) with ⟨_, _, _, h, _⟩ | ⟨r, h⟩
  · rw [h] at ht; simp at ht
  · refine ⟨_, r, List.getElem?_eq_getElem hl, h, ?_⟩
    rw [h.trs, Node.trs, if_neg (by simp [hw])] at ht
    rcases List.mem_append.1 ht with ht | ht
    · obtain ⟨x, hx, rfl⟩ := List.mem_map.1 ht
      exact Or.inl ⟨x, hx, rfl⟩
    · obtain ⟨h1, rfl⟩ := List.mem_replicate.1 ht
      rcases h.has with h2 | h2 | h2
      · rw [hw] at h2; cases h2
      · exact absurd h2 h1
      · obtain ⟨q, hq⟩ := Option.isSome_iff_exists.1 h2
        exact Or.inr ⟨by omega, q, hq, by rw [hq]; rfl⟩

theorem STree.treeLike (T : STree f s0 cfg neglog table sf nodes out) (hlen : nodes.length = table.length) (hw : cfg.weighted = false) (h10 : (1 : W) ≠ 0)
    (p : Props) : TreeLike (out.setProps p) sf := by
  have hkid : ∀ {s : StateId} {nd : Node W} {r : RandState}, nodes[s]? = some nd → NodeAt f cfg neglog table sf out s nd r →
      ∀ x ∈ nd.kids.zipIdx nd.base, s < x.2 ∧ nd.base ≤ x.2 ∧ x.2 < nd.base + nd.kids.length ∧ sf ≠ some x.2 := by
    intro s nd r h1 h2 x hx
    obtain ⟨a, b, c, _, nd', _, h3⟩ := T.kid hlen h1 h2 hx
    exact ⟨a, b, c, h3.ne⟩
  have hpos : 0 < table.length := (List.getElem?_eq_some_iff.1 T.root).1
  have hsfl : ∀ x, sf = some x → x < table.length := fun x hx => (List.getElem?_eq_some_iff.1 (T.sfIn x hx).1).1
  refine ⟨T.start, by show 0 < out.numStates; rw [T.num]; exact hpos, ?_, ?_, T.sf0, ?_, ?_, ?_, ?_, ?_⟩
  · intro s t ht
    show _ < out.numStates
    rw [T.num]
    obtain ⟨nd, r, h1, h2, ⟨x, hx, rfl⟩ | ⟨_, q, hq, rfl⟩⟩ := T.tr_cases hw ht
    · have := (hkid h1 h2 x hx).2.2.1
      have := (T.base s nd h1).2.1
      show x.2 < _
      omega
    · exact hsfl q hq
  · intro s hs
    have hs' : s < out.numStates := hs
    rw [T.num, ← hlen] at hs'
    have hfin : (out.setProps p).finOf s = if sf = some s then some 1 else none := by
      show out.finOf s = _
      rcases T.done s _ (List.getElem?_eq_getElem hs') with ⟨h1, _, _, _, h2⟩ | ⟨r, h⟩
      · rw [h2, if_pos h1]
      · rw [h.fin, Node.fin, if_neg (by simp [hw]), if_neg h.ne]
    obtain ⟨b, hb, hb'⟩ := Fst.isFinalR_eq hs
    rw [hb]
    congr 1
    rw [Bool.eq_iff_iff, hb', Fst.Ends, hfin]
    by_cases h : sf = some s
    · simp [h, h10]
    · simp [h]
  · intro x hx
    have hx' := hsfl x hx
    rw [← hlen] at hx'
    show out.trsOf x = []
    rcases T.done x _ (List.getElem?_eq_getElem hx') with ⟨h1, _, _, h2, _⟩ | ⟨r, h⟩
    · exact h2
    · exact absurd hx h.ne
  · intro s t ht hn
    obtain ⟨nd, r, h1, h2, ⟨x, hx, rfl⟩ | ⟨_, q, hq, rfl⟩⟩ := T.tr_cases hw ht
    · exact (hkid h1 h2 x hx).1
    · exact absurd hq hn
  · intro a b t ht t' ht' e hn
    obtain ⟨nd, r, h1, h2, ⟨x, hx, rfl⟩ | ⟨_, q, hq, rfl⟩⟩ := T.tr_cases hw ht
    · obtain ⟨nd', r', h1', h2', ⟨x', hx', rfl⟩ | ⟨_, q, hq, rfl⟩⟩ := T.tr_cases hw ht'
      · obtain ⟨_, k1, k2, _⟩ := hkid h1 h2 x hx
        obtain ⟨_, k1', k2', _⟩ := hkid h1' h2' x' hx'
        have e' : x.2 = x'.2 := e
        rcases Nat.lt_trichotomy a b with hab | hab | hab
        · have := T.order a b nd nd' hab h1 h1'; omega
        · exact hab
        · have := T.order b a nd' nd hab h1' h1; omega
      · rw [e] at hn; exact absurd hq hn
    · exact absurd hq hn
  · intro s
    show (out.trsOf s).Pairwise _
    by_cases hs : s < nodes.length
    · rcases T.done s _ (List.getElem?_eq_getElem hs) with ⟨_, _, _, h, _⟩ | ⟨r, h⟩
      · rw [h]; exact List.Pairwise.nil
      · rw [h.trs, Node.trs, if_neg (by simp [hw]), List.pairwise_append]
        refine ⟨?_, ?_, ?_⟩
        · rw [List.pairwise_map]
          have : ((nodes[s].kids).zipIdx nodes[s].base).Pairwise (fun a b => a.2 < b.2) := by
            rw [← List.pairwise_map (f := Prod.snd) (R := fun a b => a < b), List.zipIdx_map_snd]
            exact List.pairwise_lt_range'
          refine this.imp (fun {a b} hab e => ?_)
          have e' : a.2 = b.2 := e
          omega
        · by_cases h0 : nodes[s].stop = 0
          · rw [h0]; exact List.Pairwise.nil
          · rcases h.has with h2 | h2 | h2
            · rw [hw] at h2; cases h2
            · exact absurd h2 h0
            · obtain ⟨q, hq⟩ := Option.isSome_iff_exists.1 h2
              rw [List.pairwise_replicate]
              right
              intro _
              rw [hq]; rfl
        · intro a ha b hb e
          obtain ⟨x, hx, rfl⟩ := List.mem_map.1 ha
          obtain ⟨h1, rfl⟩ := List.mem_replicate.1 hb
          have := (hkid (List.getElem?_eq_getElem hs) h x hx).2.2.2
          rcases h.has with h2 | h2 | h2
          · rw [hw] at h2; cases h2
          · exact absurd h2 h1
          · obtain ⟨q, hq⟩ := Option.isSome_iff_exists.1 h2
            have e' : x.2 = sf.getD 0 := e
            rw [hq] at e' this
            exact absurd (by rw [e']; rfl) this
    · rw [(T.later s (by omega)).1]; exact List.Pairwise.nil
  · intro x hx hl hn
    have hl' : x < out.numStates := hl
    rw [T.num] at hl'
    rcases T.cover x hx hl' with ⟨h, _⟩ | ⟨s, nd, h1, h2, h3⟩
    · exact absurd h hn
    · rcases T.done s nd h1 with ⟨_, h, _⟩ | ⟨r, h⟩
      · rw [h] at h3; simp at h3; omega
      · have hi : x - nd.base < nd.kids.length := by omega
        refine ⟨s, kidTr cfg neglog r (nd.kids[x - nd.base], x), ?_, rfl⟩
        show _ ∈ out.trsOf s
        rw [h.trs, Node.trs]
        refine List.mem_append_left _ (List.mem_map.2 ⟨_, ?_, rfl⟩)
        rw [List.mem_zipIdx_iff_le_and_getElem?_sub]
        exact ⟨h2, List.getElem?_eq_getElem hi⟩

/-- The paths that are written, and the samples. -/
theorem STree.outs (T : STree f s0 cfg neglog table sf nodes out) (hlen : nodes.length = table.length) (hw : cfg.weighted = false) (p : Props) (L : Nat) :
    ∀ (s : Nat) (nd : Node W) (r : RandState), nodes[s]? = some nd → NodeAt f cfg neglog table sf out s nd r → r.length + L = cfg.maxLength →
      Levels (out.setProps p) sf L s ∧
      (treeOuts (out.setProps p) sf L s).map (fun l => (l.length, labelsOf l)) =
        (samplesAt nodes L s).flatMap (fun a => List.replicate a.count (a.run.length, (a.x, a.y, (1 : W)))) := by
  induction L with
  | zero =>
    intro s nd r hn h hL
    have hkids : nd.kids = [] ∧ nd.stop = 0 := by
      rcases h.drawn.total with ⟨h1, _⟩ | ⟨h1, h2, _⟩
      · exact absurd (by omega) h1
      · exact ⟨h1, h2⟩
    refine ⟨?_, rfl⟩
    show out.trsOf s = []
    rw [h.trs, Node.trs, hkids.1, hkids.2]; simp
  | succ L ih =>
    intro s nd r hn h hL
    have hI : ∀ x ∈ nd.kids.zipIdx nd.base, sf ≠ some x.2 ∧ Levels (out.setProps p) sf L x.2 ∧
      (treeOuts (out.setProps p) sf L x.2).map (fun l => (l.length, labelsOf l)) =
        (samplesAt nodes L x.2).flatMap (fun a => List.replicate a.count (a.run.length, (a.x, a.y, (1 : W)))) := by
      intro x hx
      obtain ⟨_, _, _, _, nd', h1, h2⟩ := T.kid hlen hn h hx
      exact ⟨h2.ne, ih x.2 nd' _ h1 h2 (by show r.length + 1 + L = _; omega)⟩
    constructor
    · intro t ht
      obtain ⟨nd', r', h1, h2, ⟨x, hx, rfl⟩ | ⟨_, q, hq, rfl⟩⟩ := T.tr_cases hw (show t ∈ out.trsOf s from ht)
      · rw [hn] at h1
        cases h1
        exact Or.inr (hI x hx).2.1
      · exact Or.inl hq
    · have e : samplesAt nodes (L + 1) s = (nd.kids.zipIdx nd.base).flatMap (fun x => (samplesAt nodes L x.2).map x.1.pre) ++
          if nd.stop = 0 then [] else [⟨[], [], [], nd.stop⟩] := by
        rw [samplesAt, hn]
      rw [e, treeOuts, show (out.setProps p).trsOf s = out.trsOf s from rfl, h.trs, Node.trs, if_neg (by simp [hw]), List.flatMap_append, List.map_append,
        List.flatMap_append]
      congr 1
      · have hall : ∀ ks : List (Kid W × Nat), (∀ x ∈ ks, x ∈ nd.kids.zipIdx nd.base) →
            ((ks.map (kidTr cfg neglog r)).flatMap fun t => if sf = some t.nextstate then [[]] else
              (treeOuts (out.setProps p) sf L t.nextstate).map (t :: ·)).map (fun l => (l.length, labelsOf l)) =
            (ks.flatMap (fun x => (samplesAt nodes L x.2).map x.1.pre)).flatMap
              (fun a => List.replicate a.count (a.run.length, (a.x, a.y, (1 : W)))) := by
          intro ks
          induction ks with
          | nil => intro _; rfl
          | cons x ks ihk =>
            intro hks
            rw [List.map_cons, List.flatMap_cons, List.map_append, ihk (fun y hy => hks y (List.mem_cons_of_mem _ hy)), List.flatMap_cons,
              List.flatMap_append]
            congr 1
            obtain ⟨h1, _, h2⟩ := hI x (hks x List.mem_cons_self)
            rw [show (kidTr cfg neglog r x).nextstate = x.2 from rfl, if_neg h1, List.map_map]
            have e1 : ((fun l : List (Tr W) => (l.length, labelsOf l)) ∘ (kidTr cfg neglog r x :: ·)) =
                (fun q : Nat × PathT W => (q.1 + 1, (strip x.1.tr.ilabel ++ q.2.1, strip x.1.tr.olabel ++ q.2.2.1, q.2.2.2))) ∘
                  (fun l : List (Tr W) => (l.length, labelsOf l)) := by
              funext l
              simp [labelsOf, kidTr]
            rw [e1, ← List.map_map, h2, List.map_flatMap, List.flatMap_map]
            congr 1
            funext a
            rw [List.map_replicate]
            rfl
        exact hall _ (fun x hx => hx)
      · by_cases h0 : nd.stop = 0
        · rw [if_pos h0, h0]; rfl
        · rw [if_neg h0]
          rcases h.has with h2 | h2 | h2
          · rw [hw] at h2; cases h2
          · exact absurd h2 h0
          · obtain ⟨q, hq⟩ := Option.isSome_iff_exists.1 h2
            have : ∀ n, ((List.replicate n (⟨EPS, EPS, 1, sf.getD 0⟩ : Tr W)).flatMap fun t => if sf = some t.nextstate then [[]] else
              (treeOuts (out.setProps p) sf L t.nextstate).map (t :: ·)) = List.replicate n [] := by
              intro n
              induction n with
              | zero => rfl
              | succ n ihn =>
                rw [List.replicate_succ, List.flatMap_cons, ihn, if_pos (by rw [hq]; rfl)]
                rfl
            rw [this, List.map_replicate]
            simp [labelsOf]

end
end Verif
