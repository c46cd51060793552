import Verif.Lemmas.RandPaths
import Verif.Lemmas.Dfs

/-!
# Random paths: the visitor writes out the paths of the tree
-/

namespace Verif
universe u v
variable {W : Type u}

namespace Dfs
variable {V : Type v}

theorem steps_add (f : Fst W) (vt : Visitor W V) (keep : Tr W → Bool) (root : StateId) (n m : Nat) (st : DfsSt W V) :
    steps f vt keep root (n + m) st = steps f vt keep root m (steps f vt keep root n st) := by
  induction n generalizing st with
  | zero => rw [Nat.zero_add]; rfl
  | succ n ih => rw [Nat.succ_add, steps, ih, steps]

/-- A number of iterations leads from one situation to another. -/
def Leads (f : Fst W) (vt : Visitor W V) (keep : Tr W → Bool) (root : StateId) (a b : DfsSt W V) : Prop := ∃ n, steps f vt keep root n a = b

theorem Leads.trans {f : Fst W} {vt : Visitor W V} {keep : Tr W → Bool} {root : StateId} {a b c : DfsSt W V} (h : Leads f vt keep root a b)
    (h' : Leads f vt keep root b c) : Leads f vt keep root a c := by
  obtain ⟨n, h⟩ := h
  obtain ⟨m, h'⟩ := h'
  exact ⟨n + m, by rw [steps_add, h, h']⟩

theorem Leads.step {f : Fst W} {vt : Visitor W V} {keep : Tr W → Bool} {root : StateId} {a b : DfsSt W V} (h : Dfs.step f vt keep root a = b) :
    Leads f vt keep root a b := ⟨1, h⟩

/-- The stack is emptied by `fuel` iterations if it is emptied at all. -/
theorem steps_of_leads {f : Fst W} {vt : Visitor W V} {keep : Tr W → Bool} {root : StateId} {a b : DfsSt W V} {N : Nat}
    (h : Leads f vt keep root a b) (hb : b.stack = []) (he : (steps f vt keep root N a).stack = []) : steps f vt keep root N a = b := by
  obtain ⟨n, h⟩ := h
  rcases Nat.le_total n N with hl | hl
  · obtain ⟨d, rfl⟩ := Nat.exists_eq_add_of_le hl
    rw [steps_add, h, steps_nil _ _ _ _ _ _ hb]
  · obtain ⟨d, rfl⟩ := Nat.exists_eq_add_of_le hl
    rw [steps_add, steps_nil _ _ _ _ _ _ he] at h
    exact h

end Dfs

section
variable [Zero W] [One W] [DecidableEq W]

/-- `o` is a tree from state 0 except that `sf`, its only final state, may be entered often. -/
structure TreeLike (o : Fst W) (sf : Option StateId) : Prop where
  start : o.start = some 0
  pos : 0 < o.numStates
  wf : ∀ s, ∀ t ∈ o.trsOf s, t.nextstate < o.numStates
  fin : ∀ s, s < o.numStates → o.isFinalR s = .ok (decide (sf = some s))
  sf0 : sf ≠ some 0
  leaf : ∀ x, sf = some x → o.trsOf x = []
  up : ∀ s, ∀ t ∈ o.trsOf s, sf ≠ some t.nextstate → s < t.nextstate
  one : ∀ a b, ∀ t ∈ o.trsOf a, ∀ t' ∈ o.trsOf b, t.nextstate = t'.nextstate → sf ≠ some t.nextstate → a = b
  once : ∀ s, (o.trsOf s).Pairwise (fun t t' => t.nextstate = t'.nextstate → sf = some t.nextstate)
  cover : ∀ x, 0 < x → x < o.numStates → sf ≠ some x → ∃ s, ∃ t ∈ o.trsOf s, t.nextstate = x

/-- A step of the tree. -/
def TStep (o : Fst W) (sf : Option StateId) (a b : StateId) : Prop := ∃ t ∈ o.trsOf a, t.nextstate = b ∧ sf ≠ some b

/-- `b` is below `a` in the tree, or equal. -/
abbrev TBelow (o : Fst W) (sf : Option StateId) : StateId → StateId → Prop := Relation.ReflTransGen (TStep o sf)

/-- The tree from `s` on has at most `L` levels. -/
def Levels (o : Fst W) (sf : Option StateId) : Nat → StateId → Prop
  | 0, s => o.trsOf s = []
  | L + 1, s => ∀ t ∈ o.trsOf s, sf = some t.nextstate ∨ Levels o sf L t.nextstate

/-- The paths to `sf`, without the last transition. -/
def treeOuts (o : Fst W) (sf : Option StateId) : Nat → StateId → List (List (Tr W))
  | 0, _ => []
  | L + 1, s => (o.trsOf s).flatMap fun t => if sf = some t.nextstate then [[]] else (treeOuts o sf L t.nextstate).map (t :: ·)

variable {o : Fst W} {sf : Option StateId}

theorem TreeLike.below_le (T : TreeLike o sf) {a b : StateId} (h : TBelow o sf a b) : a ≤ b := by
  induction h with
  | refl => exact le_rfl
  | tail _ h ih =>
    obtain ⟨t, ht, rfl, hn⟩ := h
    exact ih.trans (T.up _ t ht hn).le

omit [Zero W] [One W] [DecidableEq W] in
theorem TBelow.ne_sf {a b : StateId} (h : TBelow o sf a b) (ha : sf ≠ some a) : sf ≠ some b := by
  cases h with
  | refl => exact ha
  | tail _ h => obtain ⟨t, ht, rfl, hn⟩ := h; exact hn

/-- Two states above a common state are comparable. -/
theorem TreeLike.compare (T : TreeLike o sf) {a b x : StateId} (ha : TBelow o sf a x) (hb : TBelow o sf b x) : TBelow o sf a b ∨ TBelow o sf b a := by
  induction ha with
  | refl => exact Or.inr hb
  | @tail y z hy hz ih =>
    cases hb with
    | refl => exact Or.inl (hy.tail hz)
    | @tail y' _ hb' hz' =>
      obtain ⟨t, ht, rfl, hn⟩ := hz
      obtain ⟨t', ht', e, hn'⟩ := hz'
      have := T.one _ _ t ht t' ht' e.symm hn
      subst this
      exact ih hb'

/-- Different followers of a state have nothing in common. -/
theorem TreeLike.disjoint (T : TreeLike o sf) {s : StateId} {t t' : Tr W} (ht : t ∈ o.trsOf s) (ht' : t' ∈ o.trsOf s) (hn : sf ≠ some t.nextstate)
    (hn' : sf ≠ some t'.nextstate) (hne : t.nextstate ≠ t'.nextstate) {x : StateId} (h : TBelow o sf t.nextstate x) : ¬ TBelow o sf t'.nextstate x := by
  intro h'
  have key : ∀ t t' : Tr W, t ∈ o.trsOf s → t' ∈ o.trsOf s → sf ≠ some t.nextstate → t.nextstate ≠ t'.nextstate →
      ¬ TBelow o sf t.nextstate t'.nextstate := by
    intro t t' ht ht' hn hne hb
    cases Relation.ReflTransGen.cases_tail hb with
    | inl e => exact hne e.symm
    | inr e =>
      obtain ⟨y, hy, u, hu, e, hn'⟩ := e
      have := T.one _ _ u hu t' ht' e (by rw [e]; exact hn')
      subst this
      have h1 := T.below_le hy
      have h2 := T.up _ t ht hn
      omega
  rcases T.compare h h' with h1 | h1
  · exact key t t' ht ht' hn hne h1
  · exact key t' t ht' ht hn' (Ne.symm hne) h1

open Dfs

/-- The paths that a visit has written. -/
def fanAll (g : Fst W) (l : List (List (Tr W))) : Fst W := l.foldl RandV.output g

theorem TreeLike.visit (T : TreeLike o sf) (root : StateId) (L : Nat) :
    ∀ (s : StateId) (st : DfsSt W (RandV W)) k, Levels o sf L s → st.stack = (s, o.trsOf s) :: k → st.dfs = true → st.vis.panicked = false →
      (∀ x, TBelow o sf s x → x ≠ s → st.color x = .white) → (∀ x, sf = some x → st.color x ≠ .grey) →
      ∃ st', Leads o (RandV.visitor o) (fun _ => true) root st st' ∧ st'.stack = (s, []) :: k ∧ st'.dfs = true ∧
        st'.vis = ⟨fanAll st.vis.ofst ((treeOuts o sf L s).map (st.vis.path ++ ·)), st.vis.path, false⟩ ∧
        (∀ x, TBelow o sf s x → x ≠ s → st'.color x = .black) ∧
        (∀ x, ¬ TBelow o sf s x ∨ x = s → sf ≠ some x → st'.color x = st.color x) ∧ (∀ x, sf = some x → st'.color x ≠ .grey) := by
  induction L with
  | zero =>
    intro s st k hL hst hd hp hw hsf
    have hL' : o.trsOf s = [] := hL
    refine ⟨st, ⟨0, rfl⟩, by rw [hst, hL'], hd, ?_, ?_, fun _ _ _ => rfl, hsf⟩
    · rw [← hp]; rfl
    · intro x hx hne
      exfalso
      rcases Relation.ReflTransGen.cases_head hx with e | ⟨y, ⟨t, ht, _⟩, _⟩
      · exact hne e.symm
      · rw [hL'] at ht; simp at ht
  | succ L ih =>
    intro s st k hL hst hd hp hw hsf
    have inner : ∀ (ts : List (Tr W)) (st : DfsSt W (RandV W)), (∀ t ∈ ts, t ∈ o.trsOf s) →
        ts.Pairwise (fun t t' => t.nextstate = t'.nextstate → sf = some t.nextstate) → st.stack = (s, ts) :: k → st.dfs = true →
        st.vis.panicked = false → (∀ t ∈ ts, sf ≠ some t.nextstate → ∀ x, TBelow o sf t.nextstate x → st.color x = .white) →
        (∀ x, sf = some x → st.color x ≠ .grey) →
        ∃ st', Leads o (RandV.visitor o) (fun _ => true) root st st' ∧ st'.stack = (s, []) :: k ∧ st'.dfs = true ∧
          st'.vis = ⟨fanAll st.vis.ofst ((ts.flatMap fun t => if sf = some t.nextstate then [[]] else (treeOuts o sf L t.nextstate).map (t :: ·)).map
            (st.vis.path ++ ·)), st.vis.path, false⟩ ∧
          (∀ t ∈ ts, sf ≠ some t.nextstate → ∀ x, TBelow o sf t.nextstate x → st'.color x = .black) ∧
          (∀ x, (∀ t ∈ ts, sf ≠ some t.nextstate → ¬ TBelow o sf t.nextstate x) → sf ≠ some x → st'.color x = st.color x) ∧
          (∀ x, sf = some x → st'.color x ≠ .grey) := by
      intro ts
      induction ts with
      | nil =>
        intro st _ _ hst hd hp _ hsf
        refine ⟨st, ⟨0, rfl⟩, hst, hd, ?_, by simp, fun _ _ _ => rfl, hsf⟩
        rw [← hp]; rfl
      | cons t rest ihr =>
        intro st hmem hpw hst hd hp hw hsf
        have htm := hmem t List.mem_cons_self
        rw [List.pairwise_cons] at hpw
        by_cases hn : sf = some t.nextstate
        · -- the path ends
          have key : ∃ c, Leads o (RandV.visitor o) (fun _ => true) root st
              ⟨c, (s, rest) :: k, ⟨RandV.output st.vis.ofst st.vis.path, st.vis.path, false⟩, true⟩ ∧ (∀ x, sf ≠ some x → c x = st.color x) ∧
              (∀ x, sf = some x → c x ≠ .grey) := by
            cases hc : st.color t.nextstate with
            | grey => exact absurd hc (hsf _ hn)
            | black =>
              refine ⟨st.color, Leads.step ?_, fun _ _ => rfl, hsf⟩
              unfold Dfs.step
              rw [hst]
              simp only [hd, if_true, followTr, hc]
              simp only [RandV.visitor, hp]
            | white =>
              have hfin := T.fin _ (T.wf _ _ htm)
              rw [decide_eq_true hn] at hfin
              have hleaf := T.leaf _ hn
              refine ⟨upd (upd st.color t.nextstate .grey) t.nextstate .black, Leads.trans (Leads.step (b := ⟨upd st.color t.nextstate .grey,
                (t.nextstate, []) :: (s, t :: rest) :: k, ⟨RandV.output st.vis.ofst st.vis.path, st.vis.path, false⟩, true⟩) ?_) (Leads.step ?_), ?_, ?_⟩
              · unfold Dfs.step
                rw [hst]
                simp only [hd, if_true, followTr, hc, RandV.visitor, hfin, hleaf, hp]
              · unfold Dfs.step
                simp only [if_true, finishTop, RandV.visitor, hfin, List.tail_cons]
                rw [if_neg (by simp)]
              · intro x hx
                have hx' : x ≠ t.nextstate := fun e => hx (by rw [e]; exact hn)
                simp [upd, hx']
              · intro x hx
                rw [hn] at hx
                cases hx
                simp [upd]
          obtain ⟨c, h1, h2, h3⟩ := key
          obtain ⟨st', g1, g2, g3, g4, g5, g6, g7⟩ := ihr ⟨c, (s, rest) :: k, ⟨RandV.output st.vis.ofst st.vis.path, st.vis.path, false⟩, true⟩
            (fun u hu => hmem u (List.mem_cons_of_mem _ hu)) hpw.2 rfl rfl rfl
            (fun u hu hnu x hx => by
              show c x = _
              rw [h2 x (hx.ne_sf hnu)]
              exact hw u (List.mem_cons_of_mem _ hu) hnu x hx) h3
          refine ⟨st', h1.trans g1, g2, g3, ?_, ?_, ?_, g7⟩
          · rw [g4]
            simp only [List.flatMap_cons, hn, if_true, List.map_append, List.map_cons, List.append_nil, List.map_nil, List.singleton_append, fanAll,
              List.foldl_cons]
          · intro u hu hnu
            rcases List.mem_cons.1 hu with rfl | hu
            · exact absurd hn hnu
            · exact g5 u hu hnu
          · intro x hx hx'
            rw [g6 x (fun u hu => hx u (List.mem_cons_of_mem _ hu)) hx']
            exact h2 x hx'
        · -- another level
          have hlt := T.wf _ _ htm
          have hfin := T.fin _ hlt
          rw [decide_eq_false hn] at hfin
          have hcw : st.color t.nextstate = .white := hw t List.mem_cons_self hn _ .refl
          have hL1 : Levels o sf L t.nextstate := (hL t htm).resolve_left hn
          have h1 : Leads o (RandV.visitor o) (fun _ => true) root st ⟨upd st.color t.nextstate .grey,
              (t.nextstate, o.trsOf t.nextstate) :: (s, t :: rest) :: k, ⟨st.vis.ofst, st.vis.path ++ [t], false⟩, true⟩ := by
            refine Leads.step ?_
            unfold Dfs.step
            rw [hst]
            simp only [hd, if_true, followTr, hcw, RandV.visitor, hfin, hp]
          obtain ⟨st1, a1, a2, a3, a4, a5, a6, a7⟩ := ih t.nextstate ⟨upd st.color t.nextstate .grey,
              (t.nextstate, o.trsOf t.nextstate) :: (s, t :: rest) :: k, ⟨st.vis.ofst, st.vis.path ++ [t], false⟩, true⟩ ((s, t :: rest) :: k) hL1 rfl rfl rfl
            (fun x hx hne => by
              show upd st.color t.nextstate .grey x = _
              rw [upd, if_neg hne]
              exact hw t List.mem_cons_self hn x hx)
            (fun x hx => by
              show upd st.color t.nextstate .grey x ≠ _
              rw [upd, if_neg (fun e => hn (by rw [← e]; exact hx))]
              exact hsf x hx)
          have h2 : Leads o (RandV.visitor o) (fun _ => true) root st1 ⟨upd st1.color t.nextstate .black, (s, rest) :: k,
              ⟨st1.vis.ofst, st.vis.path, false⟩, true⟩ := by
            refine Leads.step ?_
            unfold Dfs.step
            rw [a2]
            simp only [a3, if_true, finishTop, RandV.visitor, hfin, List.tail_cons, Option.isSome_some, and_self]
            rw [a4]
            simp
          obtain ⟨st', g1, g2, g3, g4, g5, g6, g7⟩ := ihr ⟨upd st1.color t.nextstate .black, (s, rest) :: k,
              ⟨st1.vis.ofst, st.vis.path, false⟩, true⟩
            (fun u hu => hmem u (List.mem_cons_of_mem _ hu)) hpw.2 rfl rfl rfl
            (fun u hu hnu x hx => by
              show upd st1.color t.nextstate .black x = _
              have hne : u.nextstate ≠ t.nextstate := fun e => hn (hpw.1 u hu e.symm)
              have hdis := T.disjoint (hmem u (List.mem_cons_of_mem _ hu)) htm hnu hn hne hx
              have hx' : x ≠ t.nextstate := fun e => hdis (by rw [e])
              rw [upd, if_neg hx', a6 x (Or.inl hdis) (hx.ne_sf hnu)]
              show upd st.color t.nextstate .grey x = _
              rw [upd, if_neg hx']
              exact hw u (List.mem_cons_of_mem _ hu) hnu x hx)
            (fun x hx => by
              show upd st1.color t.nextstate .black x ≠ _
              rw [upd, if_neg (fun e => hn (by rw [← e]; exact hx))]
              exact a7 x hx)
          refine ⟨st', h1.trans (a1.trans (h2.trans g1)), g2, g3, ?_, ?_, ?_, g7⟩
          · rw [g4]
            simp only [List.flatMap_cons, hn, if_false, List.map_append, a4, List.map_map]
            rw [fanAll, fanAll, fanAll, List.foldl_append]
            congr 4
            funext l
            simp
          · intro u hu hnu x hx
            rcases List.mem_cons.1 hu with rfl | hu
            · rw [g6 x (fun v hv hnv => ?_) (hx.ne_sf hnu)]
              · show upd st1.color u.nextstate .black x = _
                rw [upd]
                split
                · rfl
                · rename_i hne; exact a5 x hx hne
              · exact T.disjoint htm (hmem v (List.mem_cons_of_mem _ hv)) hnu hnv (fun e => hnu (hpw.1 v hv e)) hx
            · exact g5 u hu hnu x hx
          · intro x hx hx'
            rw [g6 x (fun u hu => hx u (List.mem_cons_of_mem _ hu)) hx']
            have hb := hx t List.mem_cons_self hn
            have hne : x ≠ t.nextstate := fun e => hb (by rw [e])
            show upd st1.color t.nextstate .black x = _
            rw [upd, if_neg hne, a6 x (Or.inl hb) hx']
            show upd st.color t.nextstate .grey x = _
            rw [upd, if_neg hne]
    obtain ⟨st', g1, g2, g3, g4, g5, g6, g7⟩ := inner (o.trsOf s) st (fun _ h => h) (T.once s) hst hd hp
      (fun t ht hn x hx => hw x (.head ⟨t, ht, rfl, hn⟩ hx) (fun e => by
        have h1 := T.below_le hx
        have h2 := T.up _ t ht hn
        omega)) hsf
    refine ⟨st', g1, g2, g3, g4, ?_, ?_, g7⟩
    · intro x hx hne
      rcases Relation.ReflTransGen.cases_head hx with e | ⟨y, ⟨t, ht, rfl, hn⟩, hy⟩
      · exact absurd e.symm hne
      · exact g5 t ht hn x hy
    · intro x hx hx'
      refine g6 x (fun t ht hn hb => ?_) hx'
      rcases hx with hx | hx
      · exact hx (.head ⟨t, ht, rfl, hn⟩ hb)
      · have h1 := T.below_le hb
        have h2 := T.up _ t ht hn
        omega

/-- Every state of the tree but the superfinal one is below the root. -/
theorem TreeLike.all_below (T : TreeLike o sf) : ∀ x, x < o.numStates → sf ≠ some x → TBelow o sf 0 x := by
  intro x
  induction x using Nat.strong_induction_on with
  | _ x ih =>
    intro hl hn
    rcases Nat.eq_zero_or_pos x with rfl | hp
    · exact .refl
    · obtain ⟨s, t, ht, rfl⟩ := T.cover x hp hl hn
      have h1 := T.up s t ht hn
      refine (ih s h1 (by omega) (fun e => ?_)).tail ⟨t, ht, rfl, hn⟩
      rw [T.leaf s e] at ht
      simp at ht

theorem visitRoot_empty {V : Type v} {f : Fst W} {vt : Visitor W V} {keep : Tr W → Bool} {root : StateId}
    (hw : ∀ s, ∀ t ∈ f.trsOf s, t.nextstate < f.numStates) (hr : root < f.numStates) (st : DfsSt W V) (hc : st.color root = .white) :
    (visitRoot f vt keep root st).stack = [] :=
  (visitRoot_induct (P := fun _ => True) hw hr st hc trivial (fun _ _ _ => trivial)).2

/-- The whole visit. -/
theorem TreeLike.fan (T : TreeLike o sf) {L : Nat} (hL : Levels o sf L 0) : randFan o = .ok (fanAll Fst.new (treeOuts o sf L 0)) := by
  have h1 : ∃ st1 : DfsSt W (RandV W), visitRoot o (RandV.visitor o) (fun _ => true) 0 ⟨fun _ => .white, [], ⟨Fst.new, [], false⟩, true⟩ = st1 ∧
      st1.dfs = true ∧ st1.vis = ⟨fanAll Fst.new (treeOuts o sf L 0), [], false⟩ ∧ (∀ x, x < o.numStates → sf ≠ some x → st1.color x ≠ .white) := by
    obtain ⟨st', g1, g2, g3, g4, g5, g6, g7⟩ := T.visit 0 L 0 ⟨upd (fun _ => .white) 0 .grey, [(0, o.trsOf 0)], ⟨Fst.new, [], false⟩, true⟩ [] hL rfl rfl rfl
      (fun x _ hne => by simp only [upd]; rw [if_neg hne])
      (fun x hx => by simp only [upd]; rw [if_neg (fun e => T.sf0 (by rw [← e]; exact hx))]; simp)
    have h2 : Leads o (RandV.visitor o) (fun _ => true) 0 st' ⟨upd st'.color 0 .black, [], st'.vis, true⟩ := by
      refine Leads.step ?_
      unfold Dfs.step
      rw [g2]
      simp only [g3, if_true, finishTop, RandV.visitor]
      rw [if_neg (by simp)]
    have h3 := steps_of_leads (g1.trans h2) rfl (visitRoot_empty (vt := RandV.visitor o) (keep := fun _ => true) T.wf T.pos
      ⟨fun _ => .white, [], ⟨Fst.new, [], false⟩, true⟩ rfl)
    refine ⟨_, h3, rfl, ?_, ?_⟩
    · show st'.vis = _
      rw [g4]
      simp
    · intro x hx hn
      show upd st'.color 0 .black x ≠ _
      rw [upd]
      split
      · simp
      · rename_i hne
        rw [g5 x (T.all_below x hx hn) hne]
        simp
  obtain ⟨st1, e1, e2, e3, e4⟩ := h1
  have h5 : ∀ (l : List Nat) (st : DfsSt W (RandV W)), (∀ x ∈ l, x < o.numStates) → st.dfs = true → (∀ x, x < o.numStates → sf ≠ some x → st.color x ≠ .white) →
      (l.foldl (nextRoot o (RandV.visitor o) (fun _ => true)) st).vis = st.vis := by
    intro l
    induction l with
    | nil => intro st _ _ _; rfl
    | cons r l ih =>
      intro st hl hd hc
      rw [List.foldl_cons]
      by_cases hr : st.color r = .white
      · have hrl := hl r List.mem_cons_self
        have hrs : sf = some r := by
          by_contra hn
          exact hc r hrl hn hr
        have hst : nextRoot o (RandV.visitor o) (fun _ => true) st r = ⟨upd (upd st.color r .grey) r .black, [], st.vis, true⟩ := by
          unfold nextRoot
          rw [hd, hr]
          simp only [decide_true, Bool.and_self, if_true]
          have h2 : Leads o (RandV.visitor o) (fun _ => true) r ⟨upd st.color r .grey, [(r, o.trsOf r)], st.vis, true⟩
              ⟨upd (upd st.color r .grey) r .black, [], st.vis, true⟩ := by
            refine Leads.step ?_
            unfold Dfs.step
            rw [T.leaf r hrs]
            simp only [if_true, finishTop, RandV.visitor]
            rw [if_neg (by simp)]
          exact steps_of_leads h2 rfl (visitRoot_empty (vt := RandV.visitor o) (keep := fun _ => true) T.wf hrl st hr)
        rw [hst, ih _ (fun x hx => hl x (List.mem_cons_of_mem _ hx)) rfl (fun x hx hn => ?_)]
        have hne : x ≠ r := fun e => hn (by rw [e]; exact hrs)
        simp only [upd, if_neg hne]
        exact hc x hx hn
      · have hst : nextRoot o (RandV.visitor o) (fun _ => true) st r = st := by
          unfold nextRoot
          rw [if_neg (by simp [hr])]
        rw [hst]
        exact ih st (fun x hx => hl x (List.mem_cons_of_mem _ hx)) hd hc
  have h6 := h5 (List.range o.numStates) st1 (fun x hx => List.mem_range.1 hx) e2 e4
  have h7 : Dfs.visit o (RandV.visitor o) (fun _ => true) ⟨Fst.new, [], false⟩ = ⟨fanAll Fst.new (treeOuts o sf L 0), [], false⟩ := by
    rw [← e3, ← h6, ← e1]
    unfold Dfs.visit
    rw [T.start]
    simp only [T.pos, if_true]
    rfl
  unfold randFan
  rw [h7]
  rfl

end
end Verif
