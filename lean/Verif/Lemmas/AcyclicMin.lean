import Verif.Lemmas.Heights

/-! # The partition of `AcyclicMinimizer` -/

namespace Verif
set_option linter.unusedSectionVars false
universe u v
variable {W : Type u}

namespace Fst

theorem find?_congr_mem {α : Type v} {P Q : α → Bool} : ∀ {l : List α}, (∀ a ∈ l, P a = Q a) → l.find? P = l.find? Q := by
  intro l
  induction l with
  | nil => intro _; rfl
  | cons a l ih =>
    intro h
    rw [List.find?_cons, List.find?_cons, h a (by simp), ih (fun b hb => h b (by simp [hb]))]

/-- What distinguishes states of the same height: whether they are final, the labels, and the classes of the next states. -/
def sig (f : Fst W) (cl : Nat → Option Nat) (s : StateId) : Bool × List (Label × Option Nat) :=
  ((f.finOf s).isSome, (f.trsOf s).map fun t => (t.ilabel, cl t.nextstate))

theorem lessTrs_spec {p : Part} {cl : Nat → Option Nat} : ∀ (as bs : List (Tr W)), as.length = bs.length →
    (∀ t ∈ as, ∃ c, cl t.nextstate = some c ∧ p.getClassId t.nextstate = .ok c) → (∀ t ∈ bs, ∃ c, cl t.nextstate = some c ∧ p.getClassId t.nextstate = .ok c) →
    ∃ a b, lessTrs p as bs = .ok a ∧ lessTrs p bs as = .ok b ∧
      ((a = false ∧ b = false) ↔ as.map (fun t => (t.ilabel, cl t.nextstate)) = bs.map (fun t => (t.ilabel, cl t.nextstate))) := by
  intro as
  induction as with
  | nil =>
    intro bs hl _ _
    have : bs = [] := List.length_eq_zero_iff.1 (by simpa using hl.symm)
    subst this
    exact ⟨false, false, rfl, rfl, by simp⟩
  | cons a as ih =>
    intro bs hl h1 h2
    cases bs with
    | nil => simp at hl
    | cons b bs =>
      simp only [List.length_cons, Nat.add_right_cancel_iff] at hl
      obtain ⟨c, hc, hc'⟩ := h1 a (by simp)
      obtain ⟨d, hd, hd'⟩ := h2 b (by simp)
      obtain ⟨x, y, g1, g2, g3⟩ := ih bs hl (fun t ht => h1 t (by simp [ht])) (fun t ht => h2 t (by simp [ht]))
      simp only [lessTrs, hc', hd', bind, Except.bind, List.map_cons, List.cons.injEq, Prod.mk.injEq, hc, hd, Option.some.injEq]
      rcases lt_trichotomy a.ilabel b.ilabel with h | h | h
      · refine ⟨true, false, by rw [if_pos h], by rw [if_neg (by omega), if_pos h], ?_⟩
        constructor
        · rintro ⟨h, -⟩; cases h
        · rintro ⟨⟨h', -⟩, -⟩; omega
      · rcases lt_trichotomy c d with h' | h' | h'
        · refine ⟨true, false, by rw [if_neg (by omega), if_neg (by omega), if_pos h'], by rw [if_neg (by omega), if_neg (by omega), if_neg (by omega), if_pos h'], ?_⟩
          constructor
          · rintro ⟨h, -⟩; cases h
          · rintro ⟨⟨-, h''⟩, -⟩; omega
        · refine ⟨x, y, by rw [if_neg (by omega), if_neg (by omega), if_neg (by omega), if_neg (by omega)]; exact g1,
            by rw [if_neg (by omega), if_neg (by omega), if_neg (by omega), if_neg (by omega)]; exact g2, ?_⟩
          rw [g3]
          simp [h, h']
        · refine ⟨false, true, by rw [if_neg (by omega), if_neg (by omega), if_neg (by omega), if_pos h'], by rw [if_neg (by omega), if_neg (by omega), if_pos h'], ?_⟩
          constructor
          · rintro ⟨-, h⟩; cases h
          · rintro ⟨⟨-, h''⟩, -⟩; omega
      · refine ⟨false, true, by rw [if_neg (by omega), if_pos h], by rw [if_pos h], ?_⟩
        constructor
        · rintro ⟨-, h⟩; cases h
        · rintro ⟨⟨h', -⟩, -⟩; omega

variable [Zero W] [One W]

/-- `<` on the weights zero and one: it is irreflexive and compares them. -/
structure LtOk (lt : W → W → Bool) : Prop where
  zero : lt 0 0 = false
  one : lt 1 1 = false
  ne : (lt 0 1 || lt 1 0) = true

section
variable {lt : W → W → Bool} {f : Fst W} {p : Part} {σ : PState}

theorem sameState_spec (hlt : LtOk lt) (hfin : ∀ s w, f.finOf s = some w → w = 1) (hw : f.WF) (hp : Part.Rep p σ) (hall : ∀ e, e < f.numStates → (σ.cls e).isSome = true)
    {x y : StateId} (hx : x < f.numStates) (hy : y < f.numStates) : f.sameState lt p x y = .ok (decide (f.sig σ.cls x = f.sig σ.cls y)) := by
  have hxs : x < f.states.length := hx
  have hys : y < f.states.length := hy
  have t1 : f.getTrsR x = .ok (f.trsOf x) := by simp [getTrsR, trsOf, List.getElem?_eq_getElem hxs]
  have t2 : f.getTrsR y = .ok (f.trsOf y) := by simp [getTrsR, trsOf, List.getElem?_eq_getElem hys]
  have w1 : f.finalWeightR x = .ok (f.finOf x) := by simp [finalWeightR, finOf, List.getElem?_eq_getElem hxs]
  have w2 : f.finalWeightR y = .ok (f.finOf y) := by simp [finalWeightR, finOf, List.getElem?_eq_getElem hys]
  unfold sameState
  by_cases hxy : x = y
  · subst hxy; simp
  · rw [if_neg hxy]
    simp only [lessState, t1, t2, w1, w2, R.andThen_ok]
    have hcl : ∀ s, ∀ t ∈ f.trsOf s, ∃ c, σ.cls t.nextstate = some c ∧ p.getClassId t.nextstate = .ok c := by
      intro s t ht
      obtain ⟨c, hc⟩ := Option.isSome_iff_exists.1 (hall _ (hw.next_lt s t ht))
      exact ⟨c, hc, hp.shows.classId _ _ hc⟩
    by_cases hff : (f.finOf x).isSome = (f.finOf y).isSome
    · have e1 : lt ((f.finOf x).getD 0) ((f.finOf y).getD 0) = false ∧ lt ((f.finOf y).getD 0) ((f.finOf x).getD 0) = false := by
        cases ha : f.finOf x with
        | none =>
          rw [ha] at hff
          cases hb : f.finOf y with
          | none => exact ⟨hlt.zero, hlt.zero⟩
          | some w => rw [hb] at hff; cases hff
        | some v =>
          rw [ha] at hff
          cases hb : f.finOf y with
          | none => rw [hb] at hff; cases hff
          | some w =>
            rw [hfin x v ha, hfin y w hb]
            exact ⟨hlt.one, hlt.one⟩
      simp only [e1.1, e1.2, Bool.false_eq_true, if_false]
      rcases lt_trichotomy (f.trsOf x).length (f.trsOf y).length with h | h | h
      · rw [if_pos h, if_neg (by omega), if_pos h]
        have : f.sig σ.cls x ≠ f.sig σ.cls y := by
          intro he
          have := congrArg (fun z => z.2.length) he
          simp only [sig, List.length_map] at this
          omega
        simp [bind, Except.bind, this]
      · rw [if_neg (by omega), if_neg (by omega), if_neg (by omega), if_neg (by omega)]
        obtain ⟨a, b, g1, g2, g3⟩ := lessTrs_spec (p := p) (cl := σ.cls) (f.trsOf x) (f.trsOf y) h (hcl x) (hcl y)
        simp only [g1, g2, bind, Except.bind]
        have : f.sig σ.cls x = f.sig σ.cls y ↔ (a = false ∧ b = false) := by
          rw [g3]; simp [sig, hff]
        by_cases hsg : f.sig σ.cls x = f.sig σ.cls y
        · obtain ⟨rfl, rfl⟩ := this.1 hsg
          simp [hsg]
        · rw [decide_eq_false hsg]
          cases a <;> cases b <;> simp [hsg] at this ⊢
      · rw [if_neg (by omega), if_pos h, if_pos h]
        have : f.sig σ.cls x ≠ f.sig σ.cls y := by
          intro he
          have := congrArg (fun z => z.2.length) he
          simp only [sig, List.length_map] at this
          omega
        simp [bind, Except.bind, this]
    · have hne : f.sig σ.cls x ≠ f.sig σ.cls y := fun he => hff (congrArg Prod.fst he)
      have hor : lt ((f.finOf x).getD 0) ((f.finOf y).getD 0) = true ∨ lt ((f.finOf y).getD 0) ((f.finOf x).getD 0) = true := by
        have h := hlt.ne
        rw [Bool.or_eq_true] at h
        cases ha : f.finOf x with
        | none =>
          rw [ha] at hff
          cases hb : f.finOf y with
          | none => rw [hb] at hff; exact absurd rfl hff
          | some w => rw [hfin y w hb]; exact h
        | some v =>
          rw [ha] at hff
          cases hb : f.finOf y with
          | none => rw [hfin x v ha]; exact h.symm
          | some w => rw [hb] at hff; exact absurd rfl hff
      generalize lt ((f.finOf x).getD 0) ((f.finOf y).getD 0) = A at *
      generalize lt ((f.finOf y).getD 0) ((f.finOf x).getD 0) = B at *
      rw [decide_eq_false hne]
      cases A <;> cases B <;> simp [bind, Except.bind] at hor ⊢

theorem findClass_spec (hlt : LtOk lt) (hfin : ∀ s w, f.finOf s = some w → w = 1) (hw : f.WF) (hp : Part.Rep p σ) (hall : ∀ e, e < f.numStates → (σ.cls e).isSome = true)
    {s : StateId} (hs : s < f.numStates) : ∀ (tree : List (StateId × Nat)), (∀ k ∈ tree, k.1 < f.numStates) →
    f.findClass lt p s tree = .ok ((tree.find? fun k => f.sig σ.cls k.1 = f.sig σ.cls s).map (·.2)) := by
  intro tree
  induction tree with
  | nil => intro _; rfl
  | cons k tree ih =>
    intro hk
    obtain ⟨k, c⟩ := k
    simp only [findClass, sameState_spec hlt hfin hw hp hall (hk (k, c) (by simp)) hs, bind, Except.bind, List.find?_cons]
    by_cases h : f.sig σ.cls k = f.sig σ.cls s
    · simp [h]
    · rw [decide_eq_false h]
      simpa using ih (fun x hx => hk x (by simp [hx]))

/-- The tree of the classes of one height. -/
structure Tree (f : Fst W) (cl : Nat → Option Nat) (h nc : Nat) (seen : List StateId) (tree : List (StateId × Nat)) : Prop where
  keys : ∀ k ∈ tree, k.1 < f.numStates
  mem : ∀ k ∈ tree, k.1 ∈ seen
  cls : ∃ m, tree.map (·.2) = h :: List.range' nc m ∧ tree.length = m + 1
  nd : (tree.map fun k => f.sig cl k.1).Nodup
  all : ∀ s ∈ seen, f.sig cl s ∈ tree.map fun k => f.sig cl k.1

theorem tree_ok (hlt : LtOk lt) (hfin : ∀ s w, f.finOf s = some w → w = 1) (hw : f.WF) (hp : Part.Rep p σ) (hall : ∀ e, e < f.numStates → (σ.cls e).isSome = true)
    (h : Nat) (e : StateId) (rest : List StateId) (hl : ∀ s ∈ e :: rest, s < f.numStates) :
    ∃ tree p' m, rest.foldlM (f.treeInsert lt) ([(e, h)], p) = .ok (tree, p') ∧ Part.Rep p' { σ with nc := σ.nc + m } ∧ tree.length = m + 1 ∧
      Tree f σ.cls h σ.nc (e :: rest) tree := by
  obtain ⟨⟨tree, p'⟩, h1, m, h2, h3, h4⟩ := foldlM_R_induct (fun done (a : List (StateId × Nat) × Part) => ∃ m, Part.Rep a.2 { σ with nc := σ.nc + m } ∧
      a.1.length = m + 1 ∧ Tree f σ.cls h σ.nc (e :: done) a.1) (f.treeInsert lt) rest [] ([(e, h)], p)
    ⟨0, by simpa using hp, rfl, ⟨by simpa using hl e (by simp), by simp, ⟨0, by simp, rfl⟩, by simp, by simp⟩⟩ (by
      rintro d s ⟨tree, p1⟩ ⟨rest', hr⟩ ⟨m, g1, g2, g3⟩
      simp only at g1 g2 g3
      have hs : s < f.numStates := hl s (by rw [List.nil_append] at hr; rw [hr]; simp)
      have hfc := findClass_spec hlt hfin hw g1 hall hs tree g3.keys
      cases hf : tree.find? fun k => f.sig σ.cls k.1 = f.sig σ.cls s with
      | some k =>
        have := List.find?_some hf
        have hm := List.mem_of_find?_eq_some hf
        refine ⟨(tree, p1), ?_, m, g1, g2, g3.keys, ?_, g3.cls, g3.nd, ?_⟩
        · simp only [treeInsert, hfc]
          simp only [hf]; rfl
        · intro k hk
          have := g3.mem k hk
          simp only [List.mem_cons, List.mem_append] at this ⊢
          tauto
        · intro x hx
          rw [List.mem_cons, List.mem_append, List.mem_singleton] at hx
          rcases hx with hx | hx | hx
          · exact g3.all x (by simp [hx])
          · exact g3.all x (by simp [hx])
          · subst hx
            exact List.mem_map.2 ⟨k, hm, by simpa using this⟩
      | none =>
        have hno := List.find?_eq_none.1 hf
        have hst := Part.rep_step g1 (op := .addClass) rfl
        obtain ⟨p2, hst1, hst2⟩ := hst
        have hp2 : p1.addClass.2 = p2 := by
          simp only [Part.step] at hst1
          injection hst1 with hst1
          exact congrArg Prod.snd hst1
        have hid : p1.addClass.1 = σ.nc + m := by
          have := g1.shows.numClasses
          simpa [Part.addClass, Part.numClasses] using this
        obtain ⟨m', c1, c2⟩ := g3.cls
        have hmm : m' = m := by omega
        subst hmm
        refine ⟨(tree ++ [(s, p1.addClass.1)], p1.addClass.2), ?_, m' + 1, ?_, by simp [g2], ?_, ?_, ⟨m' + 1, ?_, by simp [g2]⟩, ?_, ?_⟩
        · simp only [treeInsert, hfc, hf]; rfl
        · simp only; rw [hp2]; exact hst2
        · intro k hk
          simp only at hk
          rcases List.mem_append.1 hk with hk | hk
          · exact g3.keys k hk
          · have : k = (s, p1.addClass.1) := by simpa using hk
            rw [this]; exact hs
        · intro k hk
          simp only at hk
          rcases List.mem_append.1 hk with hk | hk
          · have := g3.mem k hk
            simp only [List.mem_cons, List.mem_append] at this ⊢
            tauto
          · have : k = (s, p1.addClass.1) := by simpa using hk
            rw [this]; simp
        · simp only
          rw [List.map_append, c1, hid]
          simp [List.range'_concat]
        · simp only
          rw [List.map_append, List.nodup_append]
          refine ⟨g3.nd, by simp, ?_⟩
          intro a ha b hb
          obtain ⟨k, hk, rfl⟩ := List.mem_map.1 ha
          have hb' : b = f.sig σ.cls s := by simpa using hb
          subst hb'
          simpa using hno k hk
        · intro x hx
          simp only
          rw [List.map_append, List.mem_append]
          rw [List.mem_cons, List.mem_append, List.mem_singleton] at hx
          rcases hx with hx | hx | hx
          · exact Or.inl (g3.all x (by simp [hx]))
          · exact Or.inl (g3.all x (by simp [hx]))
          · subst hx; right; simp)
  exact ⟨tree, p', m, h1, h2, h3, by simpa using h4⟩

/-- The class that the tree gives to a state. -/
def treeClass (f : Fst W) (cl : Nat → Option Nat) (tree : List (StateId × Nat)) (s : StateId) : Nat :=
  ((tree.find? fun k => f.sig cl k.1 = f.sig cl s).map (·.2)).getD 0

theorem Tree.find {cl : Nat → Option Nat} {h nc seen tree} (t : Tree f cl h nc seen tree) {s} (hs : s ∈ seen) :
    (tree.find? fun k => f.sig cl k.1 = f.sig cl s).map (·.2) = some (treeClass f cl tree s) := by
  unfold treeClass
  cases hf : tree.find? fun k => f.sig cl k.1 = f.sig cl s with
  | some k => rfl
  | none =>
    obtain ⟨k, hk, hk2⟩ := List.mem_map.1 (t.all s hs)
    have := List.find?_eq_none.1 hf k hk
    simp [hk2] at this

theorem Tree.class_mem {cl : Nat → Option Nat} {h nc seen tree} (t : Tree f cl h nc seen tree) {s} (hs : s ∈ seen) :
    ∃ k, (k, treeClass f cl tree s) ∈ tree ∧ f.sig cl k = f.sig cl s := by
  have h1 := t.find hs
  obtain ⟨k, hk, hk2⟩ := Option.map_eq_some_iff.1 h1
  have := List.find?_some hk
  exact ⟨k.1, by rw [← hk2]; exact List.mem_of_find?_eq_some hk, by simpa using this⟩

theorem Tree.range {cl : Nat → Option Nat} {h nc seen tree m} (t : Tree f cl h nc seen tree) (hm : tree.length = m + 1) {s} (hs : s ∈ seen) :
    treeClass f cl tree s = h ∨ (nc ≤ treeClass f cl tree s ∧ treeClass f cl tree s < nc + m) := by
  obtain ⟨k, hk, -⟩ := t.class_mem hs
  obtain ⟨m', c1, c2⟩ := t.cls
  have : treeClass f cl tree s ∈ tree.map (·.2) := List.mem_map.2 ⟨_, hk, rfl⟩
  rw [c1, List.mem_cons, List.mem_range'_1] at this
  omega

theorem Tree.same {cl : Nat → Option Nat} {h nc seen tree} (t : Tree f cl h nc seen tree) (hh : h < nc) {s s'} (hs : s ∈ seen) (hs' : s' ∈ seen) :
    treeClass f cl tree s = treeClass f cl tree s' ↔ f.sig cl s = f.sig cl s' := by
  constructor
  · intro he
    obtain ⟨k, hk, hk2⟩ := t.class_mem hs
    obtain ⟨k', hk', hk2'⟩ := t.class_mem hs'
    obtain ⟨m, c1, -⟩ := t.cls
    have hnd : (tree.map (·.2)).Nodup := by
      rw [c1, List.nodup_cons]
      refine ⟨?_, List.nodup_range'⟩
      rw [List.mem_range'_1]; omega
    have := List.inj_on_of_nodup_map hnd hk hk' he
    have hkk : k = k' := congrArg Prod.fst this
    rw [← hk2, ← hk2', hkk]
  · intro he
    unfold treeClass
    rw [he]

/-- Moving the states of one height. -/
theorem move_ok (hlt : LtOk lt) (hfin : ∀ s w, f.finOf s = some w → w = 1) (hw : f.WF) (hp : Part.Rep p σ) (hall : ∀ e, e < f.numStates → (σ.cls e).isSome = true)
    (hm : ∀ e, σ.marked e = false) {h nc m : Nat} {l : List StateId} {tree : List (StateId × Nat)} (hnc : σ.nc = nc + m) (hh : h < nc) (hlen : tree.length = m + 1)
    (t : Tree f σ.cls h nc l tree) (hl : ∀ s ∈ l, s < f.numStates) (hlow : ∀ s, s < f.numStates → ∀ u ∈ f.trsOf s, (s ∈ l ∨ ∃ k ∈ tree, k.1 = s) → u.nextstate ∉ l) :
    ∃ p' σ', l.foldlM (f.moveTo lt tree) p = .ok p' ∧ Part.Rep p' σ' ∧ σ'.n = σ.n ∧ σ'.nc = σ.nc ∧ (∀ e, σ'.marked e = false) ∧
      (∀ e, σ'.cls e = if e ∈ l then some (treeClass f σ.cls tree e) else σ.cls e) := by
  obtain ⟨p', h1, σ', h2, h3, h4, h5, h6⟩ := foldlM_R_induct (fun done (p : Part) => ∃ σ', Part.Rep p σ' ∧ σ'.n = σ.n ∧ σ'.nc = σ.nc ∧ (∀ e, σ'.marked e = false) ∧
      (∀ e, σ'.cls e = if e ∈ done then some (treeClass f σ.cls tree e) else σ.cls e)) (f.moveTo lt tree) l [] p
    ⟨σ, hp, rfl, rfl, hm, by simp⟩ (by
      rintro d s p1 ⟨rest, hr⟩ ⟨σ1, g1, g2, g3, g4, g5⟩
      rw [List.nil_append] at hr
      have hsl : s ∈ l := by rw [hr]; simp
      have hs := hl s hsl
      have hdl : ∀ x ∈ d, x ∈ l := fun x hx => by rw [hr]; simp [hx]
      have hall1 : ∀ e, e < f.numStates → (σ1.cls e).isSome = true := by
        intro e he
        rw [g5]; split
        · rfl
        · exact hall e he
      have hsig : ∀ x, x < f.numStates → (x ∈ l ∨ ∃ k ∈ tree, k.1 = x) → f.sig σ1.cls x = f.sig σ.cls x := by
        intro x hx hxl
        unfold sig
        congr 1
        apply List.map_congr_left
        intro u hu
        rw [g5, if_neg (fun hd => hlow x hx u hu hxl (hdl _ hd))]
      have hfc := findClass_spec hlt hfin hw g1 hall1 hs tree t.keys
      have hfind : (tree.find? fun k => f.sig σ1.cls k.1 = f.sig σ1.cls s) = tree.find? fun k => f.sig σ.cls k.1 = f.sig σ.cls s := by
        apply find?_congr_mem
        intro k hk
        rw [hsig s hs (Or.inl hsl), hsig k.1 (t.keys k hk) (Or.inr ⟨k, hk, rfl⟩)]
      rw [hfind, t.find hsl] at hfc
      obtain ⟨c, hc⟩ := Option.isSome_iff_exists.1 (hall1 s hs)
      have hid := g1.shows.classId s c hc
      have hstep : ∀ σ2 : PState, (∀ e, σ2.cls e = if e = s then some (treeClass f σ.cls tree s) else σ1.cls e) →
          ∀ e, σ2.cls e = if e ∈ d ++ [s] then some (treeClass f σ.cls tree e) else σ.cls e := by
        intro σ2 h2 e
        rw [h2]
        by_cases hes : e = s
        · subst hes; simp
        · rw [if_neg hes, g5]
          have : e ∈ d ++ [s] ↔ e ∈ d := by simp [hes]
          simp only [this]
      by_cases hcc : c = treeClass f σ.cls tree s
      · refine ⟨p1, ?_, σ1, g1, g2, g3, g4, hstep σ1 ?_⟩
        · simp only [moveTo, hid, hfc, bind, Except.bind, hcc, ne_eq, not_true_eq_false, if_false]
        · intro e
          by_cases hes : e = s
          · subst hes; rw [if_pos rfl, hc, hcc]
          · rw [if_neg hes]
      · have hr := t.range hlen hsl
        obtain ⟨p2, k1, k2⟩ := Part.rep_move g1 (e := s) (c := treeClass f σ.cls tree s) (by rw [hc]; rfl) (by omega) (g4 s)
        refine ⟨p2, ?_, _, k2, g2, g3, g4, hstep _ (fun e => rfl)⟩
        simp only [moveTo, hid, hfc, bind, Except.bind, ne_eq, hcc, not_false_eq_true, if_true]
        exact k1)
  exact ⟨p', σ', h1, h2, h3, h4, h5, by simpa using h6⟩

/-- The partition after all heights below `h`. -/
structure Level (f : Fst W) (H : Nat → Nat) (M h : Nat) (σ : PState) : Prop where
  num : σ.n = f.numStates
  nc : M < σ.nc
  marked : ∀ e, σ.marked e = false
  all : ∀ e, e < f.numStates → (σ.cls e).isSome = true
  high : ∀ e, e < f.numStates → h ≤ H e → σ.cls e = some (H e)
  own : ∀ e x, σ.cls e = some x → x ≤ M → H e = x
  same : ∀ e e', e < f.numStates → e' < f.numStates → H e < h → H e' < h → (σ.cls e = σ.cls e' ↔ H e = H e' ∧ f.sig σ.cls e = f.sig σ.cls e')

theorem level_ok (hlt : LtOk lt) (hfin : ∀ s w, f.finOf s = some w → w = 1) (hw : f.WF) {H : Nat → Nat} (hH : HeightsOf f H) {M h : Nat} (hM : h ≤ M)
    (hex : ∃ q, q < f.numStates ∧ H q = h) (hp : Part.Rep p σ) (L : Level f H M h σ) :
    ∃ p' σ', f.refineHeight lt p h = .ok p' ∧ Part.Rep p' σ' ∧ Level f H M (h + 1) σ' := by
  have hok := PState.ok_of_rep hp
  obtain ⟨l, h1, h2, h3⟩ := hp.shows.iter h (by have := L.nc; omega)
  have hl : ∀ s, s ∈ l ↔ s < f.numStates ∧ H s = h := by
    intro s
    rw [h3]
    constructor
    · rintro ⟨h4, -⟩; exact ⟨L.num ▸ (hok.el s h h4).1, L.own s h h4 hM⟩
    · rintro ⟨h4, h5⟩; exact ⟨by rw [L.high s h4 (by omega), h5], L.marked s⟩
  cases l with
  | nil =>
    obtain ⟨q, hq⟩ := hex
    have := (hl q).2 hq
    cases this
  | cons e rest =>
    obtain ⟨tree, p1, m, g1, g2, g3, g4⟩ := tree_ok hlt hfin hw hp L.all h e rest (fun s hs => ((hl s).1 hs).1)
    have hkeys := g4.mem
    obtain ⟨p2, σ2, k1, k2, k3, k4, k5, k6⟩ := move_ok (σ := { σ with nc := σ.nc + m }) hlt hfin hw g2 L.all L.marked rfl (by have := L.nc; omega) g3 g4
      (fun s hs => ((hl s).1 hs).1) (by
        intro s hs u hu hsl hul
        have hsh : H s = h := by
          rcases hsl with hsl | ⟨k, hk, rfl⟩
          · exact ((hl s).1 hsl).2
          · exact ((hl _).1 (hkeys k hk)).2
        have := hH.lt s u hu
        have := ((hl _).1 hul).2
        omega)
    simp only at k3 k4 k6
    refine ⟨p2, σ2, ?_, k2, ?_⟩
    · simp only [refineHeight, h1, bind, Except.bind, g1]
      exact k1
    · have hcls : ∀ x, x ∉ e :: rest → σ2.cls x = σ.cls x := fun x hx => by rw [k6, if_neg hx]
      have hin : ∀ x, x ∈ e :: rest → σ2.cls x = some (treeClass f σ.cls tree x) := fun x hx => by rw [k6, if_pos hx]
      have hsig : ∀ x, H x ≤ h → f.sig σ2.cls x = f.sig σ.cls x := by
        intro x hx
        unfold sig
        congr 1
        apply List.map_congr_left
        intro u hu
        rw [hcls]
        intro hm
        have := ((hl _).1 hm).2
        have := hH.lt x u hu
        omega
      have hrange := fun x (hx : x ∈ e :: rest) => g4.range g3 hx
      have hnc := L.nc
      refine ⟨by rw [k3, L.num], by omega, k5, ?_, ?_, ?_, ?_⟩
      · intro x hx
        rw [k6]; split
        · rfl
        · exact L.all x hx
      · intro x hx hxh
        rw [hcls x (fun hm => by have := ((hl x).1 hm).2; omega)]
        exact L.high x hx (by omega)
      · intro x c hc hcM
        by_cases hxl : x ∈ e :: rest
        · rw [hin x hxl] at hc; injection hc with hc
          have := hrange x hxl
          rw [((hl x).1 hxl).2]; omega
        · rw [hcls x hxl] at hc
          exact L.own x c hc hcM
      · have mixed : ∀ x x', x ∈ e :: rest → x' < f.numStates → H x' < h → σ2.cls x ≠ σ2.cls x' := by
          intro x x' hx hx' hxh heq
          have hx'l : x' ∉ e :: rest := fun hm => by have := ((hl x').1 hm).2; omega
          rw [hin x hx, hcls x' hx'l] at heq
          have h5 := (hok.el x' _ heq.symm).2.1
          rcases hrange x hx with h6 | h6
          · have := L.own x' _ heq.symm (by omega)
            omega
          · omega
        intro x x' hx hx' hxh hxh'
        rw [hsig x (by omega), hsig x' (by omega)]
        by_cases hA : H x = h
        · have hxl := (hl x).2 ⟨hx, hA⟩
          by_cases hB : H x' = h
          · have hxl' := (hl x').2 ⟨hx', hB⟩
            rw [hin x hxl, hin x' hxl', Option.some.injEq, g4.same (by omega) hxl hxl']
            simp [hA, hB]
          · constructor
            · intro he; exact absurd he (mixed x x' hxl hx' (by omega))
            · rintro ⟨he, -⟩; omega
        · by_cases hB : H x' = h
          · have hxl' := (hl x').2 ⟨hx', hB⟩
            constructor
            · intro he; exact absurd he.symm (mixed x' x hxl' hx (by omega))
            · rintro ⟨he, -⟩; omega
          · rw [hcls x (fun hm => hA ((hl x).1 hm).2), hcls x' (fun hm => hB ((hl x').1 hm).2)]
            exact L.same x x' hx hx' (by omega) (by omega)

/-- Equality of the strings read from two states. -/
theorem langFrom_next {f : Fst W} (hd : f.Deterministic) {s s'} (hl : f.langFrom s = f.langFrom s') {t t' : Tr W} (ht : t ∈ f.trsOf s) (ht' : t' ∈ f.trsOf s')
    (ha : t.ilabel = t'.ilabel) : f.langFrom t.nextstate = f.langFrom t'.nextstate := by
  have key : ∀ {s s' : StateId} {t t' : Tr W}, f.langFrom s = f.langFrom s' → t ∈ f.trsOf s → t' ∈ f.trsOf s' → t.ilabel = t'.ilabel →
      f.langFrom t.nextstate ⊆ f.langFrom t'.nextstate := by
    rintro s s' t t' hl ht ht' ha x ⟨q, hx, hq⟩
    have : t.ilabel :: x ∈ f.langFrom s' := by rw [← hl]; exact ⟨q, .cons ht hx, hq⟩
    obtain ⟨q', hx', hq'⟩ := this
    generalize hy : t.ilabel :: x = y at hx'
    cases hx' with
    | nil => cases hy
    | cons hu hx' =>
      injection hy with h1 h2
      subst h2
      have := hd.tr hu ht' (h1.symm.trans ha)
      subst this
      exact ⟨q', hx', hq'⟩
  exact Set.Subset.antisymm (key hl ht ht' ha) (key hl.symm ht' ht ha.symm)

theorem langFrom_nil {f : Fst W} {s} : [] ∈ f.langFrom s ↔ f.IsFinal s := by
  constructor
  · rintro ⟨q, hq, hf⟩; cases hq; exact hf
  · intro h; exact ⟨s, .nil s, h⟩

theorem labels_of_lang {f : Fst W} (hw : f.WF) (hu : ∀ s, s < f.numStates → f.Coaccessible s) {s s'} (hl : f.langFrom s = f.langFrom s') {t : Tr W}
    (ht : t ∈ f.trsOf s) : ∃ t' ∈ f.trsOf s', t'.ilabel = t.ilabel := by
  obtain ⟨q, hq, hf⟩ := hu t.nextstate (hw.next_lt s t ht)
  obtain ⟨x, hx⟩ := reads_of_reach hq
  have : t.ilabel :: x ∈ f.langFrom s' := by rw [← hl]; exact ⟨q, .cons ht hx, hf⟩
  obtain ⟨q', hx', -⟩ := this
  generalize hy : t.ilabel :: x = y at hx'
  cases hx' with
  | nil => cases hy
  | cons hu _ => injection hy with h1 _; exact ⟨_, hu, h1.symm⟩

/-- The label lists of two states with the same language are equal, if the transitions are sorted. -/
theorem ilabels_of_lang {f : Fst W} (hw : f.WF) (hd : f.Deterministic) {r : Label → Label → Prop} (hr : ∀ a b, r a b → r b a → a = b) (hsort : f.SortedBy r) (hu : ∀ s, s < f.numStates → f.Coaccessible s) {s s'}
    (hl : f.langFrom s = f.langFrom s') : (f.trsOf s).map (·.ilabel) = (f.trsOf s').map (·.ilabel) := by
  apply List.Perm.eq_of_pairwise (le := r) (fun a b _ _ h1 h2 => hr a b h1 h2) (hsort s) (hsort s')
  rw [List.perm_ext_iff_of_nodup (hd s) (hd s')]
  intro a
  constructor
  · intro ha
    obtain ⟨t, ht, rfl⟩ := List.mem_map.1 ha
    obtain ⟨t', ht', h⟩ := labels_of_lang hw hu hl ht
    exact List.mem_map.2 ⟨t', ht', h⟩
  · intro ha
    obtain ⟨t, ht, rfl⟩ := List.mem_map.1 ha
    obtain ⟨t', ht', h⟩ := labels_of_lang hw hu hl.symm ht
    exact List.mem_map.2 ⟨t', ht', h⟩

/-- `AcyclicMinimizer`: states are in the same class exactly if the same strings are read from them. -/
theorem acyclicPartition_ok [DecidableEq W] (hlt : LtOk lt) (f : Fst W) (hfin : ∀ s w, f.finOf s = some w → w = 1) (hw : f.WF) (hac : ∀ s, ¬ f.OnCycle s) (hu : f.AllUseful)
    {i} (hi : f.start = some i) :
    ∃ p cls, f.acyclicPartition lt = .ok p ∧ GoodPartition f (fun e e' => (f.finOf e).isSome = (f.finOf e').isSome)
      (fun e e' => f.Deterministic ∧ f.ILabelSorted ∧ f.langFrom e = f.langFrom e') p cls := by
  obtain ⟨p0, σ0, H, M, h1, h2, h3, h4, h5, h6, h7, h8⟩ := heightPartition_ok f hw hac (fun s hs => (hu s hs).1) hi
  have hok0 := PState.ok_of_rep h2
  have hn0 : p0.numClasses = M + 1 := by rw [h2.shows.numClasses, h4]
  have key : ∀ k, k ≤ M + 1 → ∃ p σ, (List.range k).foldlM (f.refineHeight lt) p0 = .ok p ∧ Part.Rep p σ ∧ Level f H M k σ := by
    intro k
    induction k with
    | zero =>
      intro _
      refine ⟨p0, σ0, rfl, h2, h3, by omega, h5, fun e he => by rw [(h6 e he).1]; rfl, fun e he _ => (h6 e he).1, ?_, ?_⟩
      · intro e x hx _
        have := (h6 e (by rw [← h3]; exact (hok0.el e x hx).1)).1
        rw [hx] at this; injection this with this; exact this.symm
      · intro e e' _ _ h; omega
    | succ k ih =>
      intro hk
      obtain ⟨p, σ, g1, g2, g3⟩ := ih (by omega)
      obtain ⟨p', σ', g4, g5, g6⟩ := level_ok hlt hfin hw h7 (by omega) (h8 k (by omega)) g2 g3
      refine ⟨p', σ', ?_, g5, g6⟩
      rw [List.range_succ, List.foldlM_append, g1]
      show (List.foldlM (f.refineHeight lt) p [k]) = _
      rw [List.foldlM_cons, g4]; rfl
  obtain ⟨p, σ, g1, g2, L⟩ := key (M + 1) le_rfl
  have hcls : ∀ e, e < f.numStates → σ.cls e = some ((σ.cls e).getD 0) := by
    intro e he
    obtain ⟨c, hc⟩ := Option.isSome_iff_exists.1 (L.all e he)
    rw [hc]; rfl
  have heq : ∀ e e', e < f.numStates → e' < f.numStates → (σ.cls e).getD 0 = (σ.cls e').getD 0 → H e = H e' ∧ f.sig σ.cls e = f.sig σ.cls e' := by
    intro e e' he he' h
    refine (L.same e e' he he' (by have := (h6 e he).2; omega) (by have := (h6 e' he').2; omega)).1 ?_
    rw [hcls e he, hcls e' he', h]
  refine ⟨p, fun e => (σ.cls e).getD 0, ?_, ?_, ?_, ?_, ?_⟩
  · simp only [acyclicPartition, h1, bind, Except.bind, hn0]
    exact g1
  · obtain ⟨ρ, hρ⟩ := reps_of_rep g2 L.marked (fun e he => L.all e (by rw [← L.num]; exact he))
    exact ⟨ρ, by rw [L.num] at hρ; exact hρ⟩
  · intro e e' he he' h
    exact congrArg Prod.fst (heq e e' he he' h).2
  · intro e e' he he' h t ht
    have hm := congrArg Prod.snd (heq e e' he he' h).2
    simp only [sig] at hm
    have : (t.ilabel, σ.cls t.nextstate) ∈ (f.trsOf e).map fun t => (t.ilabel, σ.cls t.nextstate) := by
      rw [hm]; exact List.mem_map.2 ⟨t, ht, rfl⟩
    obtain ⟨t', ht', h'⟩ := List.mem_map.1 this
    injection h' with ha hb
    exact ⟨t', ht', ha, by simp only [hb]⟩
  · rintro e e' he he' ⟨hd, hsort, hl⟩
    have main : ∀ k e e', H e = k → e < f.numStates → e' < f.numStates → f.langFrom e = f.langFrom e' → σ.cls e = σ.cls e' := by
      intro k
      induction k using Nat.strong_induction_on with
      | _ k ih =>
        intro e e' hk he he' hl
        have hco := fun s hs => (hu s hs).2
        have hh := h7.of_lang hw hco he he' hl
        refine (L.same e e' he he' (by have := (h6 e he).2; omega) (by have := (h6 e' he').2; omega)).2 ⟨hh, ?_⟩
        unfold sig
        congr 1
        · have : f.IsFinal e ↔ f.IsFinal e' := by rw [← langFrom_nil, ← langFrom_nil, hl]
          exact Bool.eq_iff_iff.2 this
        · have hlab := ilabels_of_lang hw hd (r := (· ≤ ·)) (fun _ _ h1 h2 => Nat.le_antisymm h1 h2) hsort hco hl
          apply List.ext_getElem?
          intro j
          have hj := congrArg (fun l => l[j]?) hlab
          simp only [List.getElem?_map] at hj ⊢
          cases ha : (f.trsOf e)[j]? with
          | none =>
            rw [ha] at hj
            cases hb : (f.trsOf e')[j]? with
            | none => rfl
            | some u => rw [hb] at hj; cases hj
          | some t =>
            rw [ha] at hj
            cases hb : (f.trsOf e')[j]? with
            | none => rw [hb] at hj; cases hj
            | some u =>
              rw [hb] at hj
              have hlab : t.ilabel = u.ilabel := by simpa using hj
              have ht := List.mem_of_getElem? ha
              have hu' := List.mem_of_getElem? hb
              have hlt' := h7.lt e t ht
              have := ih (H t.nextstate) (by omega) t.nextstate u.nextstate rfl (hw.next_lt e t ht) (hw.next_lt e' u hu') (langFrom_next hd hl ht hu' hlab)
              simp [hlab, this]
    simp only [main (H e) e e' rfl he he' hl]

end
end Fst
end Verif
