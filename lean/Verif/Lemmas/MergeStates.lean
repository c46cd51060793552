import Verif.Model.Minimize
import Verif.Spec.Minimize
import Verif.Lemmas.PartSplit
import Verif.Props.C12
import Verif.Props.C18

/-! # Merging the classes of a partition -/

namespace Verif
set_option linter.unusedSectionVars false
universe u v
variable {W : Type u}

theorem R.andThen_ok {α : Type u} {β : Type v} (a : α) (k : α → R β) : R.andThen (Except.ok a) k = k a := rfl

/-- Induction over a loop that can fail. -/
theorem foldlM_R_induct {α : Type v} {β : Type u} (P : List α → β → Prop) (step : β → α → R β) :
    ∀ (l done : List α) (b : β), P done b →
      (∀ d x, ∀ b, (∃ rest, done ++ l = d ++ x :: rest) → P d b → ∃ b', step b x = .ok b' ∧ P (d ++ [x]) b') →
      ∃ b', l.foldlM step b = .ok b' ∧ P (done ++ l) b' := by
  intro l
  induction l with
  | nil => intro done b h _; exact ⟨b, rfl, by simpa using h⟩
  | cons x l ih =>
    intro done b h hs
    obtain ⟨b1, h1, h2⟩ := hs done x b ⟨l, rfl⟩ h
    obtain ⟨b', h3, h4⟩ := ih (done ++ [x]) b1 h2 (by
      intro d y b hd hp
      refine hs d y b ?_ hp
      obtain ⟨rest, hr⟩ := hd
      exact ⟨rest, by simpa using hr⟩)
    refine ⟨b', ?_, by simpa using h4⟩
    rw [List.foldlM_cons, h1]
    exact h3

namespace Fst

/-- A partition of the states `0 .. n - 1` into classes, each with its first element. -/
structure Reps (p : Part) (n : Nat) (cls : Nat → Nat) (ρ : Nat → Nat) : Prop where
  cls_lt : ∀ s, s < n → cls s < p.numClasses
  classId : ∀ s, s < n → p.getClassId s = .ok (cls s)
  iter : ∀ c, c < p.numClasses → ∃ l, p.iter c = .ok l ∧ l.Nodup ∧ (∀ e, e ∈ l ↔ e < n ∧ cls e = c) ∧ ∀ e, e < n → cls e = c → l.head? = some (ρ e)
  rho : ∀ s, s < n → ρ s < n ∧ cls (ρ s) = cls s ∧ ρ (ρ s) = ρ s

theorem Reps.same {p n cls ρ} (h : Reps p n cls ρ) {s s'} (hs : s < n) (hs' : s' < n) (hc : cls s = cls s') : ρ s = ρ s' := by
  obtain ⟨l, -, -, -, hl⟩ := h.iter _ (h.cls_lt s hs)
  have h1 := hl s hs rfl
  have h2 := hl s' hs' hc.symm
  rw [h1] at h2; injection h2

theorem Reps.same_iff {p n cls ρ} (h : Reps p n cls ρ) {s s'} (hs : s < n) (hs' : s' < n) : ρ s = ρ s' ↔ cls s = cls s' := by
  refine ⟨fun e => ?_, h.same hs hs'⟩
  rw [← (h.rho s hs).2.1, ← (h.rho s' hs').2.1, e]

/-- Every abstract partition of all states, without marks, gives classes with first elements. -/
theorem reps_of_rep {p : Part} {σ : PState} (h : Part.Rep p σ) (hm : ∀ e, σ.marked e = false) (hall : ∀ e, e < σ.n → (σ.cls e).isSome = true) :
    ∃ ρ, Reps p σ.n (fun e => (σ.cls e).getD 0) ρ := by
  have hs := h.shows
  have hok := PState.ok_of_rep h
  have hcls : ∀ e, e < σ.n → σ.cls e = some ((σ.cls e).getD 0) := by
    intro e he
    obtain ⟨c, hc⟩ := Option.isSome_iff_exists.1 (hall e he)
    rw [hc]; rfl
  have hex : ∀ e, ∃ r, e < σ.n → ∀ l, p.iter ((σ.cls e).getD 0) = .ok l → l.head? = some r := by
    intro e
    by_cases he : e < σ.n
    · obtain ⟨l, h1, h2, h3⟩ := hs.iter _ (hok.el e _ (hcls e he)).2.1
      have : e ∈ l := (h3 e).2 ⟨hcls e he, hm e⟩
      cases l with
      | nil => cases this
      | cons a l => exact ⟨a, fun _ l' hl' => by rw [h1] at hl'; injection hl' with hl'; subst hl'; rfl⟩
    · exact ⟨0, fun h => absurd h he⟩
  choose ρ hρ using hex
  have hiter : ∀ c, c < p.numClasses → ∃ l, p.iter c = .ok l ∧ l.Nodup ∧ (∀ e, e ∈ l ↔ e < σ.n ∧ (σ.cls e).getD 0 = c) ∧
      ∀ e, e < σ.n → (σ.cls e).getD 0 = c → l.head? = some (ρ e) := by
    intro c hc
    rw [hs.numClasses] at hc
    obtain ⟨l, h1, h2, h3⟩ := hs.iter c hc
    refine ⟨l, h1, h2, fun e => ?_, fun e he hec => ?_⟩
    · rw [h3]
      constructor
      · rintro ⟨ha, -⟩
        exact ⟨(hok.el e c ha).1, by rw [ha]; rfl⟩
      · rintro ⟨ha, hb⟩
        exact ⟨by rw [hcls e ha, hb], hm e⟩
    · subst hec; exact hρ e he l h1
  have hlt : ∀ s, s < σ.n → (σ.cls s).getD 0 < p.numClasses := by
    intro s h; rw [hs.numClasses]; exact (hok.el s _ (hcls s h)).2.1
  refine ⟨ρ, hlt, fun s h => hs.classId s _ (hcls s h), hiter, fun s h => ?_⟩
  obtain ⟨l, h1, -, h3, h4⟩ := hiter _ (hlt s h)
  have hh := h4 s h rfl
  have hmem : ρ s ∈ l := List.mem_of_head? hh
  obtain ⟨ha, hb⟩ := (h3 _).1 hmem
  refine ⟨ha, hb, ?_⟩
  have := h4 (ρ s) ha hb
  rw [hh] at this; injection this with this; exact this.symm

section
variable {p : Part} {n : Nat} {cls ρ : Nat → Nat}

theorem repOfState_eq (h : Reps p n cls ρ) {q} (hq : q < n) : repOfState p q = .ok (ρ q) := by
  obtain ⟨l, h1, -, -, h4⟩ := h.iter _ (h.cls_lt q hq)
  have := h4 q hq rfl
  simp only [repOfState, h.classId q hq, bind, Except.bind, repOf, h1, this]

variable [Zero W] [One W] [DecidableEq W]

/-- A transition with its target replaced. -/
def redTr (ρ : Nat → Nat) (t : Tr W) : Tr W := { t with nextstate := ρ t.nextstate }

theorem redirect_all (h : Reps p n cls ρ) (f : Fst W) (hn : f.numStates = n) (s : StateId) (hs : s < n)
    (ht : ∀ t ∈ f.trsOf s, t.nextstate < n) :
    ∃ g, (List.range (f.trsOf s).length).foldlM (redirect p s) f = .ok g ∧ g.numStates = n ∧ g.start = f.start ∧
      (∀ q, g.finOf q = f.finOf q) ∧ (∀ q, g.trsOf q = if q = s then (f.trsOf s).map (redTr ρ) else f.trsOf q) ∧
      (f.AllCounters → g.AllCounters) := by
  obtain ⟨g, hg, h1, h2, h3, h4, h5⟩ := foldlM_R_induct (P := fun d (g : Fst W) => g.numStates = n ∧ g.start = f.start ∧
      (∀ q, g.finOf q = f.finOf q) ∧
      (∀ q, g.trsOf q = if q = s then ((f.trsOf s).take d.length).map (redTr ρ) ++ (f.trsOf s).drop d.length else f.trsOf q) ∧
      (f.AllCounters → g.AllCounters)) (redirect p s) (List.range (f.trsOf s).length) [] f
    ⟨hn, rfl, fun _ => rfl, fun q => by by_cases h : q = s <;> simp [h], id⟩ (by
      rintro d x g ⟨rest, hr⟩ ⟨a1, a2, a3, a4, a5⟩
      rw [List.nil_append] at hr
      have hx : x = d.length := by
        have : (List.range (f.trsOf s).length)[d.length]? = some x := by rw [hr]; simp
        rw [List.getElem?_range] at this
        · injection this with this; exact this.symm
        · have := congrArg List.length hr
          simp at this; omega
      have hlt : x < (f.trsOf s).length := by
        have : x ∈ List.range (f.trsOf s).length := by rw [hr]; simp
        simpa using this
      have hgs : g.trsOf s = ((f.trsOf s).take x).map (redTr ρ) ++ (f.trsOf s).drop x := by rw [a4, if_pos rfl, hx]
      have hget : (g.trsOf s)[x]? = some (f.trsOf s)[x] := by
        rw [hgs, List.getElem?_append_right (by simp)]
        simp [hlt, Nat.min_eq_left (le_of_lt hlt)]
      have hnx : (f.trsOf s)[x].nextstate < n := ht _ (List.getElem_mem _)
      have hset : (g.setNextstateR s x (ρ (f.trsOf s)[x].nextstate)).1 =
          g.replaceTr s x (redTr ρ (f.trsOf s)[x]) id id (Props.keepRelevant g.props) := by
        unfold setNextstateR
        rw [if_pos (by have : g.states.length = n := a1; omega), hget]
        rfl
      refine ⟨_, by simp only [redirect, hget, repOfState_eq h hnx, R.andThen_ok]; rfl, ?_⟩
      rw [hset]
      refine ⟨by simpa using a1, by simpa using a2, fun q => by simpa using a3 q, fun q => ?_, fun hc => ?_⟩
      · rw [replaceTr_trsOf]
        by_cases hq : q = s
        · subst hq
          rw [if_pos rfl, if_pos rfl, hgs, List.length_append, List.length_singleton, ← hx]
          rw [List.set_append_right _ _ (by simp)]
          simp only [List.length_map, List.length_take, Nat.min_eq_left (le_of_lt hlt), Nat.sub_self]
          rw [List.drop_eq_getElem_cons hlt, List.set_cons_zero, List.take_add_one, List.getElem?_eq_getElem hlt,
            List.map_append]
          simp only [Option.toList_some, List.map_cons, List.map_nil, List.append_assoc, List.singleton_append]
        · rw [if_neg hq, if_neg hq, a4, if_neg hq]
      · exact allCounters_replaceTr (a5 hc) hget (Or.inr ⟨rfl, rfl⟩) (Or.inr ⟨rfl, rfl⟩))
  refine ⟨g, hg, h1, h2, h3, fun q => ?_, h5⟩
  rw [h4]; simp

theorem copyTr_all (h : Reps p n cls ρ) (r : StateId) (hr : r < n) (ts : List (Tr W)) (ht : ∀ t ∈ ts, t.nextstate < n) (f : Fst W) (hn : f.numStates = n) :
    ∃ g, ts.foldlM (copyTr p r) f = .ok g ∧ g.numStates = n ∧ g.start = f.start ∧
      (∀ q, g.finOf q = f.finOf q) ∧ (∀ q, g.trsOf q = if q = r then f.trsOf r ++ ts.map (redTr ρ) else f.trsOf q) ∧
      (f.AllCounters → g.AllCounters) := by
  obtain ⟨g, hg, h1, h2, h3, h4, h5⟩ := foldlM_R_induct (P := fun d (g : Fst W) => g.numStates = n ∧ g.start = f.start ∧
      (∀ q, g.finOf q = f.finOf q) ∧ (∀ q, g.trsOf q = if q = r then f.trsOf r ++ d.map (redTr ρ) else f.trsOf q) ∧
      (f.AllCounters → g.AllCounters)) (copyTr p r) ts [] f
    ⟨hn, rfl, fun _ => rfl, fun q => by by_cases h : q = r <;> simp [h], id⟩ (by
      rintro d x g ⟨rest, hrest⟩ ⟨a1, a2, a3, a4, a5⟩
      have hx : x ∈ ts := by rw [List.nil_append] at hrest; rw [hrest]; simp
      refine ⟨g.addTr r (redTr ρ x), ?_, by simpa using a1, by simpa using a2, fun q => by simpa using a3 q, fun q => ?_, fun hc => allCounters_addTr (a5 hc) _ _⟩
      · simp only [copyTr, repOfState_eq h (ht x hx), R.andThen_ok, a1, if_pos hr]; rfl
      · rw [addTr_trsOf]
        by_cases hq : q = r
        · subst hq; simp [a1, hr, a4]
        · simp [hq, a4])
  exact ⟨g, hg, h1, h2, h3, h4, h5⟩

/-- The transitions gathered from the states of a list. -/
def gather (ρ : Nat → Nat) (f : Fst W) (l : List StateId) : List (Tr W) := l.flatMap fun s => (f.trsOf s).map (redTr ρ)

theorem mergeElts (h : Reps p n cls ρ) (f : Fst W) (hn : f.numStates = n) (r : StateId) (l : List StateId) (hl : (r :: l).Nodup)
    (hlt : ∀ s ∈ r :: l, s < n) (ht : ∀ s ∈ r :: l, ∀ t ∈ f.trsOf s, t.nextstate < n) :
    ∃ g, (r :: l).foldlM (mergeElt p r) f = .ok g ∧ g.numStates = n ∧ g.start = f.start ∧
      (∀ q, g.finOf q = f.finOf q) ∧ (∀ q, g.trsOf q = if q = r then gather ρ f (r :: l) else f.trsOf q) ∧ (f.AllCounters → g.AllCounters) := by
  obtain ⟨g1, e1, a1, a2, a3, a4, a5⟩ := redirect_all h f hn r (hlt r (by simp)) (ht r (by simp))
  have hstep : mergeElt p r f r = .ok g1 := by
    unfold mergeElt; rw [if_pos rfl, if_pos (by rw [hn]; exact hlt r (by simp))]; exact e1
  have hnr : ∀ s ∈ l, s ≠ r := by
    intro s hs e; subst e; exact (List.nodup_cons.1 hl).1 hs
  obtain ⟨g, hg, h1, h2, h3, h4, h5⟩ := foldlM_R_induct (P := fun d (g : Fst W) => g.numStates = n ∧ g.start = f.start ∧
      (∀ q, g.finOf q = f.finOf q) ∧ (∀ q, g.trsOf q = if q = r then gather ρ f (r :: d) else f.trsOf q) ∧ (f.AllCounters → g.AllCounters))
    (mergeElt p r) l [] g1 ⟨a1, a2, a3, fun q => by rw [a4]; simp [gather], a5⟩ (by
      rintro d x g ⟨rest, hrest⟩ ⟨b1, b2, b3, b4, b5⟩
      have hx : x ∈ l := by rw [List.nil_append] at hrest; rw [hrest]; simp
      have hxr := hnr x hx
      have hgx : g.trsOf x = f.trsOf x := by rw [b4, if_neg hxr]
      have hget : g.getTrsR x = .ok (f.trsOf x) := by
        have hlt' : x < g.states.length := by have : g.states.length = n := b1; have := hlt x (by simp [hx]); omega
        rw [← hgx]
        unfold getTrsR trsOf
        rw [List.getElem?_eq_getElem hlt']
      obtain ⟨g', c1, c2, c3, c4, c5, c6⟩ := copyTr_all h r (hlt r (by simp)) (f.trsOf x) (ht x (by simp [hx])) g b1
      refine ⟨g', ?_, c2, c3.trans b2, fun q => (c4 q).trans (b3 q), fun q => ?_, fun hc => c6 (b5 hc)⟩
      · unfold mergeElt
        rw [if_neg hxr, hget]
        exact c1
      · rw [c5]
        by_cases hq : q = r
        · subst hq
          rw [if_pos rfl, if_pos rfl, b4, if_pos rfl]
          simp [gather]
        · rw [if_neg hq, if_neg hq, b4, if_neg hq])
  refine ⟨g, ?_, h1, h2, h3, h4, h5⟩
  rw [List.foldlM_cons, hstep]
  exact hg

/-- The FST before `connect`: first elements have the transitions of their classes. -/
theorem mergeClasses (h : Reps p n cls ρ) (f : Fst W) (hn : f.numStates = n) (hw : f.WF) :
    ∃ g, (List.range p.numClasses).foldlM (mergeClass p) f = .ok g ∧ g.numStates = n ∧ g.start = f.start ∧
      (∀ q, g.finOf q = f.finOf q) ∧
      (∀ r, r < n → ρ r = r → ∀ t, t ∈ g.trsOf r ↔ ∃ s, s < n ∧ ρ s = r ∧ ∃ t0 ∈ f.trsOf s, t = redTr ρ t0) ∧
      (∀ s, s < n → ρ s ≠ s → g.trsOf s = f.trsOf s) ∧ (f.AllCounters → g.AllCounters) := by
  obtain ⟨g, hg, h1, h2, h3, h4, h5, h6⟩ := foldlM_R_induct (P := fun d (g : Fst W) => g.numStates = n ∧ g.start = f.start ∧
      (∀ q, g.finOf q = f.finOf q) ∧
      (∀ r, r < n → ρ r = r → cls r ∈ d → ∀ t, t ∈ g.trsOf r ↔ ∃ s, s < n ∧ ρ s = r ∧ ∃ t0 ∈ f.trsOf s, t = redTr ρ t0) ∧
      (∀ s, s < n → (cls s ∉ d ∨ ρ s ≠ s) → g.trsOf s = f.trsOf s) ∧ (f.AllCounters → g.AllCounters))
    (mergeClass p) (List.range p.numClasses) [] f
    ⟨hn, rfl, fun _ => rfl, fun r _ _ hc => (by cases hc), fun s _ _ => rfl, id⟩ (by
      rintro d c g ⟨rest, hrest⟩ ⟨b1, b2, b3, b4, b5, b6⟩
      rw [List.nil_append] at hrest
      have hc : c < p.numClasses := by
        have : c ∈ List.range p.numClasses := by rw [hrest]; simp
        simpa using this
      have hcd : c ∉ d := by
        have : (List.range p.numClasses).Nodup := List.nodup_range
        rw [hrest] at this
        intro hcd
        exact (List.nodup_append.1 this).2.2 c hcd c (by simp) rfl
      obtain ⟨l, l1, l2, l3, l4⟩ := h.iter c hc
      cases l with
      | nil =>
        refine ⟨g, ?_, b1, b2, b3, ?_, ?_, b6⟩
        · simp only [mergeClass, l1, R.andThen_ok, List.head?_nil]
        · intro r hr hrr hcr
          rcases List.mem_append.1 hcr with hcr | hcr
          · exact b4 r hr hrr hcr
          · have : r ∈ ([] : List Nat) := (l3 r).2 ⟨hr, by simpa using hcr⟩
            cases this
        · intro s hs hor
          refine b5 s hs (hor.imp_left fun hx hy => hx (List.mem_append_left _ hy))
      | cons r l =>
        have hrl := (l3 r).1 (by simp)
        have hnd : ∀ s ∈ r :: l, g.trsOf s = f.trsOf s := by
          intro s hs
          obtain ⟨hs1, hs2⟩ := (l3 s).1 hs
          exact b5 s hs1 (Or.inl (by rw [hs2]; exact hcd))
        obtain ⟨g', c1, c2, c3, c4, c5, c6⟩ := mergeElts h g b1 r l l2 (fun s hs => ((l3 s).1 hs).1) (by
          intro s hs t ht
          rw [hnd s hs] at ht
          rw [← hn]; exact hw.next_lt s t ht)
        have hgath : gather ρ g (r :: l) = gather ρ f (r :: l) := by
          unfold gather
          rw [List.flatMap_def, List.flatMap_def]
          congr 1
          apply List.map_congr_left
          intro s hs
          rw [hnd s hs]
        have hρr : ρ r = r := by
          have := l4 r hrl.1 hrl.2
          simp at this; exact this.symm
        refine ⟨g', ?_, c2, c3.trans b2, fun q => (c4 q).trans (b3 q), ?_, ?_, fun hc => c6 (b6 hc)⟩
        · simp only [mergeClass, l1, R.andThen_ok, List.head?_cons]; exact c1
        · intro r' hr' hrr' hcr' t
          by_cases hre : r' = r
          · subst hre
            rw [c5, if_pos rfl, hgath]
            simp only [gather, List.mem_flatMap, List.mem_map]
            constructor
            · rintro ⟨s, hs, t0, ht0, rfl⟩
              obtain ⟨hs1, hs2⟩ := (l3 s).1 hs
              exact ⟨s, hs1, by rw [← hρr]; exact h.same hs1 hrl.1 (by rw [hs2, hrl.2]), t0, ht0, rfl⟩
            · rintro ⟨s, hs, hs2, t0, ht0, rfl⟩
              refine ⟨s, (l3 s).2 ⟨hs, ?_⟩, t0, ht0, rfl⟩
              rw [← hrl.2, ← (h.rho s hs).2.1, hs2]
          · have hcl : cls r' ≠ c := by
              intro hcc
              have := h.same hr' hrl.1 (by rw [hcc, hrl.2])
              rw [hrr', hρr] at this; exact hre this
            rw [c5, if_neg hre]
            refine b4 r' hr' hrr' ?_ t
            rcases List.mem_append.1 hcr' with hx | hx
            · exact hx
            · simp at hx; exact absurd hx hcl
        · intro s hs hor
          have hsr : s ≠ r := by
            rintro rfl
            rcases hor with ho | ho
            · exact ho (List.mem_append_right _ (by simp [hrl.2]))
            · exact ho hρr
          rw [c5, if_neg hsr]
          exact b5 s hs (hor.imp_left fun hx hy => hx (List.mem_append_left _ hy)))
  refine ⟨g, hg, h1, h2, h3, fun r hr hrr => h4 r hr hrr (by simpa using h.cls_lt r hr), fun s hs hne => h5 s hs (Or.inr hne), h6⟩

end
end Fst
end Verif
