import Verif.Spec.Values
import Mathlib.Data.List.Perm.Basic

/-!
# Reference counts and copy-on-write
-/

namespace Verif.Arcs
universe u
variable {W : Type u}

/-! ## Lists -/

theorem split_at {α : Type*} {l : List α} {s : Nat} {x : α} (h : l[s]? = some x) :
    ∃ pre post, l = pre ++ x :: post ∧ pre.length = s := by
  induction l generalizing s with
  | nil => simp at h
  | cons y l ih =>
    cases s with
    | zero => simp at h; exact ⟨[], l, by simp [h], rfl⟩
    | succ s =>
      simp at h
      obtain ⟨pre, post, rfl, hl⟩ := ih h
      exact ⟨y :: pre, post, by simp, by simp [hl]⟩

theorem set_mid {α : Type*} (pre : List α) (x y : α) (post : List α) :
    (pre ++ x :: post).set pre.length y = pre ++ y :: post := by simp

theorem modify_mid {α : Type*} (pre : List α) (x : α) (post : List α) (g : α → α) :
    (pre ++ x :: post).modify pre.length g = pre ++ g x :: post := by
  induction pre with
  | nil => simp
  | cons y pre ih => simp [ih]

/-! ## The memory -/

namespace Mem

/-- The counts are those of the pointers in `R`, and what has no pointer is freed. -/
def Inv (m : Mem W) (R : List Nat) : Prop :=
  (∀ a, m.count a = R.count a) ∧ ∀ a, m.count a = 0 → m.read a = []

/-- The readers in `R` see the same. -/
def Same (m m' : Mem W) (R : List Nat) : Prop := ∀ a ∈ R, m'.read a = m.read a

theorem Same.refl (m : Mem W) (R : List Nat) : Same m m R := fun _ _ => rfl
theorem Same.trans {m m' m'' : Mem W} {R : List Nat} (h : Same m m' R) (h' : Same m' m'' R) : Same m m'' R :=
  fun a ha => (h' a ha).trans (h a ha)
theorem Same.sub {m m' : Mem W} {R R' : List Nat} (h : Same m m' R) (hs : ∀ a ∈ R', a ∈ R) : Same m m' R' :=
  fun a ha => h a (hs a ha)

theorem Inv.perm {m : Mem W} {R R' : List Nat} (h : Inv m R) (p : R.Perm R') : Inv m R' :=
  ⟨fun a => (h.1 a).trans (p.count_eq a), h.2⟩

theorem Inv.pos {m : Mem W} {R : List Nat} (h : Inv m R) {a : Nat} (ha : a ∈ R) : 0 < m.count a := by
  rw [h.1]; exact List.count_pos_iff.2 ha

theorem lt_of_pos {m : Mem W} {a : Nat} (h : 0 < m.count a) : a < m.length := by
  unfold count at h
  by_contra hc
  rw [List.getElem?_eq_none (by omega)] at h
  simp at h

theorem alloc_spec {m : Mem W} {R : List Nat} (h : Inv m R) (v : List (Tr W)) :
    Inv (m.alloc v).1 ((m.alloc v).2 :: R) ∧ (m.alloc v).1.read (m.alloc v).2 = v ∧ Same m (m.alloc v).1 R := by
  have hc0 : m.count m.length = 0 := by simp [count]
  have hcount : ∀ a, (m ++ [⟨1, v⟩] : Mem W).count a = if a = m.length then 1 else m.count a := by
    intro a
    unfold count
    by_cases ha : a = m.length
    · subst ha; simp
    · rw [if_neg ha]
      rcases Nat.lt_or_ge a m.length with h1 | h1
      · rw [List.getElem?_append_left h1]
      · rw [List.getElem?_eq_none (by simp; omega), List.getElem?_eq_none h1]
  have hread : ∀ a, a ≠ m.length → (m ++ [⟨1, v⟩] : Mem W).read a = m.read a := by
    intro a ha
    unfold read
    rcases Nat.lt_or_ge a m.length with h1 | h1
    · rw [List.getElem?_append_left h1]
    · rw [List.getElem?_eq_none (by simp; omega), List.getElem?_eq_none h1]
  refine ⟨⟨fun a => ?_, fun a h0 => ?_⟩, ?_, fun a ha => ?_⟩
  · show (m ++ [⟨1, v⟩] : Mem W).count a = (m.length :: R).count a
    rw [hcount, List.count_cons]
    by_cases ha : a = m.length
    · subst ha; rw [if_pos rfl, ← h.1, hc0]; simp
    · rw [if_neg ha, h.1]
      have : (m.length == a) = false := by simpa using fun e => ha e.symm
      simp [this]
  · change (m ++ [⟨1, v⟩] : Mem W).count a = 0 at h0
    rw [hcount] at h0
    by_cases ha : a = m.length
    · simp [ha] at h0
    · rw [if_neg ha] at h0
      exact (hread a ha).trans (h.2 a h0)
  · simp [alloc, read]
  · have := lt_of_pos (h.pos ha)
    exact hread a (by omega)

theorem count_modify (m : Mem W) (a b : Nat) (g : Cell W → Cell W) :
    Mem.count (m.modify a g) b = if a = b then (match m[b]? with | some c => (g c).count | none => 0) else m.count b := by
  unfold count
  rw [List.getElem?_modify]
  by_cases h : a = b
  · simp only [h, if_true]
    cases m[b]? <;> rfl
  · simp only [h, if_false]
    cases m[b]? <;> rfl

theorem read_modify (m : Mem W) (a b : Nat) (g : Cell W → Cell W) :
    Mem.read (m.modify a g) b = if a = b then (match m[b]? with | some c => (g c).val | none => []) else m.read b := by
  unfold read
  rw [List.getElem?_modify]
  by_cases h : a = b
  · simp only [h, if_true]
    cases m[b]? <;> rfl
  · simp only [h, if_false]
    cases m[b]? <;> rfl

theorem share_spec {m : Mem W} {R : List Nat} (h : Inv m R) {a : Nat} (ha : a ∈ R) :
    Inv (m.share a) (a :: R) ∧ ∀ b, (m.share a).read b = m.read b := by
  have hl := lt_of_pos (h.pos ha)
  have hr : ∀ b, (m.share a).read b = m.read b := by
    intro b
    unfold share
    rw [read_modify]
    split
    · unfold read; cases m[b]? <;> rfl
    · rfl
  have hcnt : ∀ b, (m.share a).count b = m.count b + if a = b then 1 else 0 := by
    intro b
    unfold share
    rw [count_modify]
    split
    · rename_i e; subst e
      unfold count
      rw [List.getElem?_eq_getElem hl]
    · rfl
  refine ⟨⟨fun b => ?_, fun b h0 => ?_⟩, hr⟩
  · rw [hcnt, List.count_cons, h.1]
    by_cases e : a = b <;> simp [e]
  · rw [hr]
    refine h.2 b ?_
    rw [hcnt] at h0
    omega

theorem release_spec {m : Mem W} {R : List Nat} {a : Nat} (h : Inv m (a :: R)) :
    Inv (m.release a) R ∧ Same m (m.release a) R := by
  have hp := h.pos (List.mem_cons_self (a := a) (l := R))
  have hl := lt_of_pos hp
  obtain ⟨c, hc⟩ : ∃ c, m[a]? = some c := ⟨_, List.getElem?_eq_getElem hl⟩
  have hca : m.count a = c.count := by unfold count; rw [hc]
  have hcR : c.count = R.count a + 1 := by
    rw [← hca, h.1, List.count_cons]; simp
  have hcnt : ∀ b, (m.release a).count b = if a = b then R.count a else m.count b := by
    intro b
    unfold release
    rw [count_modify]
    split
    · rename_i e; subst e
      rw [hc]
      show (if c.count ≤ 1 then (⟨0, []⟩ : Cell W) else { c with count := c.count - 1 }).count = _
      split
      · show 0 = _; omega
      · show c.count - 1 = _; omega
    · rfl
  have hrd : ∀ b, (a = b → R.count a ≠ 0) → (m.release a).read b = m.read b := by
    intro b hb
    unfold release
    rw [read_modify]
    split
    · rename_i e
      have := hb e
      subst e
      have e2 : m.read a = c.val := by unfold read; rw [hc]
      rw [hc, e2]
      show (if c.count ≤ 1 then (⟨0, []⟩ : Cell W) else { c with count := c.count - 1 }).val = _
      rw [if_neg (by omega)]
    · rfl
  refine ⟨⟨fun b => ?_, fun b h0 => ?_⟩, fun b hb => ?_⟩
  · rw [hcnt]
    split
    · rename_i e; rw [e]
    · rename_i e
      rw [h.1, List.count_cons]
      simp [e]
  · rw [hcnt] at h0
    by_cases e : a = b
    · subst e
      rw [if_pos rfl] at h0
      unfold release
      rw [read_modify, if_pos rfl, hc]
      show (if c.count ≤ 1 then (⟨0, []⟩ : Cell W) else { c with count := c.count - 1 }).val = _
      rw [if_pos (by omega)]
    · rw [if_neg e] at h0
      rw [hrd b (fun e' => absurd e' e)]
      exact h.2 b h0
  · refine hrd b fun e => ?_
    subst e
    have := List.count_pos_iff.2 hb
    omega

theorem write_spec {m : Mem W} {R : List Nat} {a : Nat} (h : Inv m (a :: R)) (hn : a ∉ R) (v : List (Tr W)) :
    Inv (m.write a v) (a :: R) ∧ (m.write a v).read a = v ∧ Same m (m.write a v) R := by
  have hp := h.pos (List.mem_cons_self (a := a) (l := R))
  have hl := lt_of_pos hp
  have hcnt : ∀ b, (m.write a v).count b = m.count b := by
    intro b
    unfold write
    rw [count_modify]
    split
    · unfold count; cases m[b]? <;> rfl
    · rfl
  have hrd : ∀ b, a ≠ b → (m.write a v).read b = m.read b := by
    intro b e
    unfold write
    rw [read_modify, if_neg e]
  refine ⟨⟨fun b => (hcnt b).trans (h.1 b), fun b h0 => ?_⟩, ?_, fun b hb => hrd b fun e => hn (e ▸ hb)⟩
  · rw [hcnt] at h0
    rw [hrd b (fun e => by subst e; omega)]
    exact h.2 b h0
  · unfold write
    rw [read_modify, if_pos rfl, List.getElem?_eq_getElem hl]

theorem makeMut_spec {m : Mem W} {R : List Nat} {a : Nat} (h : Inv m (a :: R)) :
    Inv (m.makeMut a).1 ((m.makeMut a).2 :: R) ∧ (m.makeMut a).2 ∉ R ∧
      (m.makeMut a).1.read (m.makeMut a).2 = m.read a ∧ Same m (m.makeMut a).1 R := by
  unfold makeMut
  split
  · rename_i h1
    refine ⟨h, ?_, rfl, Same.refl _ _⟩
    intro hm
    have := h.1 a
    rw [h1, List.count_cons] at this
    have h2 : 0 < R.count a := List.count_pos_iff.2 hm
    simp at this
    omega
  · obtain ⟨i1, r1, s1⟩ := alloc_spec h (m.read a)
    have hl : ∀ b ∈ (a :: R), b < m.length := fun b hb => lt_of_pos (h.pos hb)
    have e2 : (m.alloc (m.read a)).2 = m.length := rfl
    obtain ⟨i2, s2⟩ := release_spec (i1.perm (List.Perm.swap a _ R))
    refine ⟨i2, ?_, ?_, ?_⟩
    · intro hm
      have := hl _ (List.mem_cons_of_mem _ hm)
      rw [e2] at this
      omega
    · rw [s2 _ (List.mem_cons_self ..), r1]
    · intro b hb
      rw [s2 b (List.mem_cons_of_mem _ hb), s1 b (List.mem_cons_of_mem _ hb)]

/-- `Arc::make_mut` followed by a change: the own pointer sees the change, all others see what they saw. -/
theorem update_spec {m : Mem W} {R : List Nat} {a : Nat} (h : Inv m (a :: R)) (g : List (Tr W) → List (Tr W)) :
    Inv (m.update a g).1 ((m.update a g).2 :: R) ∧ (m.update a g).1.read (m.update a g).2 = g (m.read a) ∧
      Same m (m.update a g).1 R := by
  obtain ⟨i1, n1, r1, s1⟩ := makeMut_spec h
  obtain ⟨i2, r2, s2⟩ := write_spec i1 n1 (g ((m.makeMut a).1.read (m.makeMut a).2))
  refine ⟨i2, ?_, s1.trans s2⟩
  show ((m.makeMut a).1.write _ _).read (m.makeMut a).2 = _
  rw [r2, r1]

end Mem

open Mem

/-! ## States -/

/-- The pointers of a list of states. -/
def arcsOf (l : List (AState W)) : List Nat := l.map (·.arc)

theorem views_same {m m' : Mem W} {l : List (AState W)} (h : Same m m' (arcsOf l)) :
    l.map (·.view m') = l.map (·.view m) := by
  refine List.map_congr_left fun st hst => ?_
  unfold AState.view
  rw [h st.arc (List.mem_map.2 ⟨st, hst, rfl⟩)]

theorem newStates_spec (n : Nat) : ∀ {m : Mem W} {R : List Nat}, Inv m R →
    Inv (AFst.newStates m n).1 (arcsOf (AFst.newStates m n).2 ++ R) ∧
    (AFst.newStates m n).2.map (·.view (AFst.newStates m n).1) = List.replicate n State.new ∧
    Same m (AFst.newStates m n).1 R := by
  induction n with
  | zero => intro m R h; exact ⟨h, rfl, Same.refl _ _⟩
  | succ n ih =>
    intro m R h
    obtain ⟨i1, r1, s1⟩ := alloc_spec h []
    obtain ⟨i2, v2, s2⟩ := ih i1
    refine ⟨i2.perm ?_, ?_, s1.trans (s2.sub fun a ha => List.mem_cons_of_mem _ ha)⟩
    · exact List.perm_middle
    · show AState.view (AFst.newStates (m.alloc []).1 n).1 _ ::
        (AFst.newStates (m.alloc []).1 n).2.map (·.view (AFst.newStates (m.alloc []).1 n).1) = _
      rw [v2]
      simp only [AState.view, List.replicate_succ]
      rw [s2 _ (List.mem_cons_self ..), r1]
      rfl

theorem dropStates_spec (l : List (AState W)) : ∀ {m : Mem W} {R : List Nat}, Inv m (arcsOf l ++ R) →
    Inv (AFst.dropStates m l) R ∧ Same m (AFst.dropStates m l) R := by
  induction l with
  | nil => intro m R h; exact ⟨h, Same.refl _ _⟩
  | cons st l ih =>
    intro m R h
    obtain ⟨i1, s1⟩ := release_spec (R := arcsOf l ++ R) h
    obtain ⟨i2, s2⟩ := ih i1
    exact ⟨i2, (s1.sub fun a ha => List.mem_append_right _ ha).trans s2⟩

theorem cloneStates_spec (l : List (AState W)) : ∀ {m : Mem W} {R : List Nat}, Inv m R → (∀ a ∈ arcsOf l, a ∈ R) →
    Inv (cloneStates m l).1 (arcsOf (cloneStates m l).2 ++ R) ∧
    (cloneStates m l).2.map (·.view (cloneStates m l).1) = l.map (·.view m) ∧
    Same m (cloneStates m l).1 R := by
  induction l with
  | nil => intro m R h _; exact ⟨h, rfl, Same.refl _ _⟩
  | cons st l ih =>
    intro m R h hR
    obtain ⟨i1, r1, s1⟩ := alloc_spec h (m.read st.arc)
    have hR' : ∀ a ∈ arcsOf l, a ∈ (m.alloc (m.read st.arc)).2 :: R := fun a ha =>
      List.mem_cons_of_mem _ (hR a (List.mem_cons_of_mem _ ha))
    obtain ⟨i2, v2, s2⟩ := ih i1 hR'
    refine ⟨i2.perm List.perm_middle, ?_, s1.trans (s2.sub fun a ha => List.mem_cons_of_mem _ ha)⟩
    show AState.view (cloneStates (m.alloc (m.read st.arc)).1 l).1 _ ::
      (cloneStates (m.alloc (m.read st.arc)).1 l).2.map (·.view (cloneStates (m.alloc (m.read st.arc)).1 l).1) = _
    rw [v2, views_same (s1.sub fun a ha => hR a (List.mem_cons_of_mem _ ha))]
    simp only [AState.view, List.map_cons]
    rw [s2 _ (List.mem_cons_self ..), r1]

theorem drainStates_spec (l : List (AState W)) : ∀ {m : Mem W} {R : List Nat}, Inv m (arcsOf l ++ R) →
    Inv (drainStates m l).1 R ∧ (drainStates m l).2 = l.map (·.view m) ∧ Same m (drainStates m l).1 R := by
  induction l with
  | nil => intro m R h; exact ⟨h, rfl, Same.refl _ _⟩
  | cons st l ih =>
    intro m R h
    obtain ⟨i1, n1, r1, s1⟩ := makeMut_spec (R := arcsOf l ++ R) h
    obtain ⟨i2, r2, s2⟩ := write_spec i1 n1 []
    obtain ⟨i3, s3⟩ := release_spec i2
    obtain ⟨i4, v4, s4⟩ := ih i3
    have s := (s1.trans s2).trans s3
    refine ⟨i4, ?_, (s.sub fun a ha => List.mem_append_right _ ha).trans s4⟩
    show _ :: _ = _
    rw [v4, views_same (s.sub fun a ha => List.mem_append_left _ ha), r1]
    rfl

/-! ## Mutators -/

/-- Changing one state through its pointer. -/
theorem set_spec {m m' : Mem W} {R : List Nat} {pre post : List (AState W)} {st st' : AState W}
    (hi : Inv m (arcsOf (pre ++ st :: post) ++ R))
    (h : Inv m (st.arc :: (arcsOf (pre ++ post) ++ R)) →
      Inv m' (st'.arc :: (arcsOf (pre ++ post) ++ R)) ∧ Same m m' (arcsOf (pre ++ post) ++ R)) :
    Inv m' (arcsOf (pre ++ st' :: post) ++ R) ∧ Same m m' R ∧
      (pre ++ st' :: post).map (·.view m') = pre.map (·.view m) ++ st'.view m' :: post.map (·.view m) := by
  have p : ∀ x : AState W, (arcsOf (pre ++ x :: post) ++ R).Perm (x.arc :: (arcsOf (pre ++ post) ++ R)) := by
    intro x
    simp only [arcsOf, List.map_append, List.map_cons, List.append_assoc, List.cons_append]
    exact List.perm_middle
  obtain ⟨i, s⟩ := h (hi.perm (p st))
  refine ⟨i.perm (p st').symm, s.sub fun a ha => List.mem_append_right _ ha, ?_⟩
  have hs : ∀ l : List (AState W), (∀ x ∈ l, x ∈ pre ++ post) → l.map (·.view m') = l.map (·.view m) := by
    intro l hl
    refine views_same (s.sub fun a ha => List.mem_append_left _ ?_)
    obtain ⟨x, hx, rfl⟩ := List.mem_map.1 ha
    exact List.mem_map.2 ⟨x, hl x hx, rfl⟩
  rw [List.map_append, List.map_cons, hs pre (by simp_all), hs post (by simp_all)]

/-- The effect of a step on the memory, on the object itself and on everybody else. -/
def Ok (m m' : Mem W) (own own' : List Nat) : Prop :=
  ∀ R, Inv m (own ++ R) → Inv m' (own' ++ R) ∧ Same m m' R

theorem onSt_spec {m : Mem W} {f : AFst W} {s : StateId} (g : State W → State W) {R : List Nat}
    (h : Inv m (arcsOf f.states ++ R)) :
    Inv (f.onSt m s g).1 (arcsOf (f.onSt m s g).2.states ++ R) ∧ Same m (f.onSt m s g).1 R ∧
      (f.onSt m s g).2.view (f.onSt m s g).1 = (f.view m).modifySt s g := by
  unfold AFst.onSt
  cases hs : f.states[s]? with
  | none =>
    refine ⟨h, Same.refl _ _, ?_⟩
    have : f.states.length ≤ s := by simpa using hs
    simp only [Fst.modifySt, AFst.view]
    rw [List.modify_eq_self (by simpa using this)]
  | some st =>
    obtain ⟨pre, post, he, hl⟩ := split_at hs
    simp only
    rw [he] at h ⊢
    subst hl
    rw [set_mid]
    have hr : (m.update st.arc fun v => (g ⟨st.fin, v, st.niepsilons, st.noepsilons⟩).trs).1.read
        (m.update st.arc fun v => (g ⟨st.fin, v, st.niepsilons, st.noepsilons⟩).trs).2 = (g (st.view m)).trs := by
      have hp : Inv m (st.arc :: (arcsOf (pre ++ post) ++ R)) := h.perm (by
        simp only [arcsOf, List.map_append, List.map_cons, List.append_assoc, List.cons_append]
        exact List.perm_middle)
      exact (update_spec hp _).2.1
    obtain ⟨i, s, v⟩ := set_spec (m' := (m.update st.arc fun v => (g ⟨st.fin, v, st.niepsilons, st.noepsilons⟩).trs).1)
      (st' := ⟨(g (st.view m)).fin,
        (m.update st.arc fun v => (g ⟨st.fin, v, st.niepsilons, st.noepsilons⟩).trs).2, (g (st.view m)).niepsilons,
        (g (st.view m)).noepsilons⟩) h
      (fun hp => let u := update_spec hp _; ⟨u.1, u.2.2⟩)
    refine ⟨i, s, ?_⟩
    simp only [Fst.modifySt, AFst.view]
    rw [v, he, List.map_append, List.map_cons]
    have hlen : pre.length = (pre.map (·.view m)).length := by simp
    rw [hlen, modify_mid]
    congr 2
    simp only [AState.view] at hr ⊢
    rw [hr]

theorem view_states_length (m : Mem W) (f : AFst W) : (f.view m).states.length = f.states.length := by
  simp [AFst.view]

theorem view_getElem? (m : Mem W) (f : AFst W) (s : Nat) :
    (f.view m).states[s]? = (f.states[s]?).map (·.view m) := by
  simp [AFst.view]

theorem view_finOf (m : Mem W) (f : AFst W) (s : StateId) : (f.view m).finOf s = f.finOf s := by
  unfold Fst.finOf AFst.finOf
  rw [view_getElem?]
  cases f.states[s]? <;> rfl

theorem onFin_view (m : Mem W) (f : AFst W) (s : StateId) (w : Option W) :
    (f.onFin s w).view m = (f.view m).modifySt s (fun st => { st with fin := w }) := by
  simp only [AFst.onFin, AFst.view, Fst.modifySt]
  congr 1
  apply List.ext_getElem?
  intro i
  rw [List.getElem?_map, List.getElem?_modify, List.getElem?_modify, List.getElem?_map]
  cases f.states[i]? with
  | none => rfl
  | some st =>
    by_cases h : s = i <;> simp [h, AState.view]

theorem onFin_arcs (f : AFst W) (s : StateId) (w : Option W) : arcsOf (f.onFin s w).states = arcsOf f.states := by
  simp only [AFst.onFin, arcsOf]
  apply List.ext_getElem?
  intro i
  rw [List.getElem?_map, List.getElem?_modify, List.getElem?_map]
  cases f.states[i]? with
  | none => rfl
  | some st =>
    by_cases h : s = i <;> simp [h]

theorem swapAt_map {α β : Type*} (g : α → β) (l : List α) (i j : Nat) :
    (swapAt l i j).map g = swapAt (l.map g) i j := by
  unfold swapAt
  rw [List.getElem?_map, List.getElem?_map]
  cases l[i]? <;> cases l[j]? <;> simp [List.map_set]

theorem swapAt_perm {α : Type*} (l : List α) (i j : Nat) (h : i ≠ j) : (swapAt l i j).Perm l := by
  unfold swapAt
  cases hi : l[i]? with
  | none => exact List.Perm.refl _
  | some a =>
    cases hj : l[j]? with
    | none => exact List.Perm.refl _
    | some b =>
      simp only
      obtain ⟨h1, e1⟩ := List.getElem?_eq_some_iff.1 hi
      obtain ⟨h2, e2⟩ := List.getElem?_eq_some_iff.1 hj
      subst e1 e2
      exact List.set_set_perm h1 h2

theorem compact_map (m : Mem W) : ∀ (todo : List Int) (s ns : Nat) (sts : List (AState W)),
    Fst.compactLoop todo s ns (sts.map (·.view m)) =
      ((AFst.compact todo s ns sts).1, (AFst.compact todo s ns sts).2.1.map (·.view m), (AFst.compact todo s ns sts).2.2) := by
  intro todo
  induction todo with
  | nil => intro s ns sts; rfl
  | cons x todo ih =>
    intro s ns sts
    unfold Fst.compactLoop AFst.compact
    by_cases hx : x ≠ -1
    · simp only [hx, if_true, ne_eq, not_false_eq_true]
      by_cases hs : s = ns
      · simp [hs, ih]
      · simp [hs, ih, ← swapAt_map]
    · simp only [hx, if_false, ih]

theorem compact_perm : ∀ (todo : List Int) (s ns : Nat) (sts : List (AState W)),
    (AFst.compact todo s ns sts).2.1.Perm sts := by
  intro todo
  induction todo with
  | nil => intro s ns sts; exact List.Perm.refl _
  | cons x todo ih =>
    intro s ns sts
    unfold AFst.compact
    by_cases hx : x ≠ -1
    · simp only [hx, if_true, ne_eq, not_false_eq_true]
      by_cases hs : s = ns
      · simpa [hs] using ih _ _ _
      · simp only [hs, not_false_eq_true, if_true]
        exact (ih _ _ _).trans (swapAt_perm _ _ _ (Ne.symm hs))
    · simp only [hx, if_false]
      exact ih _ _ _

theorem renameSts_spec (newId : List Int) (l : List (AState W)) : ∀ {m : Mem W} {R : List Nat}, Inv m (arcsOf l ++ R) →
    match AFst.renameSts newId m l with
    | .error e => Fst.renameSts newId (l.map (·.view m)) = .error e
    | .ok (m', l') => Fst.renameSts newId (l.map (·.view m)) = .ok (l'.map (·.view m')) ∧
        Inv m' (arcsOf l' ++ R) ∧ Same m m' R := by
  induction l with
  | nil => intro m R h; exact ⟨rfl, h, Same.refl _ _⟩
  | cons st l ih =>
    intro m R h
    unfold AFst.renameSts
    simp only [List.map_cons, Fst.renameSts]
    have e1 : (AState.view m st).trs = m.read st.arc := rfl
    have e2 : (AState.view m st).niepsilons = st.niepsilons := rfl
    have e3 : (AState.view m st).noepsilons = st.noepsilons := rfl
    rw [e1, e2, e3]
    cases hr : Fst.renameSt newId (m.read st.arc) st.niepsilons st.noepsilons with
    | error e => simp
    | ok x =>
      obtain ⟨ts, ni, no⟩ := x
      simp only
      obtain ⟨i1, r1, s1⟩ := update_spec (R := arcsOf l ++ R) h (fun _ => ts)
      have i1' : Inv (m.update st.arc fun _ => ts).1 (arcsOf l ++ ((m.update st.arc fun _ => ts).2 :: R)) :=
        i1.perm List.perm_middle.symm
      have hih := ih i1'
      rw [views_same (s1.sub fun a ha => List.mem_append_left _ ha)] at hih
      cases hq : AFst.renameSts newId (m.update st.arc fun _ => ts).1 l with
      | error e =>
        rw [hq] at hih
        simp only at hih
        simp [hih]
      | ok y =>
        obtain ⟨m', l'⟩ := y
        rw [hq] at hih
        simp only at hih
        obtain ⟨v2, i2, s2⟩ := hih
        simp only [v2]
        refine ⟨?_, i2.perm List.perm_middle, (s1.sub fun a ha => List.mem_append_right _ ha).trans
          (s2.sub fun a ha => List.mem_cons_of_mem _ ha)⟩
        simp only [List.map_cons, AState.view]
        rw [s2 _ (List.mem_cons_self ..), r1]

theorem delStates_spec {m : Mem W} {f : AFst W} (ds : List StateId) {R : List Nat} (h : Inv m (arcsOf f.states ++ R)) :
    match f.delStates m ds with
    | .error e => (f.view m).delStates ds = .error e
    | .ok (m', f') => (f.view m).delStates ds = .ok (f'.view m') ∧ Inv m' (arcsOf f'.states ++ R) ∧ Same m m' R := by
  unfold AFst.delStates Fst.delStates
  rw [view_states_length]
  cases hm : Fst.markDeleted f.states.length ds with
  | error e => simp
  | ok marks =>
    simp only
    have hc := compact_map m marks 0 0 f.states
    rw [show (f.view m).states = f.states.map (·.view m) from rfl, hc]
    have hp := compact_perm marks 0 0 f.states
    generalize AFst.compact marks 0 0 f.states = r at hp ⊢
    obtain ⟨ids, sts, ns⟩ := r
    simp only at hp ⊢
    have i0 : Inv m (arcsOf (sts.drop ns) ++ (arcsOf (sts.take ns) ++ R)) := by
      refine h.perm ?_
      rw [← List.append_assoc]
      refine List.Perm.append_right R ?_
      have h1 : (arcsOf f.states).Perm (arcsOf sts) := (hp.map _).symm
      refine h1.trans ?_
      conv_lhs => rw [← List.take_append_drop ns sts]
      simp only [arcsOf, List.map_append]
      exact List.perm_append_comm
    obtain ⟨i1, s1⟩ := dropStates_spec _ i0
    have i2 := renameSts_spec ids (sts.take ns) i1
    rw [views_same (s1.sub fun a ha => List.mem_append_left _ ha), List.map_take] at i2
    cases hr : AFst.renameSts ids (AFst.dropStates m (sts.drop ns)) (sts.take ns) with
    | error e =>
      rw [hr] at i2
      simp only at i2
      simp [i2]
    | ok y =>
      obtain ⟨m', l'⟩ := y
      rw [hr] at i2
      simp only at i2
      obtain ⟨v2, i3, s3⟩ := i2
      simp only [v2]
      rw [show (f.view m).start = f.start from rfl]
      cases Fst.renameStart ids f.start with
      | error e => simp
      | ok st => exact ⟨rfl, i3, (s1.sub fun a ha => List.mem_append_right _ ha).trans s3⟩

theorem delTrIdx_spec {m : Mem W} {st : AState W} {R : List Nat} (h : Inv m (st.arc :: R)) : ∀ is : List Nat,
    match AFst.delTrIdx m st is with
    | .error e => Fst.delTrIdx (st.view m) is = .error e
    | .ok (m', st') => Fst.delTrIdx (st.view m) is = .ok (st'.view m') ∧ Inv m' (st'.arc :: R) ∧ Same m m' R := by
  intro is
  induction is with
  | nil => exact ⟨rfl, h, Same.refl _ _⟩
  | cons i is ih =>
    unfold AFst.delTrIdx Fst.delTrIdx
    cases hq : AFst.delTrIdx m st is with
    | error e =>
      rw [hq] at ih
      simp only at ih
      simp [ih]
    | ok y =>
      obtain ⟨m', st'⟩ := y
      rw [hq] at ih
      simp only at ih
      obtain ⟨v2, i2, s2⟩ := ih
      simp only [v2]
      rw [show (st'.view m').trs = m'.read st'.arc from rfl]
      cases ht : (m'.read st'.arc)[i]? with
      | none => simp
      | some t =>
        obtain ⟨i3, r3, s3⟩ := update_spec i2 (fun v => v.eraseIdx i)
        refine ⟨?_, i3, s2.trans s3⟩
        simp only [AState.view]
        rw [r3]

theorem editTr_spec {m : Mem W} {f : AFst W} (s : StateId) (idx : Nat) (p0 : Props)
    (k : Tr W → Tr W × (Nat → Nat) × (Nat → Nat) × Props) {R : List Nat} (h : Inv m (arcsOf f.states ++ R)) :
    Inv (f.editTr m s idx p0 k).1 (arcsOf (f.editTr m s idx p0 k).2.1.states ++ R) ∧
    Same m (f.editTr m s idx p0 k).1 R ∧
    ((f.editTr m s idx p0 k).2.1.view (f.editTr m s idx p0 k).1, (f.editTr m s idx p0 k).2.2) =
      if s < (f.view m).states.length then
        match ((f.view m).trsOf s)[idx]? with
        | none => ({ f.view m with props := p0 }, false)
        | some t => ((f.view m).replaceTr s idx (k t).1 (k t).2.1 (k t).2.2.1 (k t).2.2.2, true)
      else (f.view m, false) := by
  unfold AFst.editTr
  rw [view_states_length]
  cases hs : f.states[s]? with
  | none =>
    have : f.states.length ≤ s := by simpa using hs
    refine ⟨h, Same.refl _ _, ?_⟩
    rw [if_neg (by omega)]
  | some st =>
    have hlt : s < f.states.length := (List.getElem?_eq_some_iff.1 hs).1
    rw [if_pos hlt]
    have ht : (f.view m).trsOf s = m.read st.arc := by
      unfold Fst.trsOf
      rw [view_getElem?, hs]
      rfl
    rw [ht]
    obtain ⟨pre, post, he, hl⟩ := split_at hs
    have hp : Inv m (st.arc :: (arcsOf (pre ++ post) ++ R)) := (he ▸ h).perm (by
        simp only [arcsOf, List.map_append, List.map_cons, List.append_assoc, List.cons_append]
        exact List.perm_middle)
    have hlen : pre.length = (pre.map (·.view m)).length := by simp
    cases hi : (m.read st.arc)[idx]? with
    | none =>
      simp only [hi]
      rw [he] at h ⊢
      subst hl
      rw [set_mid]
      obtain ⟨i, s, v⟩ := set_spec (m' := (m.update st.arc id).1) (st' := { st with arc := (m.update st.arc id).2 }) h
        (fun hp => let u := update_spec hp id; ⟨u.1, u.2.2⟩)
      refine ⟨i, s, ?_⟩
      simp only [AFst.view]
      rw [v, he, List.map_append, List.map_cons]
      simp only [AState.view]
      rw [(update_spec hp id).2.1]
      rfl
    | some t =>
      simp only [hi]
      rw [he] at h ⊢
      subst hl
      rw [set_mid]
      obtain ⟨i, s, v⟩ := set_spec (m' := (m.update st.arc fun v => v.set idx (k t).1).1)
        (st' := ⟨st.fin, (m.update st.arc fun v => v.set idx (k t).1).2, (k t).2.1 st.niepsilons,
          (k t).2.2.1 st.noepsilons⟩) h (fun hp => let u := update_spec hp _; ⟨u.1, u.2.2⟩)
      refine ⟨i, s, ?_⟩
      simp only [AFst.view, Fst.replaceTr, Fst.modifySt]
      rw [v, he, List.map_append, List.map_cons, hlen, modify_mid]
      simp only [AState.view]
      rw [(update_spec hp _).2.1]

end Verif.Arcs
