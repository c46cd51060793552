import Verif.Lemmas.Partition

/-! # The operations on partitions -/

namespace Verif
namespace Part

variable {p : Part} {n nc : Nat} {E : Nat → PElt} {C : Nat → PCls} {v : List Nat} {k : Nat} {σ : PState} {no yes : Nat → List Nat}
  {pend : List Nat}

theorem View.cast {E' : Nat → PElt} {C' : Nat → PCls} (h : View p n nc E C v k) (he : ∀ e, E e = E' e) (hc : ∀ c, C c = C' c) :
    View p n nc E' C' v k := by
  have : E = E' := funext he
  have : C = C' := funext hc
  subst_vars; exact h

theorem PInv.setPending (h : PInv E C σ no yes pend) (q : List Nat) : PInv E C { σ with pending := q } no yes pend :=
  ⟨h.cl, h.dlNo, h.dlYes, h.ndNo, h.ndYes, h.memNo, h.memYes, h.el, h.pendNd, h.pendIff, h.unm⟩

theorem View.add (h : View p n nc E C v k) {e c} (he : e < n) (hc : c < nc) (hh : (C c).noHead.toNat < n) :
    ∃ p', p.add e c = .ok p' ∧ View p' n nc (upd (setPrevF E (C c).noHead e) e ⟨c, 0, (C c).noHead, -1⟩)
      (fun x => if x = c then { C c with size := (C c).size + 1, noHead := e } else C x) v k := by
  obtain ⟨p1, e1, h1⟩ := h.modCls hc fun x => { x with size := x.size + 1 }
  obtain ⟨p2, e2, h2⟩ := h1.setPrev hh e
  obtain ⟨p3, e3, h3⟩ := h2.modCls hc fun x => { x with noHead := e }
  obtain ⟨p4, e4, h4⟩ := h3.modElt he fun _ => { classId := c, yes := 0, next := (C c).noHead, prev := -1 }
  refine ⟨p4, ?_, h4.cast (fun _ => rfl) fun x => ?_⟩
  · simp only [Part.add, h.clsOk hc, e1, e2, e3, bind, Except.bind]
    exact e4
  · simp only [upd]
    split <;> simp

theorem View.unlink (h : View p n nc E C v k) {x : PElt} (hc : x.classId < nc) (hp : x.prev.toNat < n) (hn : x.next.toNat < n) :
    ∃ p', p.unlink x = .ok p' ∧ View p' n nc (unlinkF E x)
      (fun c => if c = x.classId then { C c with noHead := if x.prev ≥ 0 then (C c).noHead else x.next } else C c) v k := by
  by_cases hge : x.prev ≥ 0
  · obtain ⟨p1, e1, h1⟩ := h.modElt hp fun y => { y with next := x.next }
    obtain ⟨p2, e2, h2⟩ := h1.setPrev hn x.prev
    refine ⟨p2, ?_, h2.cast (fun e => ?_) fun c => ?_⟩
    · simp only [Part.unlink, hge, if_true, e1, bind, Except.bind]; exact e2
    · simp only [unlinkF, hge, if_true]
    · simp only [hge, if_true]; split <;> rfl
  · obtain ⟨p1, e1, h1⟩ := h.modCls hc fun y => { y with noHead := x.next }
    obtain ⟨p2, e2, h2⟩ := h1.setPrev hn x.prev
    refine ⟨p2, ?_, h2.cast (fun e => ?_) fun c => ?_⟩
    · simp only [Part.unlink, hge, if_false, e1, bind, Except.bind]; exact e2
    · simp only [unlinkF, hge, if_false]
    · simp only [hge, if_false, upd]
      split
      · rename_i h'; subst h'; rfl
      · rfl

/-- The marks agree with the flags of the elements. -/
def Flags (E : Nat → PElt) (k : Nat) (σ : PState) : Prop :=
  ∀ e c, σ.cls e = some c → (E e).yes ≤ k ∧ (σ.marked e = true ↔ (E e).yes = k)

/-- The partition represents the abstract partition. -/
def Rep (p : Part) (σ : PState) : Prop :=
  ∃ E C no yes k, View p σ.n σ.nc E C σ.pending k ∧ PInv E C σ no yes σ.pending ∧ Flags E k σ ∧ 1 ≤ k

theorem rep_init (hp : p.visited = []) (m : Nat) : Rep (p.init m) (PState.new m) := by
  have hl : (p.init m).elements.length = m := by
    simp only [Part.init, List.length_append, List.length_take, List.length_replicate]; omega
  refine ⟨fun e => ((p.init m).elements[e]?).getD {}, fun _ => {}, fun _ => [], fun _ => [], 1, ⟨hl, rfl, ?_, ?_, hp, rfl⟩, ?_, ?_, le_rfl⟩
  · intro e he
    have he' : e < m := he
    rw [List.getElem?_eq_getElem (by omega)]; rfl
  · intro c hc; exact absurd hc (Nat.not_lt_zero _)
  · refine ⟨?_, ?_, ?_, ?_, ?_, ?_, ?_, ?_, List.nodup_nil, ?_, fun _ _ => rfl⟩
    iterate 7 exact fun c hc => absurd hc (Nat.not_lt_zero _)
    · intro e c h; cases h
    · intro c; simp [PState.new]
  · intro e c h; cases h

theorem rep_new (m : Nat) : Rep (Part.new m) (PState.new m) := rep_init rfl m

theorem rep_allocate (h : Rep p σ) (m : Nat) : Rep (p.allocateClasses m) { σ with nc := σ.nc + m } := by
  obtain ⟨E, C, no, yes, k, hv, hi, hf, hk⟩ := h
  have hcl : ∀ e c, σ.cls e = some c → c < σ.nc := fun e c h => (hi.el e c h).2.1
  have hin : ∀ c, c < σ.nc → ∀ (a b : List Nat), (if c < σ.nc then a else b) = a := fun c hc a b => if_pos hc
  refine ⟨E, fun c => if c < σ.nc then C c else {}, fun c => if c < σ.nc then no c else [], fun c => if c < σ.nc then yes c else [], k,
    ⟨hv.hn, by simp [allocateClasses, hv.hnc], hv.elt, ?_, hv.visited, hv.counter⟩, ?_, hf, hk⟩
  · intro c hc
    simp only [allocateClasses]
    by_cases hlt : c < σ.nc
    · rw [List.getElem?_append_left (by rw [hv.hnc]; exact hlt), hv.cls c hlt, if_pos hlt]
    · have hc' : c < σ.nc + m := hc
      rw [List.getElem?_append_right (by rw [hv.hnc]; omega), List.getElem?_replicate, if_pos (by rw [hv.hnc]; omega), if_neg hlt]
  · refine ⟨?_, ?_, ?_, ?_, ?_, ?_, ?_, ?_, hi.pendNd, ?_, hi.unm⟩
    · intro c hc
      split
      · exact hi.cl c ‹_›
      · rfl
    · intro c hc
      split
      · exact hi.dlNo c ‹_›
      · trivial
    · intro c hc
      split
      · exact hi.dlYes c ‹_›
      · trivial
    · intro c hc
      split
      · exact hi.ndNo c ‹_›
      · exact List.nodup_nil
    · intro c hc
      split
      · exact hi.ndYes c ‹_›
      · exact List.nodup_nil
    · intro c hc e
      dsimp only
      split
      · exact hi.memNo c ‹_› e
      · rename_i hlt
        constructor
        · intro h; cases h
        · rintro ⟨h, _⟩; exact absurd (hcl e c h) hlt
    · intro c hc e
      dsimp only
      split
      · exact hi.memYes c ‹_› e
      · rename_i hlt
        constructor
        · intro h; cases h
        · rintro ⟨h, _⟩; exact absurd (hcl e c h) hlt
    · intro e c h
      obtain ⟨h1, h2, h3⟩ := hi.el e c h
      exact ⟨h1, Nat.lt_add_right m h2, h3⟩
    · intro c
      dsimp only
      rw [hi.pendIff]
      constructor
      · rintro ⟨h1, h2⟩; exact ⟨by omega, by rw [if_pos h1]; exact h2⟩
      · rintro ⟨h1, h2⟩
        split at h2
        · exact ⟨‹_›, h2⟩
        · exact absurd rfl h2

theorem rep_add (h : Rep p σ) {e c} (he : e < σ.n) (hc : c < σ.nc) (hn : σ.cls e = none) :
    ∃ p', p.add e c = .ok p' ∧ Rep p' { σ with cls := fun x => if x = e then some c else σ.cls x } := by
  obtain ⟨E, C, no, yes, k, hv, hi, hf, hk⟩ := h
  have hh : (C c).noHead = hd (no c) := by rw [hi.cl c hc]
  obtain ⟨p', e', v'⟩ := hv.add he hc (by rw [hh]; exact (hi.lt_hd hc (by omega)).1)
  rw [hh] at v'
  refine ⟨p', e', _, _, _, _, k, v', hi.add he hc hn fun _ => rfl, ?_, hk⟩
  intro z x hz
  simp only at hz
  by_cases hze : z = e
  · subst hze
    have := hi.unm z hn
    simp [upd, this]; omega
  · simp only [hze, if_false] at hz
    simpa [upd, hze, (setPrevF_data E (hd (no c)) e z).2.1] using hf z x hz

/-- The neighbours of an element that is not marked. -/
theorem PInv.nbrs (hi : PInv E C σ no yes pend) {e c} (hc : σ.cls e = some c) (hm : σ.marked e = false) :
    ∃ l1 l2, no c = l1 ++ e :: l2 ∧ DL E (-1) (l1 ++ e :: l2) ∧ (E e).prev.toNat < σ.n ∧ (E e).next.toNat < σ.n := by
  obtain ⟨hen, hcn, hid⟩ := hi.el e c hc
  obtain ⟨l1, l2, hl⟩ := List.append_of_mem ((hi.memNo c hcn e).2 ⟨hc, hm⟩)
  have hdl := hi.dlNo c hcn
  rw [hl] at hdl
  obtain ⟨hp, hn⟩ := hdl.at
  have inN : ∀ z, z ∈ no c → z < σ.n := fun z hz => (hi.el z c ((hi.memNo c hcn z).1 hz).1).1
  refine ⟨l1, l2, hl, hdl, ?_, ?_⟩
  · rw [hp]
    rcases lst_mem l1 (-1) with h | ⟨a, ha, h⟩
    · rw [h]; simpa using (by omega : 0 < σ.n)
    · rw [h]; simpa using inN a (by rw [hl]; simp [ha])
  · rw [hn]
    rcases hl2 : l2 with _ | ⟨a, l⟩
    · simpa [hd] using (by omega : 0 < σ.n)
    · simpa [hd] using inN a (by rw [hl, hl2]; simp)

/-- Taking out an element that is not marked; the size of its class is left as it is. -/
theorem rep_unlink (hv : View p σ.n σ.nc E C v k) (hi : PInv E C σ no yes pend) {e c}
    (hc : σ.cls e = some c) (hm : σ.marked e = false) :
    ∃ p' C' no', p.unlink (E e) = .ok p' ∧ View p' σ.n σ.nc (unlinkF E (E e)) C' v k ∧ C' c = { C c with noHead := hd (no' c) } ∧
      (∀ x, x ≠ c → C' x = C x) ∧ 1 ≤ (C c).size ∧
      ∀ C'' : Nat → PCls, (C'' c = { C' c with size := (C c).size - 1 }) → (∀ x, x ≠ c → C'' x = C' x) →
        PInv (unlinkF E (E e)) C'' { σ with cls := fun x => if x = e then none else σ.cls x } no' yes pend := by
  obtain ⟨hen, hcn, hid⟩ := hi.el e c hc
  obtain ⟨l1, l2, hl, hdl, hpn, hnn⟩ := hi.nbrs hc hm
  obtain ⟨p', e', v'⟩ := hv.unlink (x := E e) (by rw [hid]; exact hcn) hpn hnn
  have hhd := hd_unlink hdl
  have hnh : (C c).noHead = hd (l1 ++ e :: l2) := by rw [hi.cl c hcn, hl]
  refine ⟨p', _, upd no c (l1 ++ l2), e', v', ?_, ?_, ?_, ?_⟩
  · rw [hid]; simp only [if_true, upd, hhd, hnh]
  · intro x hx; rw [hid]; simp [hx]
  · rw [hi.cl c hcn, hl]; simp; omega
  · intro C'' h1 h2
    refine hi.remove hc hl fun x => ?_
    by_cases hx : x = c
    · subst hx
      rw [h1, hid]
      simp only [if_true, hhd, hnh]
    · rw [h2 x hx, hid]; simp [hx]

theorem rep_move (h : Rep p σ) {e c} (hs : (σ.cls e).isSome = true) (hc : c < σ.nc) (hm : σ.marked e = false) :
    ∃ p', p.moveElement e c = .ok p' ∧ Rep p' { σ with cls := fun x => if x = e then some c else σ.cls x } := by
  obtain ⟨E, C, no, yes, k, hv, hi, hf, hk⟩ := h
  obtain ⟨c0, hc0⟩ := Option.isSome_iff_exists.1 hs
  obtain ⟨hen, hcn, hid⟩ := hi.el e c0 hc0
  obtain ⟨p1, e1, v1⟩ := hv.modCls hcn fun x => { x with size := (C c0).size - 1 }
  obtain ⟨l1, l2, hl, hdl, hpn, hnn⟩ := hi.nbrs hc0 hm
  have hsz : 1 ≤ (C c0).size := by rw [hi.cl c0 hcn, hl]; simp; omega
  obtain ⟨p2, e2, v2⟩ := v1.unlink (x := E e) (by rw [hid]; exact hcn) hpn hnn
  have hhd := hd_unlink hdl
  have hnh : (C c0).noHead = hd (l1 ++ e :: l2) := by rw [hi.cl c0 hcn, hl]
  have hrem : PInv (unlinkF E (E e)) (fun c => if c = (E e).classId then { upd C c0 { C c0 with size := (C c0).size - 1 } c with
      noHead := if (E e).prev ≥ 0 then (upd C c0 { C c0 with size := (C c0).size - 1 } c).noHead else (E e).next }
      else upd C c0 { C c0 with size := (C c0).size - 1 } c) { σ with cls := fun x => if x = e then none else σ.cls x }
      (upd no c0 (l1 ++ l2)) yes σ.pending := by
    refine hi.remove hc0 hl fun x => ?_
    rw [hid]
    by_cases hx : x = c0
    · subst hx; simp [upd, hhd, hnh]
    · simp [hx, upd]
  have hrep : Rep p2 { σ with cls := fun x => if x = e then none else σ.cls x } := by
    refine ⟨_, _, _, _, k, v2, hrem, ?_, hk⟩
    intro z x hz
    simp only at hz
    split at hz
    · cases hz
    · rw [(unlinkF_data E (E e) z).2]; exact hf z x hz
  obtain ⟨p3, e3, r3⟩ := rep_add (e := e) (c := c) hrep hen hc (by simp)
  refine ⟨p3, ?_, ?_⟩
  · simp only [Part.moveElement, hv.eltOk hen, hid, hv.clsOk hcn, subU, hsz, if_true, bind, Except.bind, e1, e2]
    exact e3
  · convert r3 using 2
    funext x
    by_cases hx : x = e <;> simp [hx]

theorem rep_splitOn (h : Rep p σ) {e c} (hc : σ.cls e = some c) :
    ∃ p', p.splitOn e = .ok p' ∧ Rep p' { σ with
        marked := fun x => if x = e then true else σ.marked x
        pending := if c ∈ σ.pending then σ.pending else σ.pending ++ [c] } := by
  obtain ⟨E, C, no, yes, k, hv, hi, hf, hk⟩ := h
  obtain ⟨hen, hcn, hid⟩ := hi.el e c hc
  by_cases hm : σ.marked e = true
  · have hy := (hf e c hc).2.1 hm
    have hpend : c ∈ σ.pending := (hi.pendIff c).2 ⟨hcn, fun h => by
      have := (hi.memYes c hcn e).2 ⟨hc, hm⟩
      rw [h] at this; cases this⟩
    refine ⟨p, ?_, ?_⟩
    · simp only [Part.splitOn, hv.eltOk hen, hid, hv.clsOk hcn, bind, Except.bind, hy, hv.counter, if_true]
    · have : ({ σ with
          marked := fun x => if x = e then true else σ.marked x
          pending := if c ∈ σ.pending then σ.pending else σ.pending ++ [c] } : PState) = σ := by
        have e1 : (fun x => if x = e then true else σ.marked x) = σ.marked := by
          funext x
          split
          · rename_i h; rw [h, hm]
          · rfl
        rw [e1, if_pos hpend]
      rw [this]
      exact ⟨E, C, no, yes, k, hv, hi, hf, hk⟩
  · have hm : σ.marked e = false := by simpa using hm
    have hy : (E e).yes ≠ k := fun h => by
      have := (hf e c hc).2.2 h
      rw [hm] at this; cases this
    obtain ⟨p1, C1, no1, e1, v1, c1, c1', hsz, hrem⟩ := rep_unlink hv hi hc hm
    have hyh : (C c).yesHead = hd (yes c) := by rw [hi.cl c hcn]
    have hyl : (hd (yes c)).toNat < σ.n := (hi.lt_hd hcn (by omega)).2
    -- the list of visited classes
    have step2 : ∃ p2, p1.visit (C c).yesHead e c = .ok p2 ∧
        View p2 σ.n σ.nc (setPrevF (unlinkF E (E e)) (hd (yes c)) e) C1
          (if c ∈ σ.pending then σ.pending else σ.pending ++ [c]) k := by
      rw [hyh, Part.visit]
      rcases hyc : yes c with _ | ⟨a, l⟩
      · have hp : c ∉ σ.pending := fun h => ((hi.pendIff c).1 h).2 hyc
        rw [if_neg (by simp [hd]), if_neg hp]
        refine ⟨_, rfl, v1.hn, v1.hnc, ?_, v1.cls, ?_, v1.counter⟩
        · intro x hx
          simpa [setPrevF, hd] using v1.elt x hx
        · simp [v1.visited]
      · have hp : c ∈ σ.pending := (hi.pendIff c).2 ⟨hcn, by simp [hyc]⟩
        rw [if_pos (by simp [hd]), if_pos hp]
        rw [hyc] at hyl
        exact v1.setPrev hyl e
    obtain ⟨p2, e2, v2⟩ := step2
    obtain ⟨p3, e3, v3⟩ := v2.modElt hen fun y => { y with yes := k, next := (C c).yesHead, prev := -1 }
    obtain ⟨p4, e4, v4⟩ := v3.modCls hcn fun y => { y with yesHead := e, yesSize := y.yesSize + 1 }
    have hid' : (unlinkF E (E e) e).classId = c := by rw [(unlinkF_data E (E e) e).1, hid]
    have hEe : ({ setPrevF (unlinkF E (E e)) (hd (yes c)) e e with yes := k, next := (C c).yesHead, prev := -1 } : PElt) =
        ⟨c, k, hd (yes c), -1⟩ := by
      simp only [(setPrevF_data _ _ _ e).1, hid', hyh]
    have hmark := (hrem (fun x => if x = c then { C1 c with size := (C c).size - 1 } else C1 x) (by simp)
      (fun x hx => by simp [hx])).mark (C' := upd C1 c { C1 c with yesHead := e, yesSize := (C1 c).yesSize + 1 }) (k := k)
      (e := e) (c := c) hen hcn (by simp)
      (fun x => by
        by_cases hx : x = c
        · subst hx
          simp only [upd, if_true, c1]
          congr 1; omega
        · simp [upd, hx]) hid'
    have hσ : ({ σ with cls := (fun x => if x = e then some c else if x = e then none else σ.cls x),
                        marked := (fun x => if x = e then true else σ.marked x) } : PState) =
        { σ with marked := (fun x => if x = e then true else σ.marked x) } := by
      congr 1
      funext x
      by_cases hx : x = e
      · simp [hx, hc]
      · simp [hx]
    simp only at hmark
    rw [hσ] at hmark
    have v5 := v4.cast (E' := upd (setPrevF (unlinkF E (E e)) (hd (yes c)) e) e ⟨c, k, hd (yes c), -1⟩) (fun z => by rw [hEe])
      (fun _ => rfl)
    refine ⟨p4, ?_, _, _, _, _, k, v5, hmark.setPending _, ?_, hk⟩
    · simp only [Part.splitOn, hv.eltOk hen, hid, hv.clsOk hcn, bind, Except.bind, hv.counter, hy, if_false, e1]
      have : p1.yesCounter = k := v1.counter
      simp only [e2, v2.counter, e3, hid]
      exact e4
    · intro z x hz
      simp only at hz ⊢
      by_cases hze : z = e
      · subst hze; simp [upd]
      · have := hf z x hz
        simpa [upd, hze, (setPrevF_data (unlinkF E (E e)) (hd (yes c)) e z).2.1, (unlinkF_data E (E e) z).2] using this

/-! ## Splitting -/

theorem relabel_spec {c' : Nat} : ∀ (l : List Nat) (fuel : Nat) (p : Part) (E : Nat → PElt) (pr : Int), View p n nc E C v k → DL E pr l →
    (∀ e ∈ l, e < n) → l.length < fuel →
    ∃ p', relabel c' fuel (hd l) p = .ok p' ∧ View p' n nc (fun x => if x ∈ l then { E x with classId := c' } else E x) C v k := by
  intro l
  induction l with
  | nil =>
    intro fuel p E pr hv _ _ hf
    obtain ⟨fuel, rfl⟩ : ∃ m, fuel = m + 1 := ⟨fuel - 1, by simp at hf; omega⟩
    exact ⟨p, by simp [relabel, hd], hv.cast (fun e => by simp) fun _ => rfl⟩
  | cons a l ih =>
    intro fuel p E pr hv hdl hin hf
    obtain ⟨fuel, rfl⟩ : ∃ m, fuel = m + 1 := ⟨fuel - 1, by simp at hf; omega⟩
    obtain ⟨p1, e1, v1⟩ := hv.modElt (hin a (by simp)) fun x => { x with classId := c' }
    obtain ⟨h1, h2, h3⟩ := hdl
    have hdl' : DL (upd E a { E a with classId := c' }) a l := h3.congr fun z _ => by
      simp only [upd]
      split
      · rename_i hz; rw [hz]; exact ⟨rfl, rfl⟩
      · exact ⟨rfl, rfl⟩
    obtain ⟨p2, e2, v2⟩ := ih fuel p1 _ a v1 hdl' (fun e he => hin e (by simp [he])) (by simpa using hf)
    refine ⟨p2, ?_, v2.cast (fun x => ?_) fun _ => rfl⟩
    · have hng : ¬ ((a : Int) < 0) := by omega
      simp only [relabel, hd, hng, if_false, Int.toNat_natCast, e1, v1.eltOk (hin a (by simp)), bind, Except.bind, upd, if_true, h2]
      exact e2
    · simp only [upd, List.mem_cons]
      by_cases hxa : x = a
      · subst hxa
        by_cases hxl : x ∈ l <;> simp [hxl]
      · by_cases hxl : x ∈ l <;> simp [hxl, hxa]

theorem nodup_length_le {l : List Nat} {n : Nat} (hn : l.Nodup) (hl : ∀ e ∈ l, e < n) : l.length ≤ n := by
  have := (List.subperm_of_subset hn fun e he => List.mem_range.2 (hl e he)).length_le
  simpa using this

theorem splitRefine_spec {c rest} (hv : View p σ.n σ.nc E C v k) (hi : PInv E C σ no yes (c :: rest)) :
    ∃ p' E' C' no' yes', p.splitRefine c = .ok (if σ.sizeNo c = 0 then none else some σ.nc, p') ∧
      View p' (σ.split c).n (σ.split c).nc E' C' v k ∧ PInv E' C' (σ.split c) no' yes' rest ∧ ∀ e, (E' e).yes = (E e).yes := by
  have hc : c < σ.nc := ((hi.pendIff c).1 (by simp)).1
  have hno := hi.sizeNo hc
  have hyes := hi.sizeYes hc
  have hsub : subU (C c).size (C c).yesSize = .ok (σ.sizeNo c) := by
    rw [hi.cl c hc, hno]; simp [subU]
  by_cases hz : σ.sizeNo c = 0
  · obtain ⟨p1, e1, v1⟩ := hv.modCls hc fun x => { x with noHead := (C c).yesHead, yesHead := -1, yesSize := 0 }
    refine ⟨p1, E, upd C c { C c with noHead := (C c).yesHead, yesHead := -1, yesSize := 0 }, _, _, ?_, ?_,
      hi.splitAll hz fun x => ?_, fun _ => rfl⟩
    · simp only [Part.splitRefine, hv.clsOk hc, hsub, bind, Except.bind, hz, if_true, e1]
    · have : (σ.split c).nc = σ.nc := by simp [PState.split, hz]
      rw [this]; exact v1
    · simp only [upd]
  · have hnc : (σ.split c).nc = σ.nc + 1 := by simp [PState.split, hz]
    have v0 : View { p with classes := p.classes ++ [{}] } σ.n (σ.nc + 1) E (upd C σ.nc {}) v k := by
      refine ⟨hv.hn, by simp [hv.hnc], hv.elt, ?_, hv.visited, hv.counter⟩
      intro x hx
      by_cases hlt : x < σ.nc
      · simp only
        rw [List.getElem?_append_left (by rw [hv.hnc]; exact hlt), hv.cls x hlt]
        have : x ≠ σ.nc := by omega
        simp [upd, this]
      · have : x = σ.nc := by omega
        subst this
        simp only
        rw [List.getElem?_append_right (by rw [hv.hnc])]
        simp [hv.hnc, upd]
    obtain ⟨b, hb⟩ : ∃ b, b = decide (σ.sizeNo c < σ.sizeYes c) := ⟨_, rfl⟩
    obtain ⟨new, hnew⟩ : ∃ l, l = if b then no c else yes c := ⟨_, rfl⟩
    obtain ⟨old, hold⟩ : ∃ l, l = if b then yes c else no c := ⟨_, rfl⟩
    have hne : c ≠ σ.nc := by omega
    -- the new class
    have step : ∃ p2, Part.moveHalf { p with classes := p.classes ++ [{}] } (C c) (σ.sizeNo c) c σ.nc = .ok p2 ∧
        View p2 σ.n (σ.nc + 1) E
          (fun x => if x = c then ⟨old.length, 0, hd old, -1⟩ else if x = σ.nc then ⟨new.length, 0, hd new, -1⟩ else C x) v k := by
      have hys : (C c).yesSize = σ.sizeYes c := by rw [hi.cl c hc, hyes]
      have hyh : (C c).yesHead = hd (yes c) := by rw [hi.cl c hc]
      have hnh : (C c).noHead = hd (no c) := by rw [hi.cl c hc]
      by_cases hlt : σ.sizeNo c < (C c).yesSize
      · have hbt : b = true := by rw [hb, ← hys]; simpa using hlt
        subst hbt
        simp only [if_true] at hnew hold
        obtain ⟨p1, e1, v1⟩ := v0.modCls (c := σ.nc) (by omega) fun x => { x with noHead := (C c).noHead, size := σ.sizeNo c }
        obtain ⟨p2, e2, v2⟩ := v1.modCls (c := c) (by omega)
          fun x => { x with noHead := (C c).yesHead, yesHead := -1, size := (C c).yesSize, yesSize := 0 }
        refine ⟨p2, ?_, v2.cast (fun _ => rfl) fun x => ?_⟩
        · simp only [Part.moveHalf, hlt, if_true, e1, bind, Except.bind]; exact e2
        · simp only [upd]
          by_cases hx : x = c
          · subst hx; simp [hold, hyh, hys, hyes]
          · by_cases hx' : x = σ.nc
            · subst hx'; simp [hx, hnew, hnh, hno]
            · simp [hx, hx']
      · have hbf : b = false := by rw [hb, ← hys]; simpa using hlt
        subst hbf
        simp only [Bool.false_eq_true, if_false] at hnew hold
        obtain ⟨p1, e1, v1⟩ := v0.modCls (c := σ.nc) (by omega) fun x => { x with size := (C c).yesSize, noHead := (C c).yesHead }
        obtain ⟨p2, e2, v2⟩ := v1.modCls (c := c) (by omega) fun x => { x with size := σ.sizeNo c, yesSize := 0, yesHead := -1 }
        refine ⟨p2, ?_, v2.cast (fun _ => rfl) fun x => ?_⟩
        · simp only [Part.moveHalf, hlt, if_false, e1, bind, Except.bind]; exact e2
        · simp only [upd]
          by_cases hx : x = c
          · subst hx; simp [hne, hold, hnh, hno]
          · by_cases hx' : x = σ.nc
            · subst hx'; simp [hx, hnew, hyh, hys, hyes]
            · simp [hx, hx']
    obtain ⟨p2, e2, v2⟩ := step
    have dnew : DL E (-1) new := by rw [hnew]; split; exacts [hi.dlNo c hc, hi.dlYes c hc]
    have nnew : new.Nodup := by rw [hnew]; split; exacts [hi.ndNo c hc, hi.ndYes c hc]
    have inew : ∀ e ∈ new, e < σ.n := by
      intro e he
      rw [hnew] at he
      split at he
      · exact (hi.el e c ((hi.memNo c hc e).1 he).1).1
      · exact (hi.el e c ((hi.memYes c hc e).1 he).1).1
    obtain ⟨p3, e3, v3⟩ := relabel_spec (c' := σ.nc) new (σ.n + 1) p2 E (-1) v2 dnew inew
      (Nat.lt_succ_of_le (nodup_length_le nnew inew))
    refine ⟨p3, _, _, _, _, ?_, ?_, hi.splitTwo hz hb hnew hold fun _ => rfl, ?_⟩
    · have hcl : p2.cls σ.nc = .ok ⟨new.length, 0, hd new, -1⟩ := by
        rw [v2.clsOk (by omega)]
        have : ¬ σ.nc = c := fun h => hne h.symm
        simp [this]
      have hlen : p2.elements.length = σ.n := v2.hn
      simp only [Part.splitRefine, hv.clsOk hc, hsub, bind, Except.bind, hz, if_false]
      rw [hv.hnc]
      simp only [e2, hcl, hlen, e3]
    · rw [hnc]; exact v3
    · intro e
      dsimp only
      split <;> rfl

theorem refineAll_spec : ∀ (pend : List Nat) (p : Part) (σ : PState) (E : Nat → PElt) (C : Nat → PCls) (no yes : Nat → List Nat),
    View p σ.n σ.nc E C v k → PInv E C σ no yes pend →
    ∃ p' E' C' no' yes', refineAll pend p = .ok (List.range' σ.nc ((pend.foldl PState.split σ).nc - σ.nc), p') ∧
      View p' σ.n (pend.foldl PState.split σ).nc E' C' v k ∧ PInv E' C' (pend.foldl PState.split σ) no' yes' [] ∧
      (∀ e, (E' e).yes = (E e).yes) ∧ σ.nc ≤ (pend.foldl PState.split σ).nc := by
  intro pend
  induction pend with
  | nil =>
    intro p σ E C no yes hv hi
    exact ⟨p, E, C, no, yes, by simp [refineAll], hv, hi, fun _ => rfl, le_rfl⟩
  | cons c rest ih =>
    intro p σ E C no yes hv hi
    obtain ⟨p1, E1, C1, no1, yes1, e1, v1, i1, y1⟩ := splitRefine_spec hv hi
    obtain ⟨p2, E2, C2, no2, yes2, e2, v2, i2, y2, l2⟩ := ih p1 _ E1 C1 no1 yes1 v1 i1
    simp only [List.foldl_cons]
    have hnc : (σ.split c).nc = if σ.sizeNo c = 0 then σ.nc else σ.nc + 1 := rfl
    refine ⟨p2, E2, C2, no2, yes2, ?_, v2, i2, fun e => (y2 e).trans (y1 e), ?_⟩
    · simp only [refineAll, e1, e2, bind, Except.bind]
      congr 2
      by_cases hz : σ.sizeNo c = 0
      · simp [hz, hnc]
      · rw [if_neg hz] at hnc
        rw [hnc] at l2 ⊢
        simp only [hz, if_false, Option.toList_some, List.singleton_append]
        obtain ⟨m, hm⟩ : ∃ m, (rest.foldl PState.split (σ.split c)).nc = σ.nc + 1 + m := ⟨_, (Nat.add_sub_cancel' l2).symm⟩
        rw [hm]
        have a1 : σ.nc + 1 + m - σ.nc = m + 1 := by omega
        have a2 : σ.nc + 1 + m - (σ.nc + 1) = m := by omega
        rw [a1, a2, List.range'_succ]
    · rw [hnc] at l2
      split at l2 <;> omega

theorem foldl_split_n : ∀ (pend : List Nat) (σ : PState), (pend.foldl PState.split σ).n = σ.n := by
  intro pend
  induction pend with
  | nil => intro σ; rfl
  | cons c rest ih => intro σ; rw [List.foldl_cons, ih]; rfl

theorem PInv.noMarks (h : PInv E C σ no yes []) (e : Nat) : σ.marked e = false := by
  by_contra hm
  have hm : σ.marked e = true := by simpa using hm
  rcases hc : σ.cls e with _ | c
  · rw [h.unm e hc] at hm; cases hm
  · have hcn := (h.el e c hc).2.1
    have hy := (h.memYes c hcn e).2 ⟨hc, hm⟩
    have : c ∈ ([] : List Nat) := (h.pendIff c).2 ⟨hcn, fun h' => by rw [h'] at hy; cases hy⟩
    cases this

theorem foldl_split_dom : ∀ (pend : List Nat) (σ : PState) (e : Nat), ((pend.foldl PState.split σ).cls e).isSome = (σ.cls e).isSome := by
  intro pend
  induction pend with
  | nil => intro σ e; rfl
  | cons c rest ih =>
    intro σ e
    rw [List.foldl_cons, ih]
    simp only [PState.split]
    split
    · rename_i h'; rw [h'.2.1]; rfl
    · rfl

theorem rep_finalize (h : Rep p σ) :
    ∃ p', p.finalizeSplit = .ok (List.range' σ.nc ((σ.pending.foldl PState.split σ).nc - σ.nc), p') ∧
      Rep p' { σ.pending.foldl PState.split σ with pending := [] } := by
  obtain ⟨E, C, no, yes, k, hv, hi, hf, hk⟩ := h
  obtain ⟨p1, E1, C1, no1, yes1, e1, v1, i1, y1, _⟩ := refineAll_spec σ.pending p σ E C no yes hv hi
  refine ⟨{ p1 with visited := [], yesCounter := p1.yesCounter + 1 }, ?_, E1, C1, no1, yes1, k + 1, ?_, i1.setPending [], ?_, by omega⟩
  · simp only [Part.finalizeSplit, hv.visited, e1, bind, Except.bind]
  · exact ⟨v1.hn.trans (foldl_split_n _ _).symm, v1.hnc, fun e he => v1.elt e (by rw [← foldl_split_n σ.pending σ]; exact he), v1.cls, rfl,
      by rw [v1.counter]⟩
  · intro e c hc
    simp only at hc ⊢
    have hs : (σ.cls e).isSome = true := by
      rw [← foldl_split_dom σ.pending σ e, hc]; rfl
    obtain ⟨c0, hc0⟩ := Option.isSome_iff_exists.1 hs
    have := (hf e c0 hc0).1
    rw [y1, i1.noMarks e]
    exact ⟨by omega, by simp; omega⟩

/-! ## The whole -/

theorem rep_step (h : Rep p σ) {op out σ'} (ha : σ.apply op = some (out, σ')) : ∃ p', p.step op = .ok (out, p') ∧ Rep p' σ' := by
  cases op with
  | init m =>
    simp only [PState.apply] at ha
    split at ha
    · rename_i hp
      injection ha with ha; injection ha with h1 h2; subst h1 h2
      obtain ⟨E, C, no, yes, k, hv, _⟩ := h
      exact ⟨_, rfl, rep_init (by rw [hv.visited, hp]) m⟩
    · cases ha
  | addClass =>
    injection ha with ha; injection ha with h1 h2; subst h1 h2
    exact ⟨_, rfl, rep_allocate h 1⟩
  | allocate m =>
    injection ha with ha; injection ha with h1 h2; subst h1 h2
    exact ⟨_, rfl, rep_allocate h m⟩
  | add e c =>
    simp only [PState.apply] at ha
    split at ha
    · rename_i hp
      injection ha with ha; injection ha with h1 h2; subst h1 h2
      obtain ⟨p', e', r'⟩ := rep_add h hp.1 hp.2.1 hp.2.2
      exact ⟨p', by simp [Part.step, e', bind, Except.bind], r'⟩
    · cases ha
  | move e c =>
    simp only [PState.apply] at ha
    split at ha
    · rename_i hp
      injection ha with ha; injection ha with h1 h2; subst h1 h2
      obtain ⟨p', e', r'⟩ := rep_move h hp.1 hp.2.1 hp.2.2
      exact ⟨p', by simp [Part.step, e', bind, Except.bind], r'⟩
    · cases ha
  | splitOn e =>
    simp only [PState.apply] at ha
    rcases hc : σ.cls e with _ | c
    · rw [hc] at ha; cases ha
    · rw [hc] at ha
      injection ha with ha; injection ha with h1 h2; subst h1 h2
      obtain ⟨p', e', r'⟩ := rep_splitOn h hc
      exact ⟨p', by simp [Part.step, e', bind, Except.bind], r'⟩
  | finalize =>
    injection ha with ha; injection ha with h1 h2; subst h1 h2
    exact rep_finalize h

theorem rep_run : ∀ (ops : List POp) {p : Part} {σ : PState} {out σ'}, Rep p σ → σ.run ops = some (out, σ') →
    ∃ p', p.run ops = .ok (out, p') ∧ Rep p' σ' := by
  intro ops
  induction ops with
  | nil =>
    intro p σ out σ' h hr
    injection hr with hr; injection hr with h1 h2; subst h1 h2
    exact ⟨p, rfl, h⟩
  | cons op ops ih =>
    intro p σ out σ' h hr
    simp only [PState.run] at hr
    rcases ha : σ.apply op with _ | ⟨o, σ1⟩
    · rw [ha] at hr; cases hr
    · simp only [ha] at hr
      rcases hb : σ1.run ops with _ | ⟨os, σ2⟩
      · rw [hb] at hr; cases hr
      · rw [hb] at hr
        injection hr with hr; injection hr with h1 h2; subst h1 h2
        obtain ⟨p1, e1, r1⟩ := rep_step h ha
        obtain ⟨p2, e2, r2⟩ := ih r1 hb
        exact ⟨p2, by simp [Part.run, e1, e2, bind, Except.bind], r2⟩

theorem follow_spec (hv : View p n nc E C v k) : ∀ (l : List Nat) (fuel : Nat) (pr : Int), DL E pr l → (∀ e ∈ l, e < n) → l.length < fuel →
    p.follow fuel (hd l) = .ok l := by
  intro l
  induction l with
  | nil =>
    intro fuel pr _ _ hf
    obtain ⟨fuel, rfl⟩ : ∃ m, fuel = m + 1 := ⟨fuel - 1, by simp at hf; omega⟩
    simp [follow, hd]
  | cons a l ih =>
    intro fuel pr hdl hin hf
    obtain ⟨fuel, rfl⟩ : ∃ m, fuel = m + 1 := ⟨fuel - 1, by simp at hf; omega⟩
    obtain ⟨h1, h2, h3⟩ := hdl
    have hng : ¬ ((a : Int) < 0) := by omega
    have := ih fuel a h3 (fun e he => hin e (by simp [he])) (by simpa using hf)
    have hdc : hd (a :: l) = (a : Int) := rfl
    rw [hdc]
    simp only [follow, hng, if_false, Int.toNat_natCast, hv.eltOk (hin a (by simp)), bind, Except.bind, h2, this]

theorem Rep.shows (h : Rep p σ) : p.Shows σ := by
  obtain ⟨E, C, no, yes, k, hv, hi, hf, hk⟩ := h
  refine ⟨hv.hnc, ?_, ?_, ?_⟩
  · intro e c hc
    obtain ⟨h1, h2, h3⟩ := hi.el e c hc
    simp [getClassId, hv.eltOk h1, bind, Except.bind, h3]
  · intro c hc
    simp [getClassSize, hv.clsOk hc, bind, Except.bind, hi.cl c hc, hi.size hc]
  · intro c hc
    have inN : ∀ e ∈ no c, e < σ.n := fun e he => (hi.el e c ((hi.memNo c hc e).1 he).1).1
    refine ⟨no c, ?_, hi.ndNo c hc, hi.memNo c hc⟩
    simp only [iter, hv.clsOk hc, bind, Except.bind, hi.cl c hc, hv.hn]
    exact follow_spec hv _ _ (-1) (hi.dlNo c hc) inN (Nat.lt_succ_of_le (nodup_length_le (hi.ndNo c hc) inN))

end Part
end Verif
