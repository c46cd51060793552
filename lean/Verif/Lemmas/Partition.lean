import Verif.Lemmas.PartList
import Mathlib.Data.List.Perm.Basic
import Mathlib.Data.List.Range

/-! # The invariant of partitions -/

namespace Verif
namespace Part

/-- The lists of the classes: `no c` holds the elements of `c` that are not marked, `yes c` the marked ones. -/
structure PInv (E : Nat → PElt) (C : Nat → PCls) (σ : PState) (no yes : Nat → List Nat) (pend : List Nat) : Prop where
  cl : ∀ c, c < σ.nc → C c = ⟨(no c).length + (yes c).length, (yes c).length, hd (no c), hd (yes c)⟩
  dlNo : ∀ c, c < σ.nc → DL E (-1) (no c)
  dlYes : ∀ c, c < σ.nc → DL E (-1) (yes c)
  ndNo : ∀ c, c < σ.nc → (no c).Nodup
  ndYes : ∀ c, c < σ.nc → (yes c).Nodup
  memNo : ∀ c, c < σ.nc → ∀ e, e ∈ no c ↔ σ.cls e = some c ∧ σ.marked e = false
  memYes : ∀ c, c < σ.nc → ∀ e, e ∈ yes c ↔ σ.cls e = some c ∧ σ.marked e = true
  el : ∀ e c, σ.cls e = some c → e < σ.n ∧ c < σ.nc ∧ (E e).classId = c
  pendNd : pend.Nodup
  pendIff : ∀ c, c ∈ pend ↔ c < σ.nc ∧ yes c ≠ []
  unm : ∀ e, σ.cls e = none → σ.marked e = false

variable {E : Nat → PElt} {C : Nat → PCls} {σ : PState} {no yes : Nat → List Nat} {pend : List Nat}

theorem PInv.lt_hd (h : PInv E C σ no yes pend) {c} (hc : c < σ.nc) (hn : 0 < σ.n) : (hd (no c)).toNat < σ.n ∧ (hd (yes c)).toNat < σ.n := by
  constructor
  · rcases hl : no c with _ | ⟨a, l⟩
    · simpa [hd] using hn
    · have := (h.memNo c hc a).1 (by simp [hl])
      simpa [hd] using (h.el a c this.1).1
  · rcases hl : yes c with _ | ⟨a, l⟩
    · simpa [hd] using hn
    · have := (h.memYes c hc a).1 (by simp [hl])
      simpa [hd] using (h.el a c this.1).1

/-- A new element. -/
theorem PInv.add (h : PInv E C σ no yes pend) {e c} (he : e < σ.n) (hc : c < σ.nc) (hn : σ.cls e = none) {C' : Nat → PCls}
    (hC : ∀ x, C' x = if x = c then { C c with size := (C c).size + 1, noHead := e } else C x) :
    PInv (upd (setPrevF E (hd (no c)) e) e ⟨c, 0, hd (no c), -1⟩) C'
      { σ with cls := fun x => if x = e then some c else σ.cls x } (upd no c (e :: no c)) yes pend := by
  have hm := h.unm e hn
  have hno : ∀ x, x < σ.nc → e ∉ no x := fun x hx hm => by
    have := ((h.memNo x hx e).1 hm).1; rw [hn] at this; cases this
  have hyes : ∀ x, x < σ.nc → e ∉ yes x := fun x hx hm => by
    have := ((h.memYes x hx e).1 hm).1; rw [hn] at this; cases this
  have other : ∀ z, z ≠ e → z ∉ no c → (upd (setPrevF E (hd (no c)) e) e ⟨c, 0, hd (no c), -1⟩) z = E z := by
    intro z hz hz'
    simp [upd, hz, setPrevF_other hz']
  refine ⟨?_, ?_, ?_, ?_, h.ndYes, ?_, ?_, ?_, h.pendNd, h.pendIff, ?_⟩
  · intro x hx
    rw [hC]
    by_cases hxc : x = c
    · subst hxc
      simp only [upd, if_pos, h.cl x hx, List.length_cons, hd]
      congr 1; omega
    · simp [hxc, upd, h.cl x hx]
  · intro x hx
    by_cases hxc : x = c
    · subst hxc
      simp only [upd, if_true]
      exact (h.dlNo x hx).push (h.ndNo x hx) (hno x hx) rfl rfl
    · simp only [upd, hxc, if_false]
      refine (h.dlNo x hx).congr fun z hz => ?_
      have := (h.memNo x hx z).1 hz
      have h2 := other z (fun e' => hno x hx (e' ▸ hz)) fun hz' => hxc (by
        have := this.1.symm.trans ((h.memNo c hc z).1 hz').1
        injection this)
      rw [h2]; exact ⟨rfl, rfl⟩
  · intro x hx
    refine (h.dlYes x hx).congr fun z hz => ?_
    have := (h.memYes x hx z).1 hz
    rw [other z (fun e' => hyes x hx (e' ▸ hz)) fun hz' => by
      have := this.2.symm.trans ((h.memNo c hc z).1 hz').2
      cases this]
    exact ⟨rfl, rfl⟩
  · intro x hx
    by_cases hxc : x = c
    · subst hxc
      simp only [upd, if_true]
      exact List.nodup_cons.2 ⟨hno x hx, h.ndNo x hx⟩
    · simp only [upd, hxc, if_false]
      exact h.ndNo x hx
  · intro x hx z
    simp only [upd]
    by_cases hze : z = e
    · subst hze
      by_cases hxc : x = c
      · subst hxc; simp [hm]
      · have : ¬ c = x := fun e => hxc e.symm
        simp [hxc, this, hno x hx]
    · by_cases hxc : x = c
      · subst hxc; simp [hze, h.memNo x hx]
      · simp [hze, hxc, h.memNo x hx]
  · intro x hx z
    by_cases hze : z = e
    · subst hze
      simp [hm, hyes x hx]
    · simp [hze, h.memYes x hx]
  · intro z x hz
    simp only at hz
    by_cases hze : z = e
    · subst hze
      simp only [if_true, Option.some.injEq] at hz
      subst hz
      exact ⟨he, hc, by simp [upd]⟩
    · simp only [hze, if_false] at hz
      obtain ⟨h1, h2, h3⟩ := h.el z x hz
      exact ⟨h1, h2, by simp [upd, hze, (setPrevF_data E _ _ z).1, h3]⟩
  · intro z hz
    simp only at hz
    split at hz
    · cases hz
    · exact h.unm z hz

/-- Taking out an element that is not marked. -/
theorem PInv.remove (h : PInv E C σ no yes pend) {e c l1 l2} (hc : σ.cls e = some c) (hl : no c = l1 ++ e :: l2) {C' : Nat → PCls}
    (hC : ∀ x, C' x = if x = c then { C c with size := (C c).size - 1, noHead := hd (l1 ++ l2) } else C x) :
    PInv (unlinkF E (E e)) C' { σ with cls := fun x => if x = e then none else σ.cls x } (upd no c (l1 ++ l2)) yes pend := by
  obtain ⟨hen, hcn, hid⟩ := h.el e c hc
  have hdl := h.dlNo c hcn
  have hnd := h.ndNo c hcn
  have hmc : ∀ z, z ∈ l1 ++ e :: l2 ↔ σ.cls z = some c ∧ σ.marked z = false := fun z => by rw [← hl]; exact h.memNo c hcn z
  have hm : σ.marked e = false := ((hmc e).1 (by simp)).2
  rw [hl] at hdl hnd
  have hnd' : (l1 ++ l2).Nodup ∧ e ∉ l1 ++ l2 := by
    have := (List.perm_middle.nodup_iff).1 hnd
    rw [List.nodup_cons] at this
    exact ⟨this.2, this.1⟩
  have hmem : ∀ z, z ∈ l1 ++ l2 ↔ z ≠ e ∧ z ∈ l1 ++ e :: l2 := by
    intro z
    constructor
    · intro hz
      refine ⟨fun e' => hnd'.2 (e' ▸ hz), ?_⟩
      rcases List.mem_append.1 hz with h | h <;> simp [h]
    · rintro ⟨h1, h2⟩
      simpa [h1] using h2
  refine ⟨?_, ?_, ?_, ?_, h.ndYes, ?_, ?_, ?_, h.pendNd, h.pendIff, ?_⟩
  · intro x hx
    rw [hC]
    by_cases hxc : x = c
    · subst hxc
      simp only [upd, if_pos, h.cl x hx, hl, List.length_append, List.length_cons]
      congr 1; omega
    · simp [hxc, upd, h.cl x hx]
  · intro x hx
    by_cases hxc : x = c
    · subst hxc
      simp only [upd, if_true]
      exact hdl.unlink (fun a ha => by omega) hnd
    · simp only [upd, hxc, if_false]
      refine (h.dlNo x hx).congr fun z hz => ?_
      have := (h.memNo x hx z).1 hz
      rw [unlinkF_other hdl fun hz' => hxc (by
        have := this.1.symm.trans ((hmc z).1 hz').1
        injection this)]
      exact ⟨rfl, rfl⟩
  · intro x hx
    refine (h.dlYes x hx).congr fun z hz => ?_
    have := (h.memYes x hx z).1 hz
    rw [unlinkF_other hdl fun hz' => by
      have := this.2.symm.trans ((hmc z).1 hz').2
      cases this]
    exact ⟨rfl, rfl⟩
  · intro x hx
    by_cases hxc : x = c
    · subst hxc
      simp only [upd, if_true]
      exact hnd'.1
    · simp only [upd, hxc, if_false]
      exact h.ndNo x hx
  · intro x hx z
    simp only [upd]
    by_cases hxc : x = c
    · subst hxc
      simp only [if_true, hmem, hmc]
      by_cases hze : z = e <;> simp [hze]
    · simp only [hxc, if_false, h.memNo x hx]
      by_cases hze : z = e
      · subst hze
        have : ¬ c = x := fun e => hxc e.symm
        simp [hc, this]
      · simp [hze]
  · intro x hx z
    simp only [h.memYes x hx]
    by_cases hze : z = e
    · subst hze; simp [hm]
    · simp [hze]
  · intro z x hz
    simp only at hz
    split at hz
    · cases hz
    · obtain ⟨h1, h2, h3⟩ := h.el z x hz
      exact ⟨h1, h2, by rw [(unlinkF_data E _ z).1, h3]⟩
  · intro z hz
    simp only at hz
    split at hz
    · rename_i hze; rw [hze]; exact hm
    · exact h.unm z hz

/-- Putting back an element as a marked one. -/
theorem PInv.mark (h : PInv E C σ no yes pend) {e c} (he : e < σ.n) (hc : c < σ.nc) (hn : σ.cls e = none) {C' : Nat → PCls} {k : Nat}
    (hC : ∀ x, C' x = if x = c then { C c with size := (C c).size + 1, yesHead := e, yesSize := (C c).yesSize + 1 } else C x)
    (hid : (E e).classId = c) :
    PInv (upd (setPrevF E (hd (yes c)) e) e ⟨c, k, hd (yes c), -1⟩) C'
      { σ with cls := fun x => if x = e then some c else σ.cls x, marked := fun x => if x = e then true else σ.marked x }
      no (upd yes c (e :: yes c)) (if c ∈ pend then pend else pend ++ [c]) := by
  have hm := h.unm e hn
  have hno : ∀ x, x < σ.nc → e ∉ no x := fun x hx hm => by
    have := ((h.memNo x hx e).1 hm).1; rw [hn] at this; cases this
  have hyes : ∀ x, x < σ.nc → e ∉ yes x := fun x hx hm => by
    have := ((h.memYes x hx e).1 hm).1; rw [hn] at this; cases this
  have other : ∀ z, z ≠ e → z ∉ yes c → (upd (setPrevF E (hd (yes c)) e) e ⟨c, k, hd (yes c), -1⟩) z = E z := by
    intro z hz hz'
    simp [upd, hz, setPrevF_other hz']
  refine ⟨?_, ?_, ?_, h.ndNo, ?_, ?_, ?_, ?_, ?_, ?_, ?_⟩
  · intro x hx
    rw [hC]
    by_cases hxc : x = c
    · subst hxc
      simp only [upd, if_pos, h.cl x hx, List.length_cons, hd]
      congr 1
    · simp [hxc, upd, h.cl x hx]
  · intro x hx
    refine (h.dlNo x hx).congr fun z hz => ?_
    have := (h.memNo x hx z).1 hz
    rw [other z (fun e' => hno x hx (e' ▸ hz)) fun hz' => by
      have := this.2.symm.trans ((h.memYes c hc z).1 hz').2
      cases this]
    exact ⟨rfl, rfl⟩
  · intro x hx
    by_cases hxc : x = c
    · subst hxc
      simp only [upd, if_true]
      exact (h.dlYes x hx).push (h.ndYes x hx) (hyes x hx) rfl rfl
    · simp only [upd, hxc, if_false]
      refine (h.dlYes x hx).congr fun z hz => ?_
      have := (h.memYes x hx z).1 hz
      have h2 := other z (fun e' => hyes x hx (e' ▸ hz)) fun hz' => hxc (by
        have := this.1.symm.trans ((h.memYes c hc z).1 hz').1
        injection this)
      rw [h2]; exact ⟨rfl, rfl⟩
  · intro x hx
    by_cases hxc : x = c
    · subst hxc
      simp only [upd, if_true]
      exact List.nodup_cons.2 ⟨hyes x hx, h.ndYes x hx⟩
    · simp only [upd, hxc, if_false]
      exact h.ndYes x hx
  · intro x hx z
    by_cases hze : z = e
    · subst hze
      simp [hno x hx]
    · simp [hze, h.memNo x hx]
  · intro x hx z
    simp only [upd]
    by_cases hze : z = e
    · subst hze
      by_cases hxc : x = c
      · subst hxc; simp
      · have : ¬ c = x := fun e => hxc e.symm
        simp [hxc, this, hyes x hx]
    · by_cases hxc : x = c
      · subst hxc; simp [hze, h.memYes x hx]
      · simp [hze, hxc, h.memYes x hx]
  · intro z x hz
    simp only at hz
    by_cases hze : z = e
    · subst hze
      simp only [if_true, Option.some.injEq] at hz
      subst hz
      exact ⟨he, hc, by simp [upd]⟩
    · simp only [hze, if_false] at hz
      obtain ⟨h1, h2, h3⟩ := h.el z x hz
      exact ⟨h1, h2, by simp [upd, hze, (setPrevF_data E _ _ z).1, h3]⟩
  · split
    · exact h.pendNd
    · rename_i hp
      exact List.nodup_append.2 ⟨h.pendNd, by simp, fun a ha b hb => by
        simp only [List.mem_singleton] at hb; subst hb; exact fun e => hp (e ▸ ha)⟩
  · intro x
    have key : ∀ y, y ∈ (if c ∈ pend then pend else pend ++ [c]) ↔ y ∈ pend ∨ y = c := by
      intro y
      split
      · rename_i hp
        exact ⟨Or.inl, fun h => h.elim id fun e => e ▸ hp⟩
      · simp
    rw [key, h.pendIff]
    by_cases hxc : x = c
    · subst hxc; simp [upd, hc]
    · simp [upd, hxc]
  · intro z hz
    simp only at hz ⊢
    split at hz
    · cases hz
    · rename_i hze
      rw [if_neg hze]; exact h.unm z hz

theorem countP_eq {l : List Nat} {n : Nat} {P : Nat → Bool} (hl : l.Nodup) (h : ∀ e, e ∈ l ↔ e < n ∧ P e = true) :
    (List.range n).countP P = l.length := by
  rw [List.countP_eq_length_filter]
  refine ((List.perm_ext_iff_of_nodup (List.nodup_range.filter _) hl).2 fun e => ?_).length_eq
  simp [h]

theorem PInv.sizeNo (h : PInv E C σ no yes pend) {c} (hc : c < σ.nc) : σ.sizeNo c = (no c).length := by
  refine countP_eq (h.ndNo c hc) fun e => ?_
  rw [h.memNo c hc]
  simp only [Bool.and_eq_true, beq_iff_eq, Bool.not_eq_true']
  exact ⟨fun h' => ⟨(h.el e c h'.1).1, h'⟩, fun h' => h'.2⟩

theorem PInv.sizeYes (h : PInv E C σ no yes pend) {c} (hc : c < σ.nc) : σ.sizeYes c = (yes c).length := by
  refine countP_eq (h.ndYes c hc) fun e => ?_
  rw [h.memYes c hc]
  simp only [Bool.and_eq_true, beq_iff_eq]
  exact ⟨fun h' => ⟨(h.el e c h'.1).1, h'⟩, fun h' => h'.2⟩

theorem PInv.size (h : PInv E C σ no yes pend) {c} (hc : c < σ.nc) : σ.size c = (no c).length + (yes c).length := by
  rw [← List.length_append]
  refine countP_eq (List.nodup_append.2 ⟨h.ndNo c hc, h.ndYes c hc, fun a ha b hb e => ?_⟩) fun e => ?_
  · subst e
    have := ((h.memNo c hc a).1 ha).2.symm.trans ((h.memYes c hc a).1 hb).2
    cases this
  · rw [List.mem_append, h.memNo c hc, h.memYes c hc]
    simp only [beq_iff_eq]
    constructor
    · rintro (h' | h') <;> exact ⟨(h.el e c h'.1).1, h'.1⟩
    · rintro ⟨_, h'⟩
      cases σ.marked e
      · exact Or.inl ⟨h', rfl⟩
      · exact Or.inr ⟨h', rfl⟩

/-- Splitting a class all of whose elements are marked. -/
theorem PInv.splitAll {rest} {c} (h : PInv E C σ no yes (c :: rest)) (hz : σ.sizeNo c = 0) {C' : Nat → PCls}
    (hC : ∀ x, C' x = if x = c then { C c with noHead := (C c).yesHead, yesHead := -1, yesSize := 0 } else C x) :
    PInv E C' (σ.split c) (upd no c (yes c)) (upd yes c []) rest := by
  have hc : c < σ.nc := ((h.pendIff c).1 (by simp)).1
  have hno : no c = [] := List.eq_nil_of_length_eq_zero (by rw [← h.sizeNo hc]; exact hz)
  have hmk : ∀ z, σ.cls z = some c → σ.marked z = true := by
    intro z hz'
    by_contra hc'
    have := (h.memNo c hc z).2 ⟨hz', by simpa using hc'⟩
    rw [hno] at this; cases this
  have hsp : σ.split c = { σ with marked := fun e => σ.marked e && σ.cls e != some c } := by
    simp [PState.split, hz]
  rw [hsp]
  have hnd := List.nodup_cons.1 h.pendNd
  refine ⟨?_, ?_, ?_, ?_, ?_, ?_, ?_, h.el, hnd.2, ?_, ?_⟩
  · intro x hx
    rw [hC]
    by_cases hxc : x = c
    · subst hxc
      simp [upd, h.cl x hx, hno, hd]
    · simp [hxc, upd, h.cl x hx]
  · intro x hx
    by_cases hxc : x = c
    · subst hxc; simpa [upd] using h.dlYes x hx
    · simpa [upd, hxc] using h.dlNo x hx
  · intro x hx
    by_cases hxc : x = c
    · subst hxc; simp [upd, DL]
    · simpa [upd, hxc] using h.dlYes x hx
  · intro x hx
    by_cases hxc : x = c
    · subst hxc; simpa [upd] using h.ndYes x hx
    · simpa [upd, hxc] using h.ndNo x hx
  · intro x hx
    by_cases hxc : x = c
    · subst hxc; simp [upd]
    · simpa [upd, hxc] using h.ndYes x hx
  · intro x hx z
    by_cases hxc : x = c
    · subst hxc
      simp only [upd, if_true, h.memYes x hx]
      constructor
      · rintro ⟨h1, h2⟩; simp [h1]
      · rintro ⟨h1, _⟩; exact ⟨h1, hmk z h1⟩
    · simp only [upd, hxc, if_false, h.memNo x hx]
      constructor
      · rintro ⟨h1, h2⟩; simp [h1, h2]
      · rintro ⟨h1, h2⟩; simpa [h1, hxc] using h2
  · intro x hx z
    by_cases hxc : x = c
    · subst hxc
      simp only [upd, if_true]
      constructor
      · intro h'; cases h'
      · rintro ⟨h1, h2⟩; simp [h1] at h2
    · simp only [upd, hxc, if_false, h.memYes x hx]
      constructor
      · rintro ⟨h1, h2⟩; simp [h1, h2, hxc]
      · rintro ⟨h1, h2⟩; simpa [h1, hxc] using h2
  · intro x
    have := h.pendIff x
    by_cases hxc : x = c
    · subst hxc; simp [upd, hnd.1]
    · simpa [upd, hxc] using this
  · intro z hz'
    simp [h.unm z hz']

/-- Splitting a class in two: the elements of `new` go to a new class. -/
theorem PInv.splitTwo {rest} {c} (h : PInv E C σ no yes (c :: rest)) (hz : σ.sizeNo c ≠ 0) {C' : Nat → PCls} {new old : List Nat}
    {b : Bool} (hb : b = decide (σ.sizeNo c < σ.sizeYes c)) (hnew : new = if b then no c else yes c)
    (hold : old = if b then yes c else no c)
    (hC : ∀ x, C' x = if x = c then ⟨old.length, 0, hd old, -1⟩ else if x = σ.nc then ⟨new.length, 0, hd new, -1⟩ else C x) :
    PInv (fun x => if x ∈ new then { E x with classId := σ.nc } else E x) C' (σ.split c) (upd (upd no σ.nc new) c old)
      (upd (upd yes σ.nc []) c []) rest := by
  have hc : c < σ.nc := ((h.pendIff c).1 (by simp)).1
  have dnew : DL E (-1) new := by rw [hnew]; split; exacts [h.dlNo c hc, h.dlYes c hc]
  have dold : DL E (-1) old := by rw [hold]; split; exacts [h.dlYes c hc, h.dlNo c hc]
  have nnew : new.Nodup := by rw [hnew]; split; exacts [h.ndNo c hc, h.ndYes c hc]
  have nold : old.Nodup := by rw [hold]; split; exacts [h.ndYes c hc, h.ndNo c hc]
  have mnew : ∀ z, z ∈ new ↔ σ.cls z = some c ∧ σ.marked z = !b := by
    intro z; rw [hnew]
    cases b
    · simpa using h.memYes c hc z
    · simpa using h.memNo c hc z
  have mold : ∀ z, z ∈ old ↔ σ.cls z = some c ∧ σ.marked z = b := by
    intro z; rw [hold]
    cases b
    · simpa using h.memNo c hc z
    · simpa using h.memYes c hc z
  have hcl : ∀ z, (σ.split c).cls z = if z ∈ new then some σ.nc else σ.cls z := by
    intro z
    simp only [PState.split, ← hb, mnew, hz, ne_eq, not_false_eq_true, true_and]
  have hmk : ∀ z, (σ.split c).marked z = (σ.marked z && σ.cls z != some c) := fun _ => rfl
  have hnc : (σ.split c).nc = σ.nc + 1 := by simp [PState.split, hz]
  have hn' : (σ.split c).n = σ.n := rfl
  have hnd := List.nodup_cons.1 h.pendNd
  have dl' : ∀ {pr l}, DL E pr l → DL (fun x => if x ∈ new then { E x with classId := σ.nc } else E x) pr l := by
    intro pr l hl
    refine hl.congr fun z _ => ?_
    dsimp only
    split <;> exact ⟨rfl, rfl⟩
  have hne : c ≠ σ.nc := by omega
  refine ⟨?_, ?_, ?_, ?_, ?_, ?_, ?_, ?_, hnd.2, ?_, ?_⟩
  · intro x hx
    rw [hC]
    by_cases hxc : x = c
    · subst hxc; simp [upd, hd]
    · by_cases hxn : x = σ.nc
      · subst hxn; simp [upd, hxc, hd]
      · simp [hxc, hxn, upd, h.cl x (by omega)]
  · intro x hx
    by_cases hxc : x = c
    · subst hxc; simpa [upd] using dl' dold
    · by_cases hxn : x = σ.nc
      · subst hxn; simpa [upd, hxc] using dl' dnew
      · simpa [upd, hxc, hxn] using dl' (h.dlNo x (by omega))
  · intro x hx
    by_cases hxc : x = c
    · subst hxc; simp [upd, DL]
    · by_cases hxn : x = σ.nc
      · subst hxn; simp [upd, hxc, DL]
      · simpa [upd, hxc, hxn] using dl' (h.dlYes x (by omega))
  · intro x hx
    by_cases hxc : x = c
    · subst hxc; simpa [upd] using nold
    · by_cases hxn : x = σ.nc
      · subst hxn; simpa [upd, hxc] using nnew
      · simpa [upd, hxc, hxn] using h.ndNo x (by omega)
  · intro x hx
    by_cases hxc : x = c
    · subst hxc; simp [upd]
    · by_cases hxn : x = σ.nc
      · subst hxn; simp [upd, hxc]
      · simpa [upd, hxc, hxn] using h.ndYes x (by omega)
  · intro x hx z
    rw [hcl, hmk]
    by_cases hzn : z ∈ new
    · have hz' := (mnew z).1 hzn
      simp only [hzn, if_true, hz'.1]
      by_cases hxc : x = c
      · subst hxc
        have : z ∉ old := fun h' => by
          have := ((mold z).1 h').2.symm.trans hz'.2
          cases b <;> cases this
        have hne' : ¬ σ.nc = x := fun e => hne e.symm
        simp [upd, this, hne']
      · by_cases hxn : x = σ.nc
        · subst hxn; simp [upd, hxc, hzn]
        · have hne' : ¬ σ.nc = x := fun e => hxn e.symm
          have : z ∉ no x := fun h' => by
            have := ((h.memNo x (by omega) z).1 h').1.symm.trans hz'.1
            injection this with this; exact hxc this
          simp [upd, hxc, hxn, this, hne']
    · simp only [hzn, if_false]
      by_cases hxc : x = c
      · subst hxc
        simp only [upd, if_true, mold]
        constructor
        · rintro ⟨h1, _⟩; simp [h1]
        · rintro ⟨h1, _⟩
          refine ⟨h1, ?_⟩
          by_contra hcon
          exact hzn ((mnew z).2 ⟨h1, by cases b <;> simpa using hcon⟩)
      · by_cases hxn : x = σ.nc
        · subst hxn
          simp only [upd, hxc, if_false, if_true, hzn, false_iff]
          rintro ⟨h1, _⟩
          have := (h.el z _ h1).2.1
          omega
        · simp only [upd, hxc, hxn, if_false, h.memNo x (by omega)]
          constructor
          · rintro ⟨h1, h2⟩; simp [h1, h2]
          · rintro ⟨h1, h2⟩; simpa [h1, hxc] using h2
  · intro x hx z
    rw [hcl, hmk]
    by_cases hxc : x = c
    · subst hxc
      simp only [upd, if_true]
      constructor
      · intro h'; cases h'
      · rintro ⟨h1, h2⟩
        split at h1
        · injection h1 with h1; omega
        · simp [h1] at h2
    · by_cases hxn : x = σ.nc
      · subst hxn
        simp only [upd, hxc, if_false, if_true]
        constructor
        · intro h'; cases h'
        · rintro ⟨h1, h2⟩
          split at h1
          · rename_i hz'; simp [((mnew z).1 hz').1] at h2
          · have := (h.el z _ h1).2.1
            omega
      · simp only [upd, hxc, hxn, if_false, h.memYes x (by omega)]
        constructor
        · rintro ⟨h1, h2⟩
          have : z ∉ new := fun h' => by
            have := ((mnew z).1 h').1.symm.trans h1
            injection this with this; exact hxc this.symm
          simp [h1, h2, hxc, this]
        · rintro ⟨h1, h2⟩
          split at h1
          · injection h1 with h1; exact absurd h1.symm hxn
          · simp [h1, hxc] at h2; exact ⟨h1, h2⟩
  · intro z x hzx
    rw [hcl] at hzx
    rw [hn', hnc]
    split at hzx
    · rename_i hzn
      injection hzx with hzx; subst hzx
      exact ⟨(h.el z c ((mnew z).1 hzn).1).1, by omega, by simp [hzn]⟩
    · rename_i hzn
      obtain ⟨h1, h2, h3⟩ := h.el z x hzx
      exact ⟨h1, by omega, by simp [hzn, h3]⟩
  · intro x
    have := h.pendIff x
    rw [hnc]
    by_cases hxc : x = c
    · subst hxc; simp [upd, hnd.1]
    · by_cases hxn : x = σ.nc
      · subst hxn
        simp only [List.mem_cons, hxc, false_or, lt_self_iff_false, false_and, iff_false] at this
        simp [upd, hxc, this]
      · have h3 : x < σ.nc + 1 ↔ x < σ.nc := by omega
        simpa [upd, hxc, hxn, h3] using this
  · intro z hz'
    rw [hcl] at hz'
    split at hz'
    · cases hz'
    · rw [hmk, h.unm z hz']; rfl

end Part
end Verif
