import Verif.Props.C38
import Verif.Spec.Legs
import Verif.Lemmas.PresentsFlags

/-! # `compute` succeeds only if the operation does not fail on any tuple -/

namespace Verif
universe u v w
variable {W : Type u} {T : Type v}

/-- `P` returns what `O` returns wherever `O` returns something. -/
structure LazyOp.Below {σ : Type w} (O P : LazyOp σ W) : Prop where
  start : ∀ m r m', O.computeStart m = (.ok r, m') → P.computeStart m = (.ok r, m')
  trs : ∀ s m r m', O.computeTrs s m = (.ok r, m') → P.computeTrs s m = (.ok r, m')
  fin : ∀ s m r m', O.computeFinal s m = (.ok r, m') → P.computeFinal s m = (.ok r, m')
  props : O.props = P.props

namespace Lz
variable {C : Type v} {σ : Type w} {K : CacheOps W C} {O P : LazyOp σ W}

theorem start_below (h : O.Below P) {z z' : Lz C σ} {r} (e : z.start K O = (.ok r, z')) : z.start K P = (.ok r, z') := by
  unfold start at e ⊢
  cases hk : K.getStart z.cache with
  | some x => rw [hk] at e; exact e
  | none =>
    rw [hk] at e
    simp only at e ⊢
    match hc : O.computeStart z.op with
    | (.ok x, o) => rw [hc] at e; rw [h.start _ _ _ hc]; exact e
    | (.error x, o) => rw [hc] at e; cases e

theorem getTrs_below (h : O.Below P) {z z' : Lz C σ} {s r} (e : z.getTrs K O s = (.ok r, z')) : z.getTrs K P s = (.ok r, z') := by
  unfold getTrs at e ⊢
  cases hk : K.getTrs z.cache s with
  | some x => rw [hk] at e; exact e
  | none =>
    rw [hk] at e
    simp only at e ⊢
    match hc : O.computeTrs s z.op with
    | (.ok x, o) => rw [hc] at e; rw [h.trs _ _ _ _ hc]; exact e
    | (.error x, o) => rw [hc] at e; cases e

theorem finalWeight_below (h : O.Below P) {z z' : Lz C σ} {s r} (e : z.finalWeight K O s = (.ok r, z')) : z.finalWeight K P s = (.ok r, z') := by
  unfold finalWeight at e ⊢
  cases hk : K.getFinal z.cache s with
  | some x => rw [hk] at e; exact e
  | none =>
    rw [hk] at e
    simp only at e ⊢
    match hc : O.computeFinal s z.op with
    | (.ok x, o) => rw [hc] at e; rw [h.fin _ _ _ _ hc]; exact e
    | (.error x, o) => rw [hc] at e; cases e

variable [Zero W] [One W] [DecidableEq W]

theorem computeLoop_below (h : O.Below P) : ∀ (n : Nat) (q : List StateId) (vis : List Bool) (out F : Fst W) (z z' : Lz C σ),
    computeLoop K O n q vis out z = some (.ok F, z') → computeLoop K P n q vis out z = some (.ok F, z') := by
  intro n
  induction n with
  | zero => intro q vis out F z z' e; cases e
  | succ n ih =>
    intro q vis out F z z' e
    cases q with
    | nil => exact e
    | cons s q =>
      rw [computeLoop] at e ⊢
      match hc : z.getTrs K O s with
      | (.error x, z1) => rw [hc] at e; cases e
      | (.ok l, z1) =>
        rw [hc] at e
        rw [getTrs_below h hc]
        simp only at e ⊢
        match hf : z1.finalWeight K O s with
        | (.error x, z2) => rw [hf] at e; cases e
        | (.ok w, z2) =>
          rw [hf] at e
          rw [finalWeight_below h hf]
          exact ih _ _ _ _ _ _ e

theorem compute_below (h : O.Below P) {n : Nat} {F : Fst W} {z z' : Lz C σ} (e : compute K O n z = some (.ok F, z')) : compute K P n z = some (.ok F, z') := by
  unfold compute at e ⊢
  match hc : z.start K O with
  | (.error x, z1) => rw [hc] at e; cases e
  | (.ok none, z1) => rw [hc] at e; rw [start_below h hc]; exact e
  | (.ok (some s), z1) =>
    rw [hc] at e
    rw [start_below h hc]
    simp only at e ⊢
    match hl : computeLoop K O n [s] ((List.replicate (s + 1) false).set s true) ((Fst.new.addStates (s + 1)).setStart s) z1 with
    | none => rw [hl] at e; cases e
    | some (.error x, z2) => rw [hl] at e; cases e
    | some (.ok out, z2) =>
      rw [hl] at e
      rw [computeLoop_below h _ _ _ _ _ _ _ hl]
      simp only at e ⊢
      rw [← h.props]; exact e

end Lz

/-- `O` with its errors replaced. -/
def TupleOp.fill (O : TupleOp T W) (st : Option T) (ts : T → List (MTr T W)) (w : Option W) : TupleOp T W where
  start := .ok (match O.start with | .ok x => x | .error _ => st)
  trs t := .ok (match O.trs t with | .ok x => x | .error _ => ts t)
  fin t := .ok (match O.fin t with | .ok x => x | .error _ => w)
  props := O.props

theorem TupleOp.below_fill {τ : Type w} (O : TupleOp T W) (find : τ → T → StateId × τ) (tuple : τ → StateId → R T) (st ts w) :
    (O.withTable find tuple).Below ((O.fill st ts w).withTable find tuple) where
  start m r m' h := by
    simp only [TupleOp.withTable, TupleOp.fill] at h ⊢
    cases hs : O.start with
    | error e => rw [hs] at h; cases h
    | ok x => rw [hs] at h; exact h
  trs s m r m' h := by
    simp only [TupleOp.withTable, TupleOp.fill] at h ⊢
    cases hs : tuple m s with
    | error e => rw [hs] at h; cases h
    | ok t =>
      rw [hs] at h
      simp only at h ⊢
      cases ht : O.trs t with
      | error e => rw [ht] at h; cases h
      | ok x => rw [ht] at h; exact h
  fin s m r m' h := by
    simp only [TupleOp.withTable, TupleOp.fill] at h ⊢
    cases hs : tuple m s with
    | error e => rw [hs] at h; cases h
    | ok t =>
      rw [hs] at h
      simp only at h ⊢
      cases ht : O.fin t with
      | error e => rw [ht] at h; cases h
      | ok x => rw [ht] at h; exact h
  props := rfl

section
variable {C : Type v} {τ : Type w} [Zero W] [One W] [DecidableEq W]

/-- When `compute` succeeds, the operation does not fail on any tuple that can be reached. -/
theorem compute_no_error {find : τ → T → StateId × τ} {tup : τ → StateId → Option T} {size : τ → Nat} {inv : τ → Prop}
    {K : CacheOps W C} {cinv : C → Prop} (L : CacheLaw K cinv) (TL : TableLaw find tup size inv) {tuple : τ → StateId → R T}
    (ht : ∀ m s t, tuple m s = .ok t ↔ tup m s = some t) (O : TupleOp T W) {i : Option T} (hi : O.start = .ok i) {o : τ} (ho : inv o)
    (hnew : ∀ s, tup o s = none) {n : Nat} {F : Fst W} {z' : Lz C τ}
    (hr : Lz.compute K (O.withTable find tuple) n ⟨K.empty, o⟩ = some (.ok F, z')) (t : T) (hreach : O.machine.Reach t) :
    (∃ as, O.trs t = .ok as) ∧ ∃ w, O.fin t = .ok w := by
  have go : ∀ ts w, ∃ nm, (O.fill none ts w).machine.Presents nm F := by
    intro ts w
    obtain ⟨-, F', h1, -, -, -, nm, h2, -⟩ := C38_returns L TL ht (O.fill none ts w) (O.fill none ts w).machine (by simp [TupleOp.fill, TupleOp.machine])
      (fun t _ => by simp [TupleOp.fill, TupleOp.machine]) (fun t _ => by simp [TupleOp.fill, TupleOp.machine]) ho hnew
      (Lz.compute_below (O.below_fill find tuple none ts w) hr)
    injection h1 with h1
    subst h1
    exact ⟨nm, h2⟩
  obtain ⟨nm1, p1⟩ := go (fun _ => []) none
  obtain ⟨nm2, p2⟩ := go (fun t => [⟨0, 0, 1, t⟩]) (some 1)
  have here : ∀ t s, nm1 s = some t → nm2 s = some t → (∃ as, O.trs t = .ok as) ∧ ∃ w, O.fin t = .ok w := by
    intro t s h1 h2
    constructor
    · cases hc : O.trs t with
      | ok as => exact ⟨as, rfl⟩
      | error e =>
        have l1 := (p1.trs s t h1).length_eq
        have l2 := (p2.trs s t h2).length_eq
        simp [TupleOp.fill, TupleOp.machine, hc] at l1 l2
        simp [l1] at l2
    · cases hc : O.fin t with
      | ok w => exact ⟨w, rfl⟩
      | error e =>
        have l1 := p1.fin s t h1
        have l2 := p2.fin s t h2
        simp [TupleOp.fill, TupleOp.machine, hc] at l1 l2
        simp [l1] at l2
  suffices hs : ∃ s, nm1 s = some t ∧ nm2 s = some t by
    obtain ⟨s, h1, h2⟩ := hs
    exact here t s h1 h2
  induction hreach with
  | @start t h =>
    simp only [TupleOp.machine, hi] at h
    obtain ⟨s, h1, h2⟩ := p1.start_of (t := t) (by simp [TupleOp.fill, TupleOp.machine, hi, h])
    obtain ⟨t', h3, h4⟩ := p2.start_some h1
    simp only [TupleOp.fill, TupleOp.machine, hi, h, Option.some.injEq] at h3
    subst h3
    exact ⟨s, h2, h4⟩
  | @step t a _ ha ih =>
    obtain ⟨s, h1, h2⟩ := ih
    obtain ⟨⟨as, hc⟩, -⟩ := here t s h1 h2
    simp only [TupleOp.machine, hc] at ha
    have f1 := p1.trs s t h1
    have f2 := p2.trs s t h2
    simp only [TupleOp.machine, TupleOp.fill, hc] at f1 f2
    clear h1 h2 hc
    generalize F.trsOf s = l at f1 f2
    induction f1 with
    | nil => cases ha
    | @cons x y l1 l2 hxy _ ih =>
      cases f2 with
      | cons hd tl =>
        rcases List.mem_cons.1 ha with rfl | ha
        · exact ⟨x.nextstate, hxy.2.2.2, hd.2.2.2⟩
        · exact ih ha tl

end
end Verif
