import Verif.Lemmas.Tarjan

/-!
# Further invariants of the component visitor: coaccessibility, component numbers, accessibility, cycles
-/

namespace Verif
namespace Tarjan

variable {E : Nat → Nat → Prop} {grey S closed : Nat → Prop} {ex : Nat → Nat → Prop} {d l : Nat → Nat}

/-! ## Coaccessibility -/

/-- A final state can be reached. -/
def CoAcc (E : Nat → Nat → Prop) (fin : Nat → Prop) (v : Nat) : Prop := ∃ q, Rch E v q ∧ fin q

/-- Invariant of the array `coaccess` and the flag NOT_COACCESSIBLE. -/
structure Co (E : Nat → Nat → Prop) (fin : Nat → Prop) (grey S closed : Nat → Prop) (ex : Nat → Nat → Prop) (co : Nat → Bool)
    (nc : Bool) : Prop where
  sound : ∀ v, co v = true → CoAcc E fin v
  compl : ∀ v, closed v → CoAcc E fin v → co v = true
  edge : ∀ v w, S v → ex v w → closed w → co w = true → co v = true
  black : ∀ v, S v → ¬ grey v → fin v → co v = true
  flag : nc = true ↔ ∃ v, closed v ∧ co v = false

variable {fin : Nat → Prop} {co : Nat → Bool} {nc : Bool}

theorem Co.start : Co E fin (fun _ => False) (fun _ => False) (fun _ => False) (fun _ _ => False) (fun _ => false) false := by
  constructor <;> simp

theorem Co.push (h : Core E grey S closed ex d l) (hc : Co E fin grey S closed ex co nc) {s : Nat} (hs : ¬ S s)
    (hsc : ¬ closed s) : Co E fin (fun q => grey q ∨ q = s) (fun q => S q ∨ q = s) closed ex co nc where
  sound := hc.sound
  compl := hc.compl
  edge := by
    rintro v w (hv | rfl) hx hw hco
    · exact hc.edge v w hv hx hw hco
    · rcases h.ex_src _ _ hx with h' | h'
      · exact absurd h' hs
      · exact absurd h' hsc
  black := by
    rintro v (hv | rfl) hg hf
    · exact hc.black v hv (fun h' => hg (.inl h')) hf
    · exact absurd (.inr rfl) hg
  flag := hc.flag

theorem copyCo_mono {co : Nat → Bool} {s t v : Nat} (h : co v = true) : SccV.copyCo co s t v = true := by
  unfold SccV.copyCo upd; split
  · simp [h]
  · exact h

theorem copyCo_ne {co : Nat → Bool} {s t v : Nat} (h : v ≠ s) : SccV.copyCo co s t v = co v := by
  unfold SccV.copyCo upd; split
  · simp [h]
  · rfl

theorem copyCo_self {co : Nat → Bool} {s t : Nat} (h : co t = true) : SccV.copyCo co s t s = true := by
  simp [SccV.copyCo, h, upd]

theorem copyCo_cases {co : Nat → Bool} {s t v : Nat} (h : SccV.copyCo co s t v = true) : co v = true ∨ v = s ∧ co t = true := by
  unfold SccV.copyCo upd at h
  by_cases ht : co t = true
  · by_cases hv : v = s
    · exact .inr ⟨hv, ht⟩
    · rw [if_pos ht] at h; simp only [hv, if_false] at h; exact .inl h
  · rw [if_neg ht] at h; exact .inl h

theorem Co.edgeStep (h : Core E grey S closed ex d l) (hc : Co E fin grey S closed ex co nc) {s w : Nat} (hs : grey s)
    (he : E s w) : Co E fin grey S closed (fun a b => ex a b ∨ a = s ∧ b = w) (SccV.copyCo co s w) nc where
  sound := by
    intro v hv
    rcases copyCo_cases hv with h' | ⟨rfl, h'⟩
    · exact hc.sound v h'
    · obtain ⟨q, hq, hf⟩ := hc.sound w h'
      exact ⟨q, hq.head he, hf⟩
  compl := fun v hv ha => copyCo_mono (hc.compl v hv ha)
  edge := by
    have hne : ∀ q, closed q → q ≠ s := by
      rintro q hq rfl; exact h.disj _ (h.grey_S _ hs) hq
    rintro v b hv (hx | ⟨rfl, rfl⟩) hb hco
    · rw [copyCo_ne (hne _ hb)] at hco
      exact copyCo_mono (hc.edge v b hv hx hb hco)
    · rw [copyCo_ne (hne _ hb)] at hco
      exact copyCo_self hco
  black := fun v hv hg hf => copyCo_mono (hc.black v hv hg hf)
  flag := by
    rw [hc.flag]
    refine exists_congr fun v => and_congr_right fun hv => ?_
    rw [copyCo_ne]
    rintro rfl; exact h.disj _ (h.grey_S _ hs) hv

/-- `if is_final(s) { coaccess[s] = true }`. -/
def markFin (b : Bool) (co : Nat → Bool) (s : Nat) : Nat → Bool := if b then upd co s true else co

theorem markFin_mono {b : Bool} {co : Nat → Bool} {s v : Nat} (h : co v = true) : markFin b co s v = true := by
  unfold markFin upd; split
  · simp [h]
  · exact h

theorem markFin_ne {b : Bool} {co : Nat → Bool} {s v : Nat} (h : v ≠ s) : markFin b co s v = co v := by
  unfold markFin upd; split <;> simp [h]

theorem markFin_cases {b : Bool} {co : Nat → Bool} {s v : Nat} (h : markFin b co s v = true) : co v = true ∨ v = s ∧ b = true := by
  unfold markFin upd at h
  by_cases hb : b = true
  · by_cases hv : v = s
    · exact .inr ⟨hv, hb⟩
    · rw [if_pos hb] at h; simp only [hv, if_false] at h; exact .inl h
  · rw [if_neg hb] at h; exact .inl h

/-- After marking a grey final state the invariant still holds, and that state is settled. -/
theorem Co.mark (h : Core E grey S closed ex d l) (hc : Co E fin grey S closed ex co nc) {s : Nat} {b : Bool} (hs : grey s)
    (hb : b = true ↔ fin s) : Co E fin grey S closed ex (markFin b co s) nc where
  sound := by
    intro v hv
    rcases markFin_cases hv with h' | ⟨rfl, h'⟩
    · exact hc.sound v h'
    · exact ⟨v, .refl, hb.1 h'⟩
  compl := fun v hv ha => markFin_mono (hc.compl v hv ha)
  edge := by
    intro v w hv hx hw hco
    rw [markFin_ne (by rintro rfl; exact h.disj _ (h.grey_S _ hs) hw)] at hco
    exact markFin_mono (hc.edge v w hv hx hw hco)
  black := fun v hv hg hf => markFin_mono (hc.black v hv hg hf)
  flag := by
    rw [hc.flag]
    refine exists_congr fun v => and_congr_right fun hv => ?_
    rw [markFin_ne]
    rintro rfl; exact h.disj _ (h.grey_S _ hs) hv

theorem Co.finish (h : Core E grey S closed ex d l) (hc : Co E fin grey S closed ex co nc) {s p : Nat} (hs : grey s)
    (hp : grey p) (he : E p s) (hf : fin s → co s = true) :
    Co E fin (fun q => grey q ∧ q ≠ s) S closed (fun a b => ex a b ∨ a = p ∧ b = s) (SccV.copyCo co p s) nc := by
  have := Co.edgeStep h hc hp he
  exact ⟨this.sound, this.compl, this.edge, by
    intro v hv hg hfv
    by_cases hvs : v = s
    · subst hvs; exact copyCo_mono (hf hfv)
    · exact this.black v hv (fun h' => hg ⟨h', hvs⟩) hfv, this.flag⟩

theorem Co.grp (h : Core E grey S closed ex d l) (hc : Co E fin grey S closed ex co nc) {s : Nat} (ht : Top grey d s)
    (hall : ∀ w, E s w → ex s w) (hl : l s = d s) (hf : fin s → co s = true) {v q : Nat} (hv : Grp S d s v) (hr : Rch E v q)
    (hq : fin q) : ∃ u, Grp S d s u ∧ co u = true := by
  induction hr using Relation.ReflTransGen.head_induction_on with
  | refl =>
    refine ⟨q, hv, ?_⟩
    by_cases hg : grey q
    · have : q = s := h.dinj q s hv.1 (h.grey_S _ ht.1) (le_antisymm (ht.2 q hg) hv.2)
      subst this; exact hf hq
    · exact hc.black q hv.1 hg hq
  | head e hr ih =>
    obtain ⟨hx, h' | h'⟩ := h.grp_edge ht hall hl hv e
    · exact ih h'
    · exact ⟨_, hv, hc.edge _ _ hv.1 hx h' (hc.compl _ h' ⟨q, hr, hq⟩)⟩

/-- Pop a component; `co'` marks its members if one of them was marked. -/
theorem Co.pop (h : Core E grey S closed ex d l) (hc : Co E fin grey S closed ex co nc) {s : Nat} (ht : Top grey d s)
    (hall : ∀ w, E s w → ex s w) (hl : l s = d s) (hf : fin s → co s = true) {co' : Nat → Bool} {cog nc' : Bool}
    (hcog : cog = true ↔ ∃ u, Grp S d s u ∧ co u = true)
    (hco' : ∀ v, co' v = true ↔ co v = true ∨ (cog = true ∧ Grp S d s v))
    (hnc : nc' = if cog then nc else true) :
    Co E fin (fun q => grey q ∧ q ≠ s) (fun q => S q ∧ ¬ Grp S d s q) (fun q => closed q ∨ Grp S d s q) ex co' nc' := by
  have sG : Grp S d s s := ⟨h.grey_S _ ht.1, le_refl _⟩
  have hkeep : ∀ v, ¬ Grp S d s v → co' v = co v := by
    intro v hv
    have := hco' v
    cases h1 : co' v <;> cases h2 : co v <;> simp_all
  constructor
  · intro v hv
    rcases (hco' v).1 hv with h' | ⟨h1, h2⟩
    · exact hc.sound v h'
    · obtain ⟨u, hu, hcu⟩ := hcog.1 h1
      obtain ⟨q, hq, hfq⟩ := hc.sound u hcu
      exact ⟨q, (h.grp_mutual ht hall hl h2 hu).trans hq, hfq⟩
  · rintro v (hv | hv) ⟨q, hr, hq⟩
    · exact (hco' v).2 (.inl (hc.compl v hv ⟨q, hr, hq⟩))
    · exact (hco' v).2 (.inr ⟨hcog.2 (Co.grp h hc ht hall hl hf hv hr hq), hv⟩)
  · rintro v w ⟨hv, hn⟩ hx (hw | hw) hcw
    · rw [hkeep w (fun hG => h.disj w hG.1 hw)] at hcw
      exact (hco' v).2 (.inl (hc.edge v w hv hx hw hcw))
    · have hd : d v < d s := by
        rcases Nat.lt_or_ge (d v) (d s) with h' | h'
        · exact h'
        · exact absurd ⟨hv, h'⟩ hn
      have := h.nocross v w s hx hv hw.1 ht.1 hd
      have := hw.2
      omega
  · rintro v ⟨hv, hn⟩ hg hfv
    refine (hco' v).2 (.inl (hc.black v hv (fun h' => hg ⟨h', ?_⟩) hfv))
    rintro rfl; exact hn sG
  · rw [hnc]
    constructor
    · intro h'
      cases hcg : cog with
      | true =>
        rw [hcg] at h'
        obtain ⟨v, hv, hcv⟩ := hc.flag.1 (by simpa using h')
        refine ⟨v, .inl hv, ?_⟩
        rw [hkeep v (fun hG => h.disj v hG.1 hv)]; exact hcv
      | false =>
        refine ⟨s, .inr sG, ?_⟩
        have h1 := hco' s
        have h2 : ¬ co s = true := fun h3 => by
          have := hcog.2 ⟨s, sG, h3⟩
          rw [hcg] at this; cases this
        cases h4 : co' s with
        | false => rfl
        | true => rw [h4, hcg] at h1; simp at h1; exact absurd h1 h2
    · rintro ⟨v, hv | hv, hcv⟩
      · cases hcg : cog with
        | false => simp
        | true =>
          rw [hkeep v (fun hG => h.disj v hG.1 hv)] at hcv
          simpa using hc.flag.2 ⟨v, hv, hcv⟩
      · cases hcg : cog with
        | false => simp
        | true =>
          have := (hco' v).2 (.inr ⟨hcg, hv⟩)
          rw [hcv] at this; cases this

/-- Pass the result to the parent after a pop. -/
theorem Co.popParent {grey S closed : Nat → Prop} {ex : Nat → Nat → Prop} (hd : ∀ q, S q → ¬ closed q)
    (hg : ∀ q, grey q → S q) (hc : Co E fin grey S closed ex co nc) {s p : Nat} (hp : grey p) (he : E p s) (hs : closed s) :
    Co E fin grey S closed (fun a b => ex a b ∨ some p = some a ∧ b = s) (SccV.copyCo co p s) nc := by
  have hne : ∀ q, closed q → q ≠ p := by
    rintro q hq rfl; exact hd _ (hg _ hp) hq
  constructor
  · intro v hv
    rcases copyCo_cases hv with h' | ⟨rfl, h'⟩
    · exact hc.sound v h'
    · obtain ⟨q, hq, hf⟩ := hc.sound s h'
      exact ⟨q, hq.head he, hf⟩
  · exact fun v hv ha => copyCo_mono (hc.compl v hv ha)
  · rintro v b hv (hx | ⟨e, rfl⟩) hb hco
    · rw [copyCo_ne (hne _ hb)] at hco
      exact copyCo_mono (hc.edge v b hv hx hb hco)
    · cases e
      rw [copyCo_ne (hne _ hb)] at hco
      exact copyCo_self hco
  · exact fun v hv hg hf => copyCo_mono (hc.black v hv hg hf)
  · rw [hc.flag]
    refine exists_congr fun v => and_congr_right fun hv => ?_
    rw [copyCo_ne (hne _ hv)]

/-! ## Component numbers -/

/-- Invariant of `scc` and `nscc`. -/
structure Num (E : Nat → Nat → Prop) (closed : Nat → Prop) (scc : Nat → Int) (nscc : Int) : Prop where
  nn : 0 ≤ nscc
  bound : ∀ v, closed v → 0 ≤ scc v ∧ scc v < nscc
  same : ∀ u v, closed u → closed v → scc u = scc v → Rch E u v
  mono : ∀ u v, closed u → E u v → scc v ≤ scc u
  surj : ∀ k, 0 ≤ k → k < nscc → ∃ v, closed v ∧ scc v = k

variable {scc : Nat → Int} {nscc : Int}

theorem Num.start : Num E (fun _ => False) (fun _ => -1) 0 := by
  constructor <;> simp

theorem Num.pop (h : Core E grey S closed ex d l) (hn : Num E closed scc nscc) {s : Nat} (ht : Top grey d s)
    (hall : ∀ w, E s w → ex s w) (hl : l s = d s) {scc' : Nat → Int} (h1 : ∀ v, Grp S d s v → scc' v = nscc)
    (h2 : ∀ v, ¬ Grp S d s v → scc' v = scc v) :
    Num E (fun q => closed q ∨ Grp S d s q) scc' (nscc + 1) := by
  have hk : ∀ v, closed v → scc' v = scc v := fun v hv => h2 v (fun hG => h.disj v hG.1 hv)
  have nn := hn.nn
  constructor
  · omega
  · rintro v (hv | hv)
    · rw [hk v hv]; have := hn.bound v hv; omega
    · rw [h1 v hv]; omega
  · rintro u v (hu | hu) (hv | hv) e
    · rw [hk u hu, hk v hv] at e; exact hn.same u v hu hv e
    · rw [hk u hu, h1 v hv] at e; have := hn.bound u hu; omega
    · rw [h1 u hu, hk v hv] at e; have := hn.bound v hv; omega
    · exact h.grp_mutual ht hall hl hu hv
  · rintro u v (hu | hu) he
    · rw [hk u hu, hk v (h.closedE u v hu he)]; exact hn.mono u v hu he
    · rw [h1 u hu]
      rcases (h.grp_edge ht hall hl hu he).2 with h' | h'
      · rw [h1 v h']; exact Int.le_refl _
      · rw [hk v h']; have := hn.bound v h'; omega
  · intro k hk0 hk1
    by_cases hkn : k = nscc
    · exact ⟨s, .inr ⟨h.grey_S _ ht.1, le_refl _⟩, by rw [h1 s ⟨h.grey_S _ ht.1, le_refl _⟩, hkn]⟩
    · obtain ⟨v, hv, e⟩ := hn.surj k hk0 (by omega)
      exact ⟨v, .inl hv, by rw [hk v hv, e]⟩

/-! ## Accessibility and the root of the current tree -/

/-- Invariant of the array `access` of `ConnectVisitor` and the flag NOT_ACCESSIBLE. -/
structure Acc (E : Nat → Nat → Prop) (start root : Nat) (S closed : Nat → Prop) (d : Nat → Nat) (acc : Nat → Bool) (na : Bool) :
    Prop where
  rootOr : root = start ∨ closed start
  rootS : ∀ v, S v → Rch E root v
  rootMin : ∀ v, S v → d root ≤ d v
  access : ∀ v, S v ∨ closed v → (acc v = true ↔ Rch E start v)
  flag : na = true ↔ ∃ v, (S v ∨ closed v) ∧ ¬ Rch E start v

variable {start root : Nat} {acc : Nat → Bool} {na : Bool}

/-- Discovery of a state in the tree of `root` (`s = root` for the root itself, with an empty component stack). -/
theorem Acc.push (hcl : ∀ v w, closed v → E v w → closed w) (ha : Acc E start root S closed d acc na) {s N : Nat} (hs : ¬ S s) (hsc : ¬ closed s)
    (hN : ∀ q, S q → d q < N) (ht : (∀ q, ¬ S q) ∧ s = root ∨ S root ∧ ∃ g, S g ∧ E g s) :
    Acc E start root (fun q => S q ∨ q = s) closed (upd d s N) (upd acc s (decide (root = start)))
      (if root = start then na else true) := by
  have hrs : Rch E root s := by
    rcases ht with ⟨-, rfl⟩ | ⟨-, g, hg, he⟩
    · exact .refl
    · exact (ha.rootS g hg).tail he
  have hst : root = start ↔ Rch E start s := by
    constructor
    · rintro rfl; exact hrs
    · intro hr
      rcases ha.rootOr with h' | h'
      · exact h'
      · exact absurd (closed_reach hcl hr h') hsc
  constructor
  · exact ha.rootOr
  · rintro v (hv | rfl)
    · exact ha.rootS v hv
    · exact hrs
  · rintro v (hv | rfl)
    · have hvs : v ≠ s := by rintro rfl; exact hs hv
      rcases ht with ⟨h0, -⟩ | ⟨hr, -⟩
      · exact absurd hv (h0 v)
      · have hrs' : root ≠ s := by rintro rfl; exact hs hr
        simp only [upd, hvs, hrs', if_false]; exact ha.rootMin v hv
    · rcases ht with ⟨-, rfl⟩ | ⟨hr, -⟩
      · exact le_refl _
      · have hrs' : root ≠ v := by rintro rfl; exact hs hr
        simp only [upd, hrs', if_false, if_true]
        exact le_of_lt (hN _ hr)
  · intro v hv
    by_cases hvs : v = s
    · subst hvs; simp only [upd, if_true, decide_eq_true_eq]; exact hst
    · simp only [upd, hvs, if_false]
      refine ha.access v ?_
      rcases hv with (h' | h') | h'
      · exact .inl h'
      · exact absurd h' hvs
      · exact .inr h'
  · by_cases hr : root = start
    · rw [if_pos hr, ha.flag]
      constructor
      · rintro ⟨v, h' | h', hn⟩
        · exact ⟨v, .inl (.inl h'), hn⟩
        · exact ⟨v, .inr h', hn⟩
      · rintro ⟨v, (h' | rfl) | h', hn⟩
        · exact ⟨v, .inl h', hn⟩
        · exact absurd (hst.1 hr) hn
        · exact ⟨v, .inr h', hn⟩
    · rw [if_neg hr]
      simp only [true_iff]
      exact ⟨s, .inl (.inr rfl), fun h' => hr (hst.2 h')⟩

theorem Acc.pop (ha : Acc E start root S closed d acc na) {s : Nat} :
    Acc E start root (fun q => S q ∧ ¬ Grp S d s q) (fun q => closed q ∨ Grp S d s q) d acc na where
  rootOr := ha.rootOr.imp id .inl
  rootS := fun v hv => ha.rootS v hv.1
  rootMin := fun v hv => ha.rootMin v hv.1
  access := by
    rintro v (hv | hv | hv)
    · exact ha.access v (.inl hv.1)
    · exact ha.access v (.inr hv)
    · exact ha.access v (.inl hv.1)
  flag := by
    rw [ha.flag]
    constructor
    · rintro ⟨v, h' | h', hn⟩
      · by_cases hG : Grp S d s v
        · exact ⟨v, .inr (.inr hG), hn⟩
        · exact ⟨v, .inl ⟨h', hG⟩, hn⟩
      · exact ⟨v, .inr (.inl h'), hn⟩
    · rintro ⟨v, h' | h' | h', hn⟩
      · exact ⟨v, .inl h'.1, hn⟩
      · exact ⟨v, .inr h', hn⟩
      · exact ⟨v, .inl h'.1, hn⟩

/-! ## Cycles -/

/-- Invariant of the flags CYCLIC and INITIAL_CYCLIC. -/
structure Cyc (E : Nat → Nat → Prop) (start : Nat) (grey S closed : Nat → Prop) (ex : Nat → Nat → Prop) (d l : Nat → Nat)
    (scc : Nat → Int) (cyc ini : Bool) : Prop where
  cycle : cyc = true → ∃ q, Relation.TransGen E q q
  noBlack : cyc = false → ∀ v, S v → grey v
  exClosed : cyc = false → ∀ v w, S v → ex v w → closed w
  strict : cyc = false → ∀ u v, closed u → E u v → scc v < scc u
  low : cyc = false → ∀ g, grey g → l g = d g
  iniCycle : ini = true → Relation.TransGen E start start
  noIni : ini = false → ∀ v, ex v start → ¬ Rch E start v

variable {cyc ini : Bool}

theorem Cyc.start' : Cyc E start (fun _ => False) (fun _ => False) (fun _ => False) (fun _ _ => False) d l scc false false := by
  constructor <;> simp

theorem Cyc.push (h : Core E grey S closed ex d l) (hy : Cyc E start grey S closed ex d l scc cyc ini) {s N : Nat} (hs : ¬ S s)
    (hsc : ¬ closed s) :
    Cyc E start (fun q => grey q ∨ q = s) (fun q => S q ∨ q = s) closed ex (upd d s N) (upd l s N) scc cyc ini where
  cycle := hy.cycle
  noBlack := by
    rintro hc v (hv | rfl)
    · exact .inl (hy.noBlack hc v hv)
    · exact .inr rfl
  exClosed := by
    rintro hc v w (hv | rfl) hx
    · exact hy.exClosed hc v w hv hx
    · rcases h.ex_src _ _ hx with h' | h'
      · exact absurd h' hs
      · exact absurd h' hsc
  strict := hy.strict
  low := by
    rintro hc g (hg | rfl)
    · have : g ≠ s := by rintro rfl; exact hs (h.grey_S _ hg)
      simp only [upd, this, if_false]; exact hy.low hc g hg
    · simp [upd]
  iniCycle := hy.iniCycle
  noIni := hy.noIni

/-- An edge to a grey state. -/
theorem Cyc.back (h : Core E grey S closed ex d l) (hy : Cyc E start grey S closed ex d l scc cyc ini) {s w m : Nat}
    (ht : Top grey d s) (he : E s w) (hw : grey w) :
    Cyc E start grey S closed (fun a b => ex a b ∨ a = s ∧ b = w) d (upd l s m) scc true (if w = start then true else ini) := by
  have hr : Rch E w s := h.reach w s hw (h.grey_S _ ht.1) (ht.2 w hw)
  have hcy : Relation.TransGen E w w := Relation.TransGen.tail' hr he
  constructor
  · intro _; exact ⟨w, hcy⟩
  · intro hc; cases hc
  · intro hc; cases hc
  · intro hc; cases hc
  · intro hc; cases hc
  · intro hi
    by_cases hws : w = start
    · subst hws; exact hcy
    · rw [if_neg hws] at hi; exact hy.iniCycle hi
  · intro hi
    by_cases hws : w = start
    · rw [if_pos hws] at hi; cases hi
    · rw [if_neg hws] at hi
      rintro v (hx | ⟨rfl, e⟩)
      · exact hy.noIni hi v hx
      · exact absurd e.symm hws

/-- An edge to a finished state. `hst`: a finished start state is in a complete component once another tree has begun. -/
theorem Cyc.cross (h : Core E grey S closed ex d l) (hy : Cyc E start grey S closed ex d l scc cyc ini) {s w m : Nat}
    (ht : Top grey d s) (hw : S w ∨ closed w) (hg : ¬ grey w) (hm : ¬ S w → m = l s) (hst : w = start → closed start) :
    Cyc E start grey S closed (fun a b => ex a b ∨ a = s ∧ b = w) d (upd l s m) scc cyc ini where
  cycle := hy.cycle
  noBlack := hy.noBlack
  exClosed := by
    rintro hc v b hv (hx | ⟨rfl, rfl⟩)
    · exact hy.exClosed hc v b hv hx
    · rcases hw with h' | h'
      · exact absurd (hy.noBlack hc _ h') hg
      · exact h'
  strict := hy.strict
  low := by
    intro hc g hgg
    by_cases hgs : g = s
    · subst hgs
      simp only [upd, if_true]
      rw [hm (fun h' => hg (hy.noBlack hc _ h'))]
      exact hy.low hc g hgg
    · simp only [upd, hgs, if_false]; exact hy.low hc g hgg
  iniCycle := hy.iniCycle
  noIni := by
    rintro hi v (hx | ⟨rfl, e⟩) hr
    · exact hy.noIni hi v hx hr
    · exact h.disj v (h.grey_S _ ht.1) (closed_reach h.closedE hr (hst e.symm))

theorem Cyc.finish (hy : Cyc E start grey S closed ex d l scc cyc ini) {s p m : Nat}
    (ht : Top grey d s) (hl : l s < d s) (hst : s ≠ start) :
    Cyc E start (fun q => grey q ∧ q ≠ s) S closed (fun a b => ex a b ∨ a = p ∧ b = s) d (upd l p m) scc cyc ini := by
  have hcy : cyc = true := by
    cases hc : cyc with
    | true => rfl
    | false => have := hy.low hc s ht.1; omega
  subst hcy
  constructor
  · exact hy.cycle
  · intro hc; cases hc
  · intro hc; cases hc
  · intro hc; cases hc
  · intro hc; cases hc
  · exact hy.iniCycle
  · rintro hi v (hx | ⟨rfl, e⟩)
    · exact hy.noIni hi v hx
    · exact absurd e.symm hst

theorem Cyc.pop (h : Core E grey S closed ex d l) (hn : Num E closed scc nscc)
    (hy : Cyc E start grey S closed ex d l scc cyc ini) {s : Nat} (ht : Top grey d s) (hall : ∀ w, E s w → ex s w)
    (p : Option Nat) {scc' : Nat → Int} (h1 : ∀ v, Grp S d s v → scc' v = nscc)
    (h2 : ∀ v, ¬ Grp S d s v → scc' v = scc v) (hst : p ≠ none → s ≠ start) :
    Cyc E start (fun q => grey q ∧ q ≠ s) (fun q => S q ∧ ¬ Grp S d s q) (fun q => closed q ∨ Grp S d s q)
      (fun a b => ex a b ∨ p = some a ∧ b = s) d l scc' cyc ini := by
  have sG : Grp S d s s := ⟨h.grey_S _ ht.1, le_refl _⟩
  have hk : ∀ v, closed v → scc' v = scc v := fun v hv => h2 v (fun hG => h.disj v hG.1 hv)
  constructor
  · exact hy.cycle
  · rintro hc v ⟨hv, hng⟩
    refine ⟨hy.noBlack hc v hv, ?_⟩
    rintro rfl; exact hng sG
  · rintro hc v w ⟨hv, hng⟩ (hx | ⟨e, rfl⟩)
    · exact .inl (hy.exClosed hc v w hv hx)
    · exact .inr sG
  · rintro hc u v (hu | hu) he
    · rw [hk u hu, hk v (h.closedE u v hu he)]; exact hy.strict hc u v hu he
    · have hus : u = s := h.dinj u s hu.1 (h.grey_S _ ht.1) (le_antisymm (ht.2 u (hy.noBlack hc u hu.1)) hu.2)
      subst hus
      have hv : closed v := hy.exClosed hc u v hu.1 (hall v he)
      rw [h1 u hu, hk v hv]
      exact (hn.bound v hv).2
  · exact fun hc g hg => hy.low hc g hg.1
  · exact hy.iniCycle
  · rintro hi v (hx | ⟨e, hs⟩)
    · exact hy.noIni hi v hx
    · exact absurd hs.symm (hst (by rw [e]; simp))

end Tarjan
end Verif
