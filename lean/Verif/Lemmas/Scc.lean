import Verif.Lemmas.Tarjan2
import Verif.Lemmas.Dfs
import Verif.Spec.Graph

/-!
# The component visitor satisfies the abstract invariants
-/

namespace Verif
universe u
variable {W : Type u}
namespace Scc
open Tarjan Dfs

theorem core_congr {E : Nat → Nat → Prop} {g g' S S' c c' : Nat → Prop} {x x' : Nat → Nat → Prop} {d l d' l' : Nat → Nat}
    (h : Core E g S c x d l) (h1 : ∀ q, g' q ↔ g q) (h2 : ∀ q, S' q ↔ S q) (h3 : ∀ q, c' q ↔ c q) (h4 : ∀ a b, x' a b ↔ x a b)
    (h5 : d' = d) (h6 : l' = l) : Core E g' S' c' x' d' l' := by
  have e1 : g' = g := funext fun q => propext (h1 q)
  have e2 : S' = S := funext fun q => propext (h2 q)
  have e3 : c' = c := funext fun q => propext (h3 q)
  have e4 : x' = x := funext fun a => funext fun b => propext (h4 a b)
  subst e1 e2 e3 e4 h5 h6; exact h

theorem co_congr {E : Nat → Nat → Prop} {fin : Nat → Prop} {g g' S S' c c' : Nat → Prop} {x x' : Nat → Nat → Prop} {co co' : Nat → Bool}
    {nc nc' : Bool} (h : Co E fin g S c x co nc) (h1 : ∀ q, g' q ↔ g q) (h2 : ∀ q, S' q ↔ S q) (h3 : ∀ q, c' q ↔ c q)
    (h4 : ∀ a b, x' a b ↔ x a b) (h5 : co' = co) (h6 : nc' = nc) : Co E fin g' S' c' x' co' nc' := by
  have e1 : g' = g := funext fun q => propext (h1 q)
  have e2 : S' = S := funext fun q => propext (h2 q)
  have e3 : c' = c := funext fun q => propext (h3 q)
  have e4 : x' = x := funext fun a => funext fun b => propext (h4 a b)
  subst e1 e2 e3 e4 h5 h6; exact h

theorem num_congr {E : Nat → Nat → Prop} {c c' : Nat → Prop} {scc scc' : Nat → Int} {n n' : Int} (h : Num E c scc n)
    (h3 : ∀ q, c' q ↔ c q) (h5 : scc' = scc) (h6 : n' = n) : Num E c' scc' n' := by
  have e3 : c' = c := funext fun q => propext (h3 q)
  subst e3 h5 h6; exact h

theorem acc_congr {E : Nat → Nat → Prop} {start root : Nat} {S S' c c' : Nat → Prop} {d d' : Nat → Nat} {a a' : Nat → Bool}
    {n n' : Bool} (h : Acc E start root S c d a n) (h2 : ∀ q, S' q ↔ S q) (h3 : ∀ q, c' q ↔ c q) (h5 : d' = d) (h6 : a' = a)
    (h7 : n' = n) : Acc E start root S' c' d' a' n' := by
  have e2 : S' = S := funext fun q => propext (h2 q)
  have e3 : c' = c := funext fun q => propext (h3 q)
  subst e2 e3 h5 h6 h7; exact h

theorem cyc_congr {E : Nat → Nat → Prop} {start : Nat} {g g' S S' c c' : Nat → Prop} {x x' : Nat → Nat → Prop} {d l d' l' : Nat → Nat}
    {scc scc' : Nat → Int} {cy cy' ini ini' : Bool}
    (h : Cyc E start g S c x d l scc cy ini) (h1 : ∀ q, g' q ↔ g q) (h2 : ∀ q, S' q ↔ S q) (h3 : ∀ q, c' q ↔ c q)
    (h4 : ∀ a b, x' a b ↔ x a b) (h5 : d' = d) (h6 : l' = l) (h7 : scc' = scc) (h8 : cy' = cy) (h9 : ini' = ini) :
    Cyc E start g' S' c' x' d' l' scc' cy' ini' := by
  have e1 : g' = g := funext fun q => propext (h1 q)
  have e2 : S' = S := funext fun q => propext (h2 q)
  have e3 : c' = c := funext fun q => propext (h3 q)
  have e4 : x' = x := funext fun a => funext fun b => propext (h4 a b)
  subst e1 e2 e3 e4 h5 h6 h7 h8 h9; exact h

theorem upd_self {α : Type*} (a : Nat → α) (i : Nat) : upd a i (a i) = a := by
  funext j; simp only [upd]; split
  · next h => rw [h]
  · rfl

theorem ite_upd {α : Type*} (p : Prop) [Decidable p] (a : Nat → α) (i : Nat) (x : α) :
    (if p then upd a i x else a) = upd a i (if p then x else a i) := by
  split
  · rfl
  · rw [upd_self]

/-- States already assigned to a complete component. -/
def Closed (c : Nat → Color) (v : SccV) (q : Nat) : Prop := c q ≠ .white ∧ q ∉ v.sccStack

/-- The invariant of the visit. -/
structure TInv (f : Fst W) (keep : Tr W → Bool) (start root : Nat) (c : Nat → Color) (k : List (StateId × List (Tr W)))
    (v : SccV) : Prop where
  col : CInv f keep c k
  core : Core (KEdge f keep) (fun q => q ∈ k.map Prod.fst) (· ∈ v.sccStack) (Closed c v) (Ex f keep c k) v.dfnumber v.lowlink
  co : Co (KEdge f keep) f.IsFinal (fun q => q ∈ k.map Prod.fst) (· ∈ v.sccStack) (Closed c v) (Ex f keep c k) v.coaccess
    (v.props .notCoaccessible)
  num : Num (KEdge f keep) (Closed c v) v.scc v.nscc
  acc : Acc (KEdge f keep) start root (· ∈ v.sccStack) (Closed c v) v.dfnumber v.accessC (v.props .notAccessible)
  cyc : Cyc (KEdge f keep) start (fun q => q ∈ k.map Prod.fst) (· ∈ v.sccStack) (Closed c v) (Ex f keep c k) v.dfnumber v.lowlink
    v.scc (v.props .cyclic) (v.props .initialCyclic)
  visS : ∀ q ∈ v.sccStack, c q ≠ .white
  on : ∀ q, v.onstack q = true ↔ q ∈ v.sccStack
  sorted : v.sccStack.Pairwise (fun a b => v.dfnumber b < v.dfnumber a)
  dN : ∀ q ∈ v.sccStack, v.dfnumber q < v.nstates
  kdec : (k.map Prod.fst).Pairwise (fun a b => v.dfnumber b < v.dfnumber a)
  rootGrey : k ≠ [] → root ∈ k.map Prod.fst
  access : ∀ q, v.access q = true ↔ c q ≠ .white
  bits : ∀ b, v.props b = match b with
    | .acyclic => !v.props .cyclic
    | .initialAcyclic => !v.props .initialCyclic
    | .accessible => !v.props .notAccessible
    | .coaccessible => !v.props .notCoaccessible
    | .cyclic => v.props .cyclic
    | .initialCyclic => v.props .initialCyclic
    | .notAccessible => v.props .notAccessible
    | .notCoaccessible => v.props .notCoaccessible
    | _ => false

variable {f : Fst W} {keep : Tr W → Bool} {start root : Nat} {c : Nat → Color} {k : List (StateId × List (Tr W))} {v : SccV}

theorem TInv.init : TInv f keep start start (fun _ => .white) [] SccV.new where
  col := .start
  core := core_congr (d := SccV.new.dfnumber) (l := SccV.new.lowlink) Core.start (by simp) (by simp [SccV.new]) (by simp [Closed]) (fun a b => iff_of_false (Ex.start a b) id) rfl rfl
  co := co_congr Co.start (by simp) (by simp [SccV.new]) (by simp [Closed]) (fun a b => iff_of_false (Ex.start a b) id) rfl rfl
  num := num_congr Num.start (by simp [Closed]) rfl rfl
  acc := by
    constructor <;> simp [SccV.new, Closed, Props.of]
  cyc := cyc_congr (d := SccV.new.dfnumber) (l := SccV.new.lowlink) (scc := SccV.new.scc) Cyc.start' (by simp) (by simp [SccV.new]) (by simp [Closed]) (fun a b => iff_of_false (Ex.start a b) id) rfl rfl rfl rfl rfl
  visS := by simp [SccV.new]
  on := by simp [SccV.new]
  sorted := by simp [SccV.new]
  dN := by simp [SccV.new]
  kdec := by simp
  rootGrey := by simp
  access := by simp [SccV.new]
  bits := by intro b; cases b <;> simp [SccV.new, Props.of]

/-- Between two trees the component stack is empty. -/
theorem TInv.idle (h : TInv f keep start root c [] v) : v.sccStack = [] := by
  rw [List.eq_nil_iff_forall_not_mem]
  intro q hq
  obtain ⟨g, hg, -⟩ := h.core.owner q hq
  simp at hg

theorem TInv.reroot (h : TInv f keep start root c [] v) (hs : c start ≠ .white) (r : Nat) : TInv f keep start r c [] v :=
  { h with
    acc := by
      have he := h.idle
      have ha := h.acc
      rw [he] at ha ⊢
      exact ⟨.inr ⟨hs, by rw [he]; simp⟩, by simp, by simp, ha.access, ha.flag⟩
    rootGrey := by simp }

theorem flip_apply (p : Props) (b x : PropBit) : SccV.flip p b x = if x = b then true else if x = b.neg then false else p x := rfl

/-- A new state is discovered. -/
theorem TInv.push (h : TInv f keep start root c k v) {s : Nat} (hs : c s = .white) (hn : s < f.numStates)
    (hc : ∀ e ∈ k.head?, ∃ t rest, e.2 = t :: rest ∧ keep t = true ∧ t.nextstate = s) (hr : k = [] → s = root) :
    TInv f keep start root (upd c s .grey) ((s, f.trsOf s) :: k) (v.initState start s root) := by
  have hS : s ∉ v.sccStack := fun h' => h.visS s h' hs
  have hcl : ¬ Closed c v s := fun h' => h'.1 hs
  have hg : ∀ q, q ∈ ((s, f.trsOf s) :: k).map Prod.fst ↔ q ∈ k.map Prod.fst ∨ q = s := by
    intro q; simp only [List.map_cons, List.mem_cons]; exact or_comm
  have hSS : ∀ q, q ∈ (v.initState start s root).sccStack ↔ q ∈ v.sccStack ∨ q = s := by
    intro q; simp only [SccV.initState, List.mem_cons]; exact or_comm
  have hC : ∀ q, Closed (upd c s .grey) (v.initState start s root) q ↔ Closed c v q := by
    intro q
    unfold Closed
    rw [hSS]
    by_cases hq : q = s
    · subst hq; simp [hs]
    · simp [upd, hq]
  have hx := Ex.push h.col hs
  have htop : (∀ q, ¬ q ∈ k.map Prod.fst) ∨ ∃ g, Top (fun q => q ∈ k.map Prod.fst) v.dfnumber g ∧ KEdge f keep g s := by
    cases k with
    | nil => left; simp
    | cons e k =>
      right
      obtain ⟨t, rest, e1, e2, e3⟩ := hc e (by simp)
      refine ⟨e.1, ⟨by simp, ?_⟩, ?_⟩
      · intro g hg'
        have := h.kdec
        simp only [List.map_cons, List.pairwise_cons, List.mem_cons] at this hg'
        rcases hg' with rfl | hg'
        · exact le_refl _
        · exact le_of_lt (this.1 g hg')
      · obtain ⟨pre, h1, -⟩ := h.col.pre e (by simp)
        exact ⟨t, by rw [h1, e1]; simp, e2, e3⟩
  have hsn : s ∉ k.map Prod.fst := by
    intro h'; rw [← h.col.grey, hs] at h'; cases h'
  constructor
  · exact h.col.push hs hn hc
  · exact core_congr (h.core.push hS hcl h.dN htop) hg hSS hC hx rfl rfl
  · refine co_congr (Co.push h.core h.co hS hcl) hg hSS hC hx rfl ?_
    simp only [SccV.initState]; split
    · rfl
    · rfl
  · exact num_congr h.num hC rfl rfl
  · refine acc_congr (Acc.push h.core.closedE h.acc hS hcl h.dN ?_) hSS hC rfl rfl ?_
    · cases k with
      | nil => exact .inl ⟨by rw [h.idle]; simp, hr rfl⟩
      | cons e k =>
        right
        rcases htop with ht | ⟨g, ht, he⟩
        · exact absurd (by simp) (ht e.1)
        · exact ⟨h.core.grey_S _ (h.rootGrey (by simp)), g, h.core.grey_S _ ht.1, he⟩
    · simp only [SccV.initState]; split
      · rfl
      · simp [flip_apply]
  · refine cyc_congr (Cyc.push h.core h.cyc hS hcl) hg hSS hC hx rfl rfl rfl ?_ ?_
    · simp only [SccV.initState]; split
      · rfl
      · rfl
    · simp only [SccV.initState]; split
      · rfl
      · rfl
  · intro q hq
    rw [hSS] at hq
    simp only [upd]; split
    · simp
    · next h' => exact h.visS q (hq.resolve_right h')
  · intro q
    rw [hSS]
    simp only [SccV.initState, upd]
    by_cases hq : q = s
    · simp [hq]
    · simp [hq, h.on]
  · simp only [SccV.initState, List.pairwise_cons]
    constructor
    · intro q hq
      have : q ≠ s := by rintro rfl; exact hS hq
      simp only [upd, this, if_false, if_true]; exact h.dN q hq
    · refine h.sorted.imp_of_mem ?_
      intro a b ha hb hab
      have h1 : a ≠ s := by rintro rfl; exact hS ha
      have h2 : b ≠ s := by rintro rfl; exact hS hb
      simpa [upd, h1, h2] using hab
  · intro q hq
    simp only [SccV.initState] at hq ⊢
    rw [List.mem_cons] at hq
    by_cases hqs : q = s
    · simp [upd, hqs]
    · simp only [upd, hqs, if_false]
      have := h.dN q (hq.resolve_left hqs)
      omega
  · simp only [List.map_cons, List.pairwise_cons, SccV.initState]
    constructor
    · intro q hq
      have : q ≠ s := by rintro rfl; exact hsn hq
      simp only [upd, this, if_false, if_true]
      exact h.dN q (h.core.grey_S _ hq)
    · refine h.kdec.imp_of_mem ?_
      intro a b ha hb hab
      have h1 : a ≠ s := by rintro rfl; exact hsn ha
      have h2 : b ≠ s := by rintro rfl; exact hsn hb
      simpa [upd, h1, h2] using hab
  · intro _
    cases k with
    | nil => simp [hr rfl]
    | cons e k => exact List.mem_cons_of_mem _ (h.rootGrey (by simp))
  · intro q
    simp only [SccV.initState, upd]
    by_cases hq : q = s
    · simp [hq]
    · simp only [hq, if_false]; exact h.access q
  · intro b
    have := h.bits b
    simp only [SccV.initState]
    split
    · exact this
    · cases b <;> simp only [flip_apply, PropBit.neg] <;> simp_all

theorem TInv.top {s : Nat} {ts : List (Tr W)} (h : TInv f keep start root c ((s, ts) :: k) v) :
    Top (fun q => q ∈ ((s, ts) :: k).map Prod.fst) v.dfnumber s := by
  refine ⟨by simp, fun g hg => ?_⟩
  have := h.kdec
  simp only [List.map_cons, List.pairwise_cons, List.mem_cons] at this hg
  rcases hg with rfl | hg
  · exact le_refl _
  · exact le_of_lt (this.1 g hg)

/-- A transition rejected by the filter is skipped. -/
theorem TInv.skip {s : Nat} {t : Tr W} {rest : List (Tr W)} (h : TInv f keep start root c ((s, t :: rest) :: k) v)
    (hk : keep t = false) : TInv f keep start root c ((s, rest) :: k) v := by
  have hg : ∀ q, q ∈ ((s, rest) :: k).map Prod.fst ↔ q ∈ ((s, t :: rest) :: k).map Prod.fst := by simp
  have hx : ∀ a b, Ex f keep c ((s, rest) :: k) a b ↔ Ex f keep c ((s, t :: rest) :: k) a b := by
    intro a b; rw [Ex.advance h.col]; simp [hk]
  exact { h with
    col := h.col.advance (by simp [hk])
    core := core_congr h.core hg (fun _ => Iff.rfl) (fun _ => Iff.rfl) hx rfl rfl
    co := co_congr h.co hg (fun _ => Iff.rfl) (fun _ => Iff.rfl) hx rfl rfl
    cyc := cyc_congr h.cyc hg (fun _ => Iff.rfl) (fun _ => Iff.rfl) hx rfl rfl rfl rfl rfl
    kdec := by simpa using h.kdec
    rootGrey := fun _ => by simpa using h.rootGrey (by simp) }

/-- A transition to a grey state. -/
theorem TInv.back {s : Nat} {t : Tr W} {rest : List (Tr W)} (h : TInv f keep start root c ((s, t :: rest) :: k) v)
    (hk : keep t = true) (hc : c t.nextstate = .grey) :
    TInv f keep start root c ((s, rest) :: k) (v.backTr start s t.nextstate) := by
  have hg : ∀ q, q ∈ ((s, rest) :: k).map Prod.fst ↔ q ∈ ((s, t :: rest) :: k).map Prod.fst := by simp
  have hx : ∀ a b, Ex f keep c ((s, rest) :: k) a b ↔ Ex f keep c ((s, t :: rest) :: k) a b ∨ a = s ∧ b = t.nextstate := by
    intro a b; rw [Ex.advance h.col]; simp [hk]
  have he : KEdge f keep s t.nextstate := by
    obtain ⟨pre, h1, -⟩ := h.col.pre (s, t :: rest) (by simp)
    exact ⟨t, by simp only at h1; rw [h1]; simp, hk, rfl⟩
  have hgt : t.nextstate ∈ ((s, t :: rest) :: k).map Prod.fst := (h.col.grey _).1 hc
  have hst := h.core.grey_S _ hgt
  have hss : s ∈ v.sccStack := h.core.grey_S _ h.top.1
  have hl : (v.backTr start s t.nextstate).lowlink =
      upd v.lowlink s (if v.dfnumber t.nextstate < v.lowlink s then v.dfnumber t.nextstate else v.lowlink s) := by
    simp only [SccV.backTr]; rw [ite_upd]
  have hp : (v.backTr start s t.nextstate).props .cyclic = true ∧
      (v.backTr start s t.nextstate).props .initialCyclic = (if t.nextstate = start then true else v.props .initialCyclic) ∧
      (v.backTr start s t.nextstate).props .notAccessible = v.props .notAccessible ∧
      (v.backTr start s t.nextstate).props .notCoaccessible = v.props .notCoaccessible := by
    simp only [SccV.backTr]; split <;> simp [flip_apply, PropBit.neg]
  obtain ⟨hp1, hp2, hp3, hp4⟩ := hp
  exact { h with
    col := h.col.advance (by simp [hc])
    core := by
      refine core_congr (h.core.edge h.top he (.inl hst) (m := if v.dfnumber t.nextstate < v.lowlink s then v.dfnumber t.nextstate else v.lowlink s) ?_ ?_ ?_) hg
        (fun _ => Iff.rfl) (fun _ => Iff.rfl) hx rfl hl
      · split <;> omega
      · split
        · exact .inr ⟨hst, rfl⟩
        · exact .inl rfl
      · intro _; split <;> omega
    co := co_congr (Co.edgeStep h.core h.co h.top.1 he) hg (fun _ => Iff.rfl) (fun _ => Iff.rfl) hx rfl hp4
    acc := acc_congr h.acc (fun _ => Iff.rfl) (fun _ => Iff.rfl) rfl rfl hp3
    cyc := cyc_congr (Cyc.back h.core h.cyc h.top he hgt) hg (fun _ => Iff.rfl) (fun _ => Iff.rfl) hx rfl hl rfl hp1 hp2
    kdec := by have := h.kdec; simp only [List.map_cons] at this ⊢; exact this
    rootGrey := fun _ => by simpa using h.rootGrey (by simp)
    bits := by
      intro b
      have := h.bits b
      simp only [SccV.backTr]
      split
      · cases b <;> simp only [flip_apply, PropBit.neg] <;> simp_all
      · cases b <;> simp only [flip_apply, PropBit.neg] <;> simp_all }

/-- A transition to a finished state. -/
theorem TInv.cross {s : Nat} {t : Tr W} {rest : List (Tr W)} (h : TInv f keep start root c ((s, t :: rest) :: k) v)
    (hk : keep t = true) (hc : c t.nextstate = .black) :
    TInv f keep start root c ((s, rest) :: k) (v.crossTr s t.nextstate) := by
  have hg : ∀ q, q ∈ ((s, rest) :: k).map Prod.fst ↔ q ∈ ((s, t :: rest) :: k).map Prod.fst := by simp
  have hx : ∀ a b, Ex f keep c ((s, rest) :: k) a b ↔ Ex f keep c ((s, t :: rest) :: k) a b ∨ a = s ∧ b = t.nextstate := by
    intro a b; rw [Ex.advance h.col]; simp [hk]
  have he : KEdge f keep s t.nextstate := by
    obtain ⟨pre, h1, -⟩ := h.col.pre (s, t :: rest) (by simp)
    exact ⟨t, by simp only at h1; rw [h1]; simp, hk, rfl⟩
  have hgt : ¬ t.nextstate ∈ ((s, t :: rest) :: k).map Prod.fst := by rw [← h.col.grey, hc]; simp
  have hvis : t.nextstate ∈ v.sccStack ∨ Closed c v t.nextstate := by
    by_cases h' : t.nextstate ∈ v.sccStack
    · exact .inl h'
    · exact .inr ⟨by rw [hc]; simp, h'⟩
  have hss : s ∈ v.sccStack := h.core.grey_S _ h.top.1
  have hls := h.core.lowle s h.top.1
  obtain ⟨m, hm⟩ : ∃ m, m = (if v.dfnumber t.nextstate < v.dfnumber s ∧ v.onstack t.nextstate = true ∧ v.dfnumber t.nextstate < v.lowlink s
    then v.dfnumber t.nextstate else v.lowlink s) := ⟨_, rfl⟩
  have hl : (v.crossTr s t.nextstate).lowlink = upd v.lowlink s m := by
    simp only [SccV.crossTr]; rw [ite_upd, hm]
  have hon := h.on t.nextstate
  have hrs : t.nextstate = start → Closed c v start := by
    intro e
    rcases h.acc.rootOr with h' | h'
    · have hr := h.rootGrey (by simp)
      rw [h', ← e] at hr; exact absurd hr hgt
    · exact h'
  exact { h with
    col := h.col.advance (by simp [hc])
    core := by
      refine core_congr (h.core.edge (m := m) h.top he hvis ?_ ?_ ?_) hg (fun _ => Iff.rfl) (fun _ => Iff.rfl) hx rfl hl
      · rw [hm]; split <;> omega
      · rw [hm]; split
        · next h' => exact .inr ⟨hon.1 h'.2.1, rfl⟩
        · exact .inl rfl
      · intro hin
        have := hon.2 hin
        rw [hm]; split
        · omega
        · next h' => simp only [this, true_and] at h'; omega
    co := co_congr (Co.edgeStep h.core h.co h.top.1 he) hg (fun _ => Iff.rfl) (fun _ => Iff.rfl) hx rfl rfl
    cyc := by
      refine cyc_congr (Cyc.cross (m := m) h.core h.cyc h.top hvis hgt ?_ hrs) hg (fun _ => Iff.rfl) (fun _ => Iff.rfl) hx rfl hl rfl rfl rfl
      intro hnot
      rw [hm, if_neg]
      rintro ⟨-, h', -⟩; exact hnot (hon.1 h')
    kdec := by have := h.kdec; simp only [List.map_cons] at this ⊢; exact this
    rootGrey := fun _ => by simpa using h.rootGrey (by simp) }

theorem popTo_spec (d : Nat → Nat) (s : Nat) (S : List Nat) (hs : s ∈ S) (hp : S.Pairwise (fun a b => d b < d a)) :
    (∀ q, q ∈ (SccV.popTo s S).1 ↔ q ∈ S ∧ d s ≤ d q) ∧ (∀ q, q ∈ (SccV.popTo s S).2 ↔ q ∈ S ∧ ¬ d s ≤ d q) ∧
    (SccV.popTo s S).2.Sublist S := by
  induction S with
  | nil => simp at hs
  | cons t ts ih =>
    rw [List.pairwise_cons] at hp
    unfold SccV.popTo
    by_cases h : t = s
    · subst h
      rw [if_pos rfl]
      refine ⟨fun q => ?_, fun q => ?_, List.sublist_cons_self _ _⟩
      · rw [List.mem_singleton, List.mem_cons]
        constructor
        · rintro rfl; simp
        · rintro ⟨rfl | hq, hd⟩
          · rfl
          · have := hp.1 q hq; omega
      · simp only [List.mem_cons]
        constructor
        · intro hq; have := hp.1 q hq; exact ⟨.inr hq, by omega⟩
        · rintro ⟨rfl | hq, hd⟩
          · exact absurd (le_refl _) hd
          · exact hq
    · rw [if_neg h]
      have hs' : s ∈ ts := by simpa [Ne.symm h] using hs
      obtain ⟨h1, h2, h3⟩ := ih hs' hp.2
      have := hp.1 s hs'
      refine ⟨fun q => ?_, fun q => ?_, h3.trans (List.sublist_cons_self _ _)⟩
      · simp only [List.mem_cons, h1]
        constructor
        · rintro (rfl | ⟨hq, hd⟩)
          · exact ⟨.inl rfl, by omega⟩
          · exact ⟨.inr hq, hd⟩
        · rintro ⟨rfl | hq, hd⟩
          · exact .inl rfl
          · exact .inr ⟨hq, hd⟩
      · simp only [h2, List.mem_cons]
        constructor
        · rintro ⟨hq, hd⟩; exact ⟨.inr hq, hd⟩
        · rintro ⟨rfl | hq, hd⟩
          · omega
          · exact ⟨hq, hd⟩

theorem TInv.parent_edge {s : Nat} (h : TInv f keep start root c ((s, []) :: k) v) {p : Nat}
    (hp : k.head?.map Prod.fst = some p) : KEdge f keep p s ∧ p ∈ k.map Prod.fst ∧ p ≠ s ∧
      Top (fun q => q ∈ ((s, ([] : List (Tr W))) :: k).map Prod.fst ∧ q ≠ s) v.dfnumber p := by
  have hnd := h.col.nodup
  have hkd := h.kdec
  cases k with
  | nil => simp at hp
  | cons e k =>
    obtain ⟨p', prest⟩ := e
    simp only [List.head?_cons, Option.map_some, Option.some.injEq] at hp
    subst hp
    have hch := h.col.chain
    rw [List.isChain_cons] at hch
    obtain ⟨t, rest, e1, e2, e3⟩ := hch.1 (p', prest) (by simp)
    obtain ⟨pre, h1, -⟩ := h.col.pre (p', prest) (by simp)
    simp only at e1 e3 h1
    have hps : p' ≠ s := by
      rintro rfl
      simp at hnd
    refine ⟨⟨t, by rw [h1, e1]; simp, e2, e3⟩, by simp, hps, ⟨⟨by simp, hps⟩, ?_⟩⟩
    rintro g ⟨hg, hgs⟩
    simp only [List.map_cons, List.pairwise_cons, List.mem_cons] at hkd hg
    rcases hg with hg | rfl | hg
    · exact absurd hg hgs
    · exact le_refl _
    · exact le_of_lt (hkd.2.1 g hg)

/-- The top state is finished. -/
theorem TInv.finish {s : Nat} (h : TInv f keep start root c ((s, []) :: k) v) :
    TInv f keep start root (upd c s .black) (popStack k)
      (v.finishState (fun q => (f.finOf q).isSome) s (k.head?.map Prod.fst)) := by
  have hcol' := h.col.finish
  have htop := h.top
  have hnd := h.col.nodup
  simp only [List.map_cons, List.nodup_cons] at hnd
  have hg : ∀ q, q ∈ (popStack k).map Prod.fst ↔ q ∈ ((s, ([] : List (Tr W))) :: k).map Prod.fst ∧ q ≠ s := by
    intro q
    rw [popStack_fst]
    simp only [List.map_cons, List.mem_cons]
    constructor
    · intro hq; refine ⟨.inr hq, ?_⟩; rintro rfl; exact hnd.1 hq
    · rintro ⟨rfl | hq, hne⟩
      · exact absurd rfl hne
      · exact hq
  have hx := Ex.finish h.col
  have hall : ∀ w, KEdge f keep s w → Ex f keep c ((s, []) :: k) s w := by
    rintro w ⟨t, ht, hk, rfl⟩
    obtain ⟨pre, e, -⟩ := h.col.pre (s, []) (by simp)
    simp only [List.append_nil] at e
    exact ⟨t, ⟨ht, .inr ⟨pre, [], by simp, by simpa using e, by rw [← e]; exact ht⟩⟩, hk, rfl⟩
  have hsS : s ∈ v.sccStack := h.core.grey_S _ htop.1
  have hcs : c s = .grey := by rw [h.col.grey]; simp
  have hcw : ∀ q, upd c s .black q ≠ .white ↔ c q ≠ .white := by
    intro q; simp only [upd]; split
    · next e => subst e; simp [hcs]
    · rfl
  -- the start state is never finished below another state
  have hstart : ∀ p, k.head?.map Prod.fst = some p → s ≠ start := by
    rintro p hp rfl
    obtain ⟨-, hpk, hps, -⟩ := h.parent_edge hp
    have hpS := h.core.grey_S p (List.mem_cons_of_mem _ hpk)
    rcases h.acc.rootOr with h' | h'
    · have h1 := h.acc.rootMin p hpS
      have h2 := htop.2 p (List.mem_cons_of_mem _ hpk)
      rw [h'] at h1
      exact hps (h.core.dinj p s hpS hsS (by omega))
    · exact h.core.disj s hsS h'
  have hco1 := Co.mark (b := (f.finOf s).isSome) h.core h.co htop.1 Iff.rfl
  have hf1 : f.IsFinal s → markFin (f.finOf s).isSome v.coaccess s s = true := by
    intro h'; unfold Fst.IsFinal at h'; simp [markFin, h', upd]
  -- shape of `finish_state`
  obtain ⟨v1, hv1⟩ : ∃ v1 : SccV, v1 = { v with coaccess := markFin (f.finOf s).isSome v.coaccess s } := ⟨_, rfl⟩
  have hfs : v.finishState (fun q => (f.finOf q).isSome) s (k.head?.map Prod.fst) =
      SccV.toParent (if v.dfnumber s = v.lowlink s then v1.popScc s else v1) s (k.head?.map Prod.fst) := by
    unfold SccV.finishState
    have : (if (f.finOf s).isSome = true then { v with coaccess := upd v.coaccess s true } else v) = v1 := by
      rw [hv1]; unfold markFin; split <;> rfl
    simp only [this]
    have e1 : v1.dfnumber = v.dfnumber := by rw [hv1]
    have e2 : v1.lowlink = v.lowlink := by rw [hv1]
    rw [e1, e2]
  rw [hfs]
  have e1 : v1.dfnumber = v.dfnumber := by rw [hv1]
  have e2 : v1.lowlink = v.lowlink := by rw [hv1]
  have e3 : v1.sccStack = v.sccStack := by rw [hv1]
  have e4 : v1.props = v.props := by rw [hv1]
  have e5 : v1.scc = v.scc := by rw [hv1]
  have e6 : v1.nscc = v.nscc := by rw [hv1]
  have e7 : v1.onstack = v.onstack := by rw [hv1]
  have e8 : v1.nstates = v.nstates := by rw [hv1]
  have e9 : v1.accessC = v.accessC := by rw [hv1]
  have e10 : v1.access = v.access := by rw [hv1]
  have e11 : v1.coaccess = markFin (f.finOf s).isSome v.coaccess s := by rw [hv1]
  by_cases hdl : v.dfnumber s = v.lowlink s
  · rw [if_pos hdl]
    obtain ⟨hp1, hp2, hp3⟩ := popTo_spec v.dfnumber s v.sccStack hsS h.sorted
    have hG : ∀ q, q ∈ (SccV.popTo s v1.sccStack).1 ↔ Grp (· ∈ v.sccStack) v.dfnumber s q := by
      intro q; rw [e3, hp1]; rfl
    have hS2 : ∀ q, q ∈ (v1.popScc s).sccStack ↔ q ∈ v.sccStack ∧ ¬ Grp (· ∈ v.sccStack) v.dfnumber s q := by
      intro q
      simp only [SccV.popScc]
      rw [e3, hp2]
      unfold Grp
      constructor
      · rintro ⟨h1, h2⟩; exact ⟨h1, fun h' => h2 h'.2⟩
      · rintro ⟨h1, h2⟩; exact ⟨h1, fun h' => h2 ⟨h1, h'⟩⟩
    have hC2 : ∀ q, Closed (upd c s .black) (v1.popScc s) q ↔ Closed c v q ∨ Grp (· ∈ v.sccStack) v.dfnumber s q := by
      intro q
      unfold Closed
      rw [hS2, hcw]
      constructor
      · rintro ⟨h1, h2⟩
        by_cases hqG : Grp (· ∈ v.sccStack) v.dfnumber s q
        · exact .inr hqG
        · exact .inl ⟨h1, fun h' => h2 ⟨h', hqG⟩⟩
      · rintro (⟨h1, h2⟩ | h1)
        · exact ⟨h1, fun h' => h2 h'.1⟩
        · exact ⟨h.visS q h1.1, fun h' => h'.2 h1⟩
    have hcog : ((SccV.popTo s v1.sccStack).1.any v1.coaccess) = true ↔
        ∃ u, Grp (· ∈ v.sccStack) v.dfnumber s u ∧ markFin (f.finOf s).isSome v.coaccess s u = true := by
      rw [List.any_eq_true, e11]
      refine exists_congr fun u => ?_
      rw [hG]
    have hco2 := Co.pop (cog := (SccV.popTo s v1.sccStack).1.any v1.coaccess) (co' := (v1.popScc s).coaccess)
      (nc' := (v1.popScc s).props .notCoaccessible) h.core hco1 htop hall hdl.symm hf1 hcog
      (by
        intro q
        simp only [SccV.popScc]
        rw [e11]
        by_cases hqg : ((SccV.popTo s v1.sccStack).1.any (markFin (f.finOf s).isSome v.coaccess s)) = true ∧ q ∈ (SccV.popTo s v1.sccStack).1
        · rw [if_pos hqg]
          simp only [true_iff]
          exact .inr ⟨hqg.1, (hG q).1 hqg.2⟩
        · rw [if_neg hqg]
          constructor
          · exact .inl
          · rintro (h' | ⟨h1, h2⟩)
            · exact h'
            · exact absurd ⟨h1, (hG q).2 h2⟩ hqg)
      (by
        simp only [SccV.popScc]
        split
        · rw [e4]
        · simp [flip_apply])
    have hscc1 : ∀ q, Grp (· ∈ v.sccStack) v.dfnumber s q → (v1.popScc s).scc q = v.nscc := by
      intro q hq; simp only [SccV.popScc, (hG q).2 hq, if_true, e6]
    have hscc2 : ∀ q, ¬ Grp (· ∈ v.sccStack) v.dfnumber s q → (v1.popScc s).scc q = v.scc q := by
      intro q hq
      have : q ∉ (SccV.popTo s v1.sccStack).1 := fun h' => hq ((hG q).1 h')
      simp only [SccV.popScc, this, if_false, e5]
    have hpar : ∀ p, k.head?.map Prod.fst = some p → p ∈ ((s, ([] : List (Tr W))) :: k).map Prod.fst ∧ p ≠ s ∧ KEdge f keep p s := by
      intro p hp
      obtain ⟨h1, h2, h3, -⟩ := h.parent_edge hp
      exact ⟨List.mem_cons_of_mem _ h2, h3, h1⟩
    have hcore2 := h.core.pop htop hall hdl.symm (k.head?.map Prod.fst) hpar
    -- low links are unchanged by the step to the parent: the parent was discovered earlier
    have hlow : ∀ p, k.head?.map Prod.fst = some p → ¬ (v.lowlink s < v.lowlink p) := by
      intro p hp
      obtain ⟨h1, h2, h3, -⟩ := h.parent_edge hp
      have := h.core.lowle p (List.mem_cons_of_mem _ h2)
      have := htop.2 p (List.mem_cons_of_mem _ h2)
      omega
    obtain ⟨v2, hv2⟩ : ∃ v2, v2 = v1.popScc s := ⟨_, rfl⟩
    rw [← hv2] at hco2 hscc1 hscc2 hS2 hC2 ⊢
    obtain ⟨v3, hv3⟩ : ∃ v3, v3 = SccV.toParent v2 s (k.head?.map Prod.fst) := ⟨_, rfl⟩
    rw [← hv3]
    have hv2l : v2.lowlink = v.lowlink := by rw [hv2]; exact e2
    have g1 : v3.dfnumber = v.dfnumber := by
      rw [hv3, hv2]; cases k.head?.map Prod.fst <;> exact e1
    have g2 : v3.lowlink = v.lowlink := by
      rw [hv3]
      cases hp : k.head?.map Prod.fst with
      | none => exact hv2l
      | some p =>
        simp only [SccV.toParent, hv2l]
        rw [if_neg (hlow p hp)]
    have g3 : v3.sccStack = v2.sccStack := by rw [hv3]; cases k.head?.map Prod.fst <;> rfl
    have g4 : v3.props = v2.props := by rw [hv3]; cases k.head?.map Prod.fst <;> rfl
    have g5 : v3.scc = v2.scc := by rw [hv3]; cases k.head?.map Prod.fst <;> rfl
    have g6 : v3.nscc = v.nscc + 1 := by
      have : v3.nscc = v2.nscc := by rw [hv3]; cases k.head?.map Prod.fst <;> rfl
      rw [this, hv2]; simp only [SccV.popScc, e6]
    have g7 : v3.onstack = v2.onstack := by rw [hv3]; cases k.head?.map Prod.fst <;> rfl
    have g8 : v3.nstates = v.nstates := by rw [hv3, hv2]; cases k.head?.map Prod.fst <;> exact e8
    have g9 : v3.accessC = v.accessC := by rw [hv3, hv2]; cases k.head?.map Prod.fst <;> exact e9
    have g10 : v3.access = v.access := by rw [hv3, hv2]; cases k.head?.map Prod.fst <;> exact e10
    have hS3 : ∀ q, q ∈ v3.sccStack ↔ q ∈ v.sccStack ∧ ¬ Grp (· ∈ v.sccStack) v.dfnumber s q := by
      intro q; rw [g3]; exact hS2 q
    have hC3 : ∀ q, Closed (upd c s .black) v3 q ↔ Closed c v q ∨ Grp (· ∈ v.sccStack) v.dfnumber s q := by
      intro q; rw [← hC2]; unfold Closed; rw [g3]
    have hpr : ∀ b, b ≠ .notCoaccessible → b ≠ .coaccessible → v3.props b = v.props b := by
      intro b hb1 hb2
      rw [g4, hv2]
      simp only [SccV.popScc, e4]
      split
      · rfl
      · simp [flip_apply, PropBit.neg, hb1, hb2]
    constructor
    · exact hcol'
    · exact core_congr hcore2 hg hS3 hC3 hx g1 g2
    · cases hp : k.head?.map Prod.fst with
      | none =>
        have : v3 = v2 := by rw [hv3, hp]; rfl
        rw [this]
        refine co_congr hco2 hg hS2 hC2 (fun a b => ?_) rfl rfl
        rw [hx a b, hp]; simp
      | some p =>
        have hc3 : v3.coaccess = SccV.copyCo v2.coaccess p s := by rw [hv3, hp]; rfl
        obtain ⟨h1, h2, h3⟩ := hpar p hp
        refine co_congr (Co.popParent hcore2.disj hcore2.grey_S hco2 ⟨h1, h2⟩ h3 (.inr ⟨hsS, le_refl _⟩)) hg hS3 hC3 (fun a b => ?_) hc3 ?_
        · rw [hx a b, hp]
        · rw [g4]
    · exact num_congr (Num.pop h.core h.num htop hall hdl.symm hscc1 hscc2) hC3 g5 g6
    · exact acc_congr (Acc.pop (s := s) h.acc) hS3 hC3 g1 g9 (hpr _ (by simp) (by simp))
    · refine cyc_congr (Cyc.pop h.core h.num h.cyc htop hall (k.head?.map Prod.fst) hscc1 hscc2 ?_) hg hS3 hC3 hx g1 g2 g5
        (hpr _ (by simp) (by simp)) (hpr _ (by simp) (by simp))
      intro hne
      cases hp : k.head?.map Prod.fst with
      | none => exact absurd hp hne
      | some p => exact hstart p hp
    · intro q hq
      rw [hS3] at hq
      rw [hcw]; exact h.visS q hq.1
    · intro q
      rw [hS3, g7, hv2]
      simp only [SccV.popScc]
      rw [e7]
      by_cases hqG : q ∈ (SccV.popTo s v1.sccStack).1
      · rw [if_pos hqG]
        simp only [Bool.false_eq_true, false_iff]
        exact fun h' => h'.2 ((hG q).1 hqG)
      · rw [if_neg hqG, h.on]
        exact ⟨fun h' => ⟨h', fun h'' => hqG ((hG q).2 h'')⟩, fun h' => h'.1⟩
    · rw [g3, g1, hv2]
      simp only [SccV.popScc]
      rw [e3]
      exact h.sorted.sublist hp3
    · intro q hq
      rw [hS3] at hq
      rw [g1, g8]; exact h.dN q hq.1
    · rw [popStack_fst, g1]
      have := h.kdec
      simp only [List.map_cons, List.pairwise_cons] at this; exact this.2
    · intro hne
      rw [popStack_fst]
      have hr := h.rootGrey (by simp)
      simp only [List.map_cons, List.mem_cons] at hr
      rcases hr with hr | hr
      · -- the root is finished only when the stack is empty
        subst hr
        cases k with
        | nil => simp [popStack] at hne
        | cons e k =>
          have hkd := h.kdec
          simp only [List.map_cons, List.pairwise_cons, List.mem_cons] at hkd
          have h1 := hkd.1 e.1 (.inl rfl)
          have h2 := h.acc.rootMin e.1 (h.core.grey_S _ (by simp))
          omega
      · exact hr
    · intro q; rw [g10, h.access, hcw]
    · intro b
      have hb := h.bits
      have hfl : v3.props .coaccessible = !v3.props .notCoaccessible := by
        rw [g4, hv2]
        simp only [SccV.popScc, e4]
        split
        · exact hb .coaccessible
        · simp [flip_apply, PropBit.neg]
      by_cases h1 : b = .notCoaccessible
      · subst h1; rfl
      · by_cases h2 : b = .coaccessible
        · subst h2; exact hfl
        · rw [hpr b h1 h2]
          have := hb b
          cases b <;> simp only [hpr _ (by simp : PropBit.cyclic ≠ .notCoaccessible) (by simp), hpr _ (by simp : PropBit.initialCyclic ≠ .notCoaccessible) (by simp), hpr _ (by simp : PropBit.notAccessible ≠ .notCoaccessible) (by simp)] <;> first | exact this | exact absurd rfl h1 | exact absurd rfl h2
  · rw [if_neg hdl]
    have hlt : v.lowlink s < v.dfnumber s := by have := h.core.lowle s htop.1; omega
    cases hp : k.head?.map Prod.fst with
    | none =>
      exfalso
      have hk : k = [] := by cases k with
        | nil => rfl
        | cons e k => simp at hp
      subst hk
      have := h.core.root_low (s := s) htop.1 (by simp)
      omega
    | some p =>
      obtain ⟨hpe, hpk, hps, hpt⟩ := h.parent_edge hp
      have hpg : p ∈ ((s, ([] : List (Tr W))) :: k).map Prod.fst := List.mem_cons_of_mem _ hpk
      have hx' : ∀ a b, Ex f keep (upd c s .black) (popStack k) a b ↔ Ex f keep c ((s, []) :: k) a b ∨ a = p ∧ b = s := by
        intro a b; rw [hx a b, hp]; simp only [Option.some.injEq]
        constructor
        · rintro (h' | ⟨rfl, rfl⟩)
          · exact .inl h'
          · exact .inr ⟨rfl, rfl⟩
        · rintro (h' | ⟨rfl, rfl⟩)
          · exact .inl h'
          · exact .inr ⟨rfl, rfl⟩
      have hC : ∀ q, Closed (upd c s .black) (SccV.toParent v1 s (some p)) q ↔ Closed c v q := by
        intro q; unfold Closed; rw [hcw]; simp only [SccV.toParent, e3]
      have hS : ∀ q, q ∈ (SccV.toParent v1 s (some p)).sccStack ↔ q ∈ v.sccStack := by
        intro q; simp only [SccV.toParent, e3]
      have hl : (SccV.toParent v1 s (some p)).lowlink = upd v.lowlink p (min (v.lowlink p) (v.lowlink s)) := by
        simp only [SccV.toParent, e2]
        rw [ite_upd]
        congr 1
        split <;> omega
      constructor
      · exact hcol'
      · exact core_congr (h.core.finish htop hall hlt hps hpt hpe rfl) hg hS hC hx' e1 hl
      · refine co_congr (Co.finish h.core hco1 htop.1 hpg hpe hf1) hg hS hC hx' ?_ ?_
        · simp only [SccV.toParent, e11]
        · simp only [SccV.toParent, e4]
      · exact num_congr h.num hC e5 e6
      · exact acc_congr h.acc hS hC e1 e9 (by simp only [SccV.toParent, e4])
      · exact cyc_congr (Cyc.finish h.cyc htop hlt (hstart p hp)) hg hS hC hx' e1 hl e5 (by simp only [SccV.toParent, e4])
          (by simp only [SccV.toParent, e4])
      · intro q hq; rw [hcw]; exact h.visS q ((hS q).1 hq)
      · intro q; rw [hS]; simp only [SccV.toParent, e7]; exact h.on q
      · simp only [SccV.toParent, e3, e1]; exact h.sorted
      · intro q hq; simp only [SccV.toParent, e1, e8]; exact h.dN q ((hS q).1 hq)
      · rw [popStack_fst]
        simp only [SccV.toParent, e1]
        have := h.kdec
        simp only [List.map_cons, List.pairwise_cons] at this; exact this.2
      · intro hne
        rw [popStack_fst]
        have hr := h.rootGrey (by simp)
        simp only [List.map_cons, List.mem_cons] at hr
        rcases hr with hr | hr
        · subst hr
          have h1 := h.acc.rootMin p (h.core.grey_S _ hpg)
          have h2 := htop.2 p hpg
          exact absurd (h.core.dinj p root (h.core.grey_S _ hpg) hsS (by omega)) hps
        · exact hr
      · intro q; simp only [SccV.toParent, e10]; rw [h.access, hcw]
      · intro b
        have := h.bits b
        simp only [SccV.toParent, e4]
        exact this

end Scc
end Verif
