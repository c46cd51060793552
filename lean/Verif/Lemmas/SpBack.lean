import Verif.Lemmas.SpLoop
import Verif.Lemmas.Path
import Verif.Lemmas.Truthful
import Verif.Lemmas.Shape

/-! # The backtrace of the single shortest path -/

namespace Verif
universe u v
set_option linter.unusedSectionVars false
namespace Sp
open Sd Dfs SpState Fst
variable {W : Type u} [AddCommMonoid W] [Monoid W]

/-- The transitions on the way from the source to `x`, given by the parents. -/
inductive Back (f : Fst W) (src : Nat) (par : Nat → Option (Nat × Nat)) : Nat → List (Tr W) → Prop
  | root : par src = none → Back f src par src []
  | child {x s pos t ts} : par x = some (s, pos) → (f.trsOf s)[pos]? = some t → t.nextstate = x → Back f src par s ts →
      Back f src par x (ts ++ [t])

/-- The path that follows `ts` and then `p`. -/
def cats (ts : List (Tr W)) (p : PathT W) : PathT W := ts.foldr (fun t p => t.asPath.cat p) p

theorem cats_snoc (ts : List (Tr W)) (t : Tr W) (p : PathT W) : cats (ts ++ [t]) p = cats ts (t.asPath.cat p) := by simp [cats]

theorem Back.mem {f : Fst W} {src : Nat} {par : Nat → Option (Nat × Nat)} {x : Nat} {ts : List (Tr W)} (h : Back f src par x ts) :
    ∀ (n : Nat) (p : PathT W), p ∈ f.pathsFrom n x → cats ts p ∈ f.pathsFrom (ts.length + n) src := by
  induction h with
  | root _ => intro n p hp; simpa [cats] using hp
  | @child x s pos t ts h1 h2 h3 _ ih =>
    intro n p hp
    rw [cats_snoc, List.length_append, List.length_singleton, Nat.add_assoc, Nat.add_comm 1 n]
    refine ih (n + 1) _ ?_
    rw [pathsFrom_succ, Multiset.mem_bind]
    exact ⟨t, by simpa using List.mem_of_getElem? h2, by rw [h3]; exact Multiset.mem_map_of_mem _ hp⟩

theorem Tree.back {f : Fst W} {src : Nat} {par : Nat → Option (Nat × Nat)} {d : Nat → W} (h1 : d src = 1)
    (he : ∀ x s pos, par x = some (s, pos) → ∃ t, (f.trsOf s)[pos]? = some t ∧ t.nextstate = x ∧ d s * t.weight = d x) {x : Nat}
    (h : Tree src par x) : ∃ ts, Back f src par x ts ∧ ∀ p : PathT W, (cats ts p).2.2 = d x * p.2.2 := by
  induction h with
  | root h => exact ⟨[], .root h, fun p => by simp [cats, h1]⟩
  | @child x s pos h _ ih =>
    obtain ⟨ts, hb, hp⟩ := ih
    obtain ⟨t, ht, hn, hd⟩ := he x s pos h
    refine ⟨ts ++ [t], .child h ht hn hb, fun p => ?_⟩
    rw [cats_snoc, hp, ← hd, mul_assoc]
    rfl

/-- The transitions of the FST built for `us`. -/
def trsLin : List (Tr W) → Nat → List (Tr W)
  | [], _ => []
  | t :: us, q => if q = us.length + 1 then [{ t with nextstate := us.length }] else trsLin us q

theorem mem_trsLin {us : List (Tr W)} {q : Nat} {t : Tr W} (h : t ∈ trsLin us q) : q = t.nextstate + 1 ∧ q ≤ us.length := by
  induction us with
  | nil => cases h
  | cons u us ih =>
    simp only [trsLin] at h
    split at h
    · rename_i hq
      obtain rfl := List.mem_singleton.1 h
      exact ⟨hq, by simp; omega⟩
    · have := ih h
      exact ⟨this.1, by simp; omega⟩

theorem exists_trsLin {us : List (Tr W)} {q : Nat} (h : q < us.length) : ∃ t, t ∈ trsLin us (q + 1) ∧ t.nextstate = q := by
  induction us with
  | nil => simp at h
  | cons u us ih =>
    simp only [trsLin]
    split
    · exact ⟨_, List.mem_singleton.2 rfl, by simp only; omega⟩
    · exact ih (by simp at h; omega)

theorem trsLin_beyond {us : List (Tr W)} {q : Nat} (h : us.length < q) : trsLin us q = [] := by
  cases hq : trsLin us q with
  | nil => rfl
  | cons t l =>
    have := mem_trsLin (us := us) (q := q) (t := t) (by rw [hq]; simp)
    omega

theorem pathsFrom_lin {o : Fst W} {w : W} (hf : ∀ q, o.finOf q = if q = 0 then some w else none) :
    ∀ (us : List (Tr W)), (∀ q, q ≤ us.length → o.trsOf q = trsLin us q) →
      ∀ n, o.pathsFrom n us.length = if n = us.length then {cats us ([], [], w)} else 0
  | [], ht, n => by
    cases n with
    | zero => simp [pathsFrom_zero, hf, cats]
    | succ n => simp [pathsFrom_succ, ht 0 (by simp), trsLin]
  | t :: us, ht, n => by
    have ih := pathsFrom_lin hf us (fun q hq => by
      rw [ht q (by simp; omega), trsLin, if_neg (by omega)])
    cases n with
    | zero => simp [pathsFrom_zero, hf]
    | succ n =>
      rw [pathsFrom_succ, List.length_cons, ht (us.length + 1) (by simp), trsLin, if_pos rfl]
      simp only [Multiset.coe_singleton, Multiset.singleton_bind, ih]
      by_cases hn : n = us.length
      · simp [hn, cats, Tr.asPath]
      · simp [hn]

variable [DecidableEq W]

/-- `o` is the FST built for `us`, without a start state. -/
structure Lin (o : Fst W) (us : List (Tr W)) (w : W) : Prop where
  num : o.numStates = us.length + 1
  start : o.start = none
  fin : ∀ q, o.finOf q = if q = 0 then some w else none
  trs : ∀ q, o.trsOf q = trsLin us q
  truth : o.Truthful

theorem lin_nil (w : W) : Lin ((Fst.new : Fst W).addState.setFinal 0 w) [] w := by
  have hn : (0 : Nat) < ((Fst.new : Fst W).addState).numStates := by simp
  refine ⟨by simp, by simp, fun q => ?_, fun q => by simp [trsLin], ?_⟩
  · rw [setFinal_finOf]
    by_cases hq : q = 0
    · simp [hq]
    · simp [hq]
  · exact truthful_setFinal (by rw [addState_eq]; exact truthful_addStates truthful_new 1) hn w

theorem Lin.cons {o : Fst W} {us : List (Tr W)} {w : W} (h : Lin o us w) (t : Tr W) :
    Lin (o.addState.addTr o.numStates { t with nextstate := us.length }) (t :: us) w := by
  have hl : o.numStates < o.addState.numStates := by simp
  refine ⟨by simp [h.num], by simp [h.start], fun q => by simp [h.fin], fun q => ?_, ?_⟩
  · rw [addTr_trsOf]
    by_cases hq : q = o.numStates
    · have : trsLin us o.numStates = [] := trsLin_beyond (by rw [h.num]; omega)
      have hq' : q = us.length + 1 := by rw [hq, h.num]
      simp [hq, trsLin, h.trs, h.num, trsLin_beyond]
    · have hq' : ¬ q = us.length + 1 := by rw [← h.num]; exact hq
      simp [hq, trsLin, h.trs, hq']
  · exact truthful_addTr (by rw [addState_eq]; exact truthful_addStates h.truth 1) hl _

theorem backLoop_spec {f : Fst W} {src fp : Nat} {par : Nat → Option (Nat × Nat)} {w : W} {x : Nat} {ts : List (Tr W)}
    (h : Back f src par x ts) : ∀ (us : List (Tr W)) (o : Fst W) (fuel : Nat), Lin o us w → ts.length < fuel →
      ∃ o', f.backLoop fp par fuel o (some us.length) (some x) ((par x).map (·.1)) = some (.ok (o', some (ts ++ us).length)) ∧
        Lin o' (ts ++ us) w := by
  induction h with
  | root h =>
    intro us o fuel hL hf
    obtain ⟨fuel, rfl⟩ : ∃ k, fuel = k + 1 := ⟨fuel - 1, by omega⟩
    exact ⟨o, by simp [h, Fst.backLoop], hL⟩
  | @child x s pos t ts h1 h2 h3 _ ih =>
    intro us o fuel hL hf
    obtain ⟨fuel, rfl⟩ : ∃ k, fuel = k + 1 := ⟨fuel - 1, by simp at hf; omega⟩
    have hs : s < f.numStates := lt_of_mem_trsOf (List.mem_of_getElem? h2)
    have htrs : f.getTrsR s = .ok (f.trsOf s) := by
      unfold Fst.getTrsR
      rw [Fst.trsOf_eq]
      cases hg : f.states[s]? with
      | none =>
        rw [List.getElem?_eq_none_iff] at hg
        exact absurd hs (by unfold Fst.numStates; omega)
      | some st => rfl
    have hstep : f.backStep fp par o (some us.length) (some x) s = .ok (o.addState.addTr o.numStates { t with nextstate := us.length }) := by
      unfold Fst.backStep
      simp only [h1, htrs, h2]
    obtain ⟨o', e1, e2⟩ := ih (t :: us) _ fuel (hL.cons t) (by simp at hf; omega)
    refine ⟨o', ?_, by simpa using e2⟩
    simp only [h1, Option.map_some, Fst.backLoop, hstep]
    have hnum : o.numStates = (t :: us).length := by rw [hL.num]; simp
    rw [← hnum] at e1
    rw [e1]
    simp

theorem spProps_truthful {o : Fst W} (h : o.Truthful) (h1 : o.Holds .acyclic) (h2 : o.Holds .initialAcyclic) (h3 : o.Holds .accessible)
    (h4 : o.Holds .unweightedCycles) : (o.setPropsMask (spProps o.props) Props.allMask).Truthful := by
  intro b hb
  rw [setPropsMask_all] at hb
  refine (holds_congr (f := o) (g := o.setPropsMask (spProps o.props) Props.allMask) rfl rfl (fun _ => rfl) (fun _ => rfl) b).2 ?_
  simp only [spProps, Props.or_apply, Bool.or_eq_true] at hb
  rcases hb with hb | hb
  · exact h b hb
  · cases b <;> first
      | (simp [Props.of_apply] at hb; done)
      | assumption

theorem Lin.flags {o : Fst W} {us : List (Tr W)} {w : W} (h : Lin o us w) :
    ((o.setStart us.length).setPropsMask (spProps (o.setStart us.length).props) Props.allMask).Truthful := by
  have hdown : ∀ a b, (o.setStart us.length).Edge a b → a = b + 1 := by
    rintro a b ⟨t, ht, rfl⟩
    have ht : t ∈ trsLin us a := by rw [← h.trs]; exact ht
    exact (mem_trsLin ht).1
  have hlt : ∀ a b, Relation.TransGen (o.setStart us.length).Edge a b → b < a := by
    intro a b hab
    induction hab with
    | single h => have := hdown _ _ h; omega
    | tail _ h ih => have := hdown _ _ h; omega
  have hac : ∀ s, ¬ (o.setStart us.length).OnCycle s := fun s hs => absurd (hlt s s hs) (lt_irrefl s)
  refine spProps_truthful (truthful_setStart h.truth _) ?_ ?_ ?_ ?_
  · rintro ⟨s, hs⟩; exact hac s hs
  · rintro ⟨s, -, hs⟩; exact hac s hs
  · intro s hs
    have hs : s ≤ us.length := by
      have : s < o.numStates := hs
      rw [h.num] at this; omega
    have hreach : ∀ k, k ≤ us.length → (o.setStart us.length).Reach us.length (us.length - k) := by
      intro k
      induction k with
      | zero => intro _; exact .refl
      | succ k ih =>
        intro hk
        obtain ⟨t, h1, h2⟩ := exists_trsLin (us := us) (q := us.length - (k + 1)) (by omega)
        refine (ih (by omega)).tail ⟨t, ?_, h2⟩
        have : us.length - (k + 1) + 1 = us.length - k := by omega
        rw [this] at h1
        rw [← h.trs] at h1
        exact h1
    refine ⟨us.length, rfl, ?_⟩
    have := hreach (us.length - s) (by omega)
    rwa [show us.length - (us.length - s) = s by omega] at this
  · rintro ⟨s, t, ht, -, hr⟩
    refine hac s ?_
    exact Relation.TransGen.head' ⟨t, ht, rfl⟩ hr

/-- The backtrace of a path. -/
theorem backtrace_spec {f : Fst W} {src p : Nat} {par : Nat → Option (Nat × Nat)} {w : W} (hw : f.finOf p = some w) {ts : List (Tr W)}
    (h : Back f src par p ts) (fuel : Nat) (hf : ts.length + 1 < fuel) :
    ∃ o, f.backtrace (some p) par fuel = some (.ok o) ∧ o.Truthful ∧ o.numStates = ts.length + 1 ∧ o.WF ∧
      ∀ n, o.accPaths n = if n = ts.length then {cats ts ([], [], w)} else 0 := by
  obtain ⟨fuel, rfl⟩ : ∃ k, fuel = k + 1 := ⟨fuel - 1, by omega⟩
  obtain ⟨o, e1, hL⟩ := backLoop_spec (fp := p) h [] _ fuel (lin_nil w) (by omega)
  rw [List.append_nil] at hL e1
  have hwr : f.finalWeightR p = .ok (some w) := by
    unfold Fst.finalWeightR
    rw [Fst.finOf_eq] at hw
    cases hg : f.states[p]? with
    | none => rw [hg] at hw; cases hw
    | some st => rw [hg] at hw; simpa using hw
  have hstep : f.backStep p par Fst.new none none p = .ok ((Fst.new : Fst W).addState.setFinal 0 w) := by
    unfold Fst.backStep
    simp only [hwr]
    rfl
  refine ⟨_, ?_, hL.flags, ?_, ⟨?_, ?_⟩, ?_⟩
  · unfold Fst.backtrace
    simp only [Option.getD_some, Fst.backLoop, hstep]
    have : (Fst.new : Fst W).numStates = 0 := rfl
    rw [this]
    simp only [List.length_nil] at e1
    rw [e1]
  · exact hL.num
  · intro i hi
    have : i = ts.length := by
      have : some ts.length = some i := hi
      simpa using this.symm
    rw [this]
    change ts.length < o.numStates
    rw [hL.num]; omega
  · intro s t ht
    have ht : t ∈ trsLin ts s := by rw [← hL.trs]; exact ht
    have := mem_trsLin ht
    change t.nextstate < o.numStates
    rw [hL.num]; omega
  · intro n
    rw [accPaths_some (i := ts.length) rfl]
    exact pathsFrom_lin (o := (o.setStart ts.length).setPropsMask (spProps (o.setStart ts.length).props) Props.allMask)
      (fun q => hL.fin q) ts (fun q _ => hL.trs q) n

theorem backLoop_mono {f : Fst W} {fp : Nat} {par : Nat → Option (Nat × Nat)} : ∀ (k m : Nat) (o : Fst W) (sp d s : Option Nat) (x),
    f.backLoop fp par k o sp d s = some x → k ≤ m → f.backLoop fp par m o sp d s = some x
  | 0, _, _, _, _, _, _, h, _ => by simp [Fst.backLoop] at h
  | k + 1, m, o, sp, d, none, x, h, hm => by
    obtain ⟨m, rfl⟩ : ∃ m', m = m' + 1 := ⟨m - 1, by omega⟩
    simpa [Fst.backLoop] using h
  | k + 1, m, o, sp, d, some s, x, h, hm => by
    obtain ⟨m, rfl⟩ : ∃ m', m = m' + 1 := ⟨m - 1, by omega⟩
    simp only [Fst.backLoop] at h ⊢
    cases hs : f.backStep fp par o sp d s with
    | error e => simpa [hs] using h
    | ok o' =>
      simp only [hs] at h ⊢
      exact backLoop_mono k m _ _ _ _ x h (by omega)

end Sp
end Verif
