import Verif.Lemmas.LookCut
import Verif.Props.C66

/-!
# What `LabelLookAheadMatcher` finds when it looks ahead
-/

namespace Verif
universe u
variable {W : Type u}
open LabelReachable LabelReachableData

/-- The tape of a path. -/
def PathT.tape (input : Bool) (p : PathT W) : List Label := if input then p.1 else p.2.1

section
variable [MulZeroClass W] {f : Fst W} {input : Bool}

theorem cat_tape (t : Tr W) (p : PathT W) : (t.asPath.cat p).tape input = strip (t.labelOn input) ++ p.tape input := by
  cases input <;> rfl

theorem path_canRead : ∀ {n s} {p : PathT W}, p ∈ f.pathsFrom n s → ∀ {l r}, p.tape input = l :: r → f.CanRead input s l
  | 0, s, p, hp, l, r, e => by
    simp only [Fst.pathsFrom] at hp
    cases hw : f.finOf s with
    | none => rw [hw] at hp; simp at hp
    | some w =>
      rw [hw] at hp
      simp at hp
      subst hp
      cases input <;> simp [PathT.tape] at e
  | n + 1, s, p, hp, l, r, e => by
    rw [Fst.pathsFrom_succ] at hp
    obtain ⟨t, ht, hq⟩ := Multiset.mem_bind.1 hp
    obtain ⟨q, hq', rfl⟩ := Multiset.mem_map.1 hq
    rw [cat_tape] at e
    by_cases h0 : t.labelOn input = EPS
    · rw [h0] at e
      obtain ⟨q', h1, h2⟩ := path_canRead hq' (l := l) (r := r) (by simpa [strip] using e)
      exact ⟨q', .head ⟨t, Multiset.mem_coe.1 ht, h0, rfl⟩ h1, h2⟩
    · simp [strip, h0] at e
      exact ⟨s, .refl, t, Multiset.mem_coe.1 ht, e.1⟩

theorem path_canEnd : ∀ {n s} {p : PathT W}, p ∈ f.pathsFrom n s → p.tape input = [] → p.2.2 ≠ 0 → f.CanEnd input s
  | 0, s, p, hp, e, hw => by
    simp only [Fst.pathsFrom] at hp
    cases hf : f.finOf s with
    | none => rw [hf] at hp; simp at hp
    | some w =>
      rw [hf] at hp
      simp at hp
      subst hp
      exact ⟨s, .refl, w, hf, hw⟩
  | n + 1, s, p, hp, e, hw => by
    rw [Fst.pathsFrom_succ] at hp
    obtain ⟨t, ht, hq⟩ := Multiset.mem_bind.1 hp
    obtain ⟨q, hq', rfl⟩ := Multiset.mem_map.1 hq
    rw [cat_tape] at e
    by_cases h0 : t.labelOn input = EPS
    · rw [h0] at e
      obtain ⟨q', h1, h2⟩ := path_canEnd hq' (by simpa [strip] using e) (fun h => hw (by simp [PathT.cat, h]))
      exact ⟨q', .head ⟨t, Multiset.mem_coe.1 ht, h0, rfl⟩ h1, h2⟩
    · simp [strip, h0] at e

end

section
variable [CommMonoidWithZero W] [Add W] [DecidableEq W]

/-- The tables `D` were built for `f` and tell what can be read in `M`. -/
structure Tabled (M : Fst W) (side : Bool) (f : Fst W) (D : LabelReachableData) : Prop where
  wf : f.WF
  true : f.Truthful
  start : f.start ≠ none
  one : (1 : W) ≠ 0
  noLabel : ∀ s, ∀ t ∈ f.trsOf s, t.labelOn side < NO_LABEL
  prep : Prepared f side D
  states : M.numStates = f.numStates
  read : ∀ s, s < M.numStates → ∀ l, l ≠ EPS → M.CanRead side s l → reachLabel D s l = .ok .true
  fin : ∀ s, s < M.numStates → M.CanEnd side s → reachFinal D s = .ok .true

/-- The other FST is one that `reach_init` accepts. -/
structure LookedAt (L : Fst W) (on : Bool) : Prop where
  true : L.Truthful
  init : reachInit L on = .ok ()
  noLabel : ∀ s, ∀ t ∈ L.trsOf s, t.labelOn on ≠ NO_LABEL

theorem labelLook_spec {M L f : Fst W} {side : Bool} {D : LabelReachableData} (hT : Tabled M side f D) (hL : LookedAt L (!side)) (fl : LaFlags) {s ls : StateId}
    (hs : s < M.numStates) (hls : ls < L.numStates) : ∃ r, labelLook fl (some (D, !side)) s L ls = .ok r ∧
      (r = none → (∀ t ∈ L.trsOf ls, reachLabel D s (t.labelOn (!side)) = .ok false) ∧ ∀ w, L.finOf ls = some w → w ≠ 0 → reachFinal D s = .ok false) ∧
      ∀ G : W → Prop, G 1 → (∀ a b, G a → G b → G (a + b)) → (∀ a : W, 0 + a = a) → (∀ t ∈ L.trsOf ls, G t.weight) →
        (∀ w, L.finOf ls = some w → w ≠ 0 → G w) → fl.weight = true → ∀ d, r = some d → G d.weight := by
  have hsf : s < f.numStates := hT.states ▸ hs
  have ht : L.getTrsR ls = .ok (L.trsOf ls) := by
    have : L.states[ls]? = some L.states[ls] := List.getElem?_eq_getElem hls
    simp [Fst.getTrsR, Fst.trsOf, this]
  obtain ⟨o, ho, h1, h2⟩ := C66_reach hT.wf hT.true hT.start hT.one hT.noLabel hT.prep hsf hL.true hL.init ls (hL.noLabel ls) 0 (L.trsOf ls).length (Nat.zero_le _) le_rfl fl.weight
  obtain ⟨b, hb, -⟩ := (C66_final hT.wf hT.true hT.start hT.one hT.noLabel hT.prep).1 s hsf
  -- the final weight
  obtain ⟨rf, hrf, hrf0, hrf1⟩ : ∃ rf, labelReachFin D s (L.finOf ls) = .ok rf ∧ (rf = false → ∀ w, L.finOf ls = some w → w ≠ 0 → reachFinal D s = .ok false) ∧
      (rf = true → ∃ w, L.finOf ls = some w ∧ w ≠ 0) := by
    unfold labelReachFin
    cases hf : L.finOf ls with
    | none => exact ⟨false, rfl, fun _ w h => (by cases h), fun h => (by cases h)⟩
    | some w =>
      by_cases h0 : w = 0
      · refine ⟨false, by simp [h0], fun _ w' h hw' => ?_, fun h => (by cases h)⟩
        rw [Option.some.injEq] at h
        exact absurd (h ▸ h0) hw'
      · refine ⟨b, by simp [h0, hb], fun e w' _ _ => by rw [hb, e], fun _ => ⟨w, rfl, h0⟩⟩
  simp only [labelLook, ht, ho, hrf]
  cases o with
  | none =>
    refine ⟨if rf then some (if fl.weight then { LaData.default with weight := (L.finOf ls).getD 0 } else .default) else none, ?_, ?_, ?_⟩
    · cases rf <;> simp [labelLookData]
    · intro e
      cases rf with
      | true => simp at e
      | false =>
        refine ⟨fun t ht => ?_, hrf0 rfl⟩
        obtain ⟨i, hi⟩ := List.getElem?_of_mem ht
        obtain ⟨hl, -⟩ := List.getElem?_eq_some_iff.1 hi
        exact h1 rfl i t (Nat.zero_le _) hl hi
    · intro G _ _ _ _ hG hfw d e
      cases rf with
      | false => simp at e
      | true =>
        obtain ⟨w, hw, hw0⟩ := hrf1 rfl
        simp only [if_true, hfw, Option.some.injEq] at e
        subst e
        simp only [hw, Option.getD_some]
        exact hG w hw hw0
  | some o =>
    obtain ⟨a, b, w⟩ := o
    obtain ⟨⟨-, hab, hbl⟩, ⟨ta, hta, hra⟩, -, -, hw⟩ := h2 a b w rfl
    have hsum : ∀ G : W → Prop, (∀ a b, G a → G b → G (a + b)) → (∀ a : W, 0 + a = a) → (∀ t ∈ L.trsOf ls, G t.weight) → fl.weight = true → G w := by
      intro G hadd hz hG hfw
      rw [hfw, if_pos rfl] at hw
      have hmem : ta ∈ (((L.trsOf ls).drop 0).take ((L.trsOf ls).length - 0)).filter fun t => reachLabel D s (t.labelOn (!side)) = .ok true := by
        simp only [List.drop_zero, Nat.sub_zero, List.take_length, List.mem_filter, decide_eq_true_eq]
        exact ⟨List.mem_of_getElem? hta, hra⟩
      have hall : ∀ t ∈ (((L.trsOf ls).drop 0).take ((L.trsOf ls).length - 0)).filter fun t => reachLabel D s (t.labelOn (!side)) = .ok true, G t.weight := by
        intro t ht
        simp only [List.drop_zero, Nat.sub_zero, List.take_length, List.mem_filter] at ht
        exact hG t ht.1
      rw [hw]
      generalize (((L.trsOf ls).drop 0).take ((L.trsOf ls).length - 0)).filter _ = ts at hmem hall
      have key : ∀ (ts : List (Tr W)) (x : W), G x → (∀ t ∈ ts, G t.weight) → G ((ts.map Tr.weight).foldl (· + ·) x) := by
        intro ts
        induction ts with
        | nil => intro x hx _; exact hx
        | cons t ts ih => intro x hx hall; exact ih _ (hadd _ _ hx (hall t (by simp))) fun u hu => hall u (by simp [hu])
      cases ts with
      | nil => cases hmem
      | cons t ts =>
        simp only [List.map_cons, List.foldl_cons, hz]
        exact key ts _ (hall t (by simp)) fun u hu => hall u (by simp [hu])
    by_cases hpre : (fl.prefixLa && decide (b - a = 1) && !rf) = true
    · refine ⟨some { LaData.default with prefixTr := ta }, ?_, by simp, ?_⟩
      · simp only [labelLookData, hpre, if_true, hta]
        simp
      · intro G hG1 _ _ _ _ _ d e
        rw [Option.some.injEq] at e
        subst e
        exact hG1
    · refine ⟨some (if rf && fl.weight then { LaData.default with weight := w + (L.finOf ls).getD 0 } else { LaData.default with weight := w }), ?_, by simp, ?_⟩
      · simp only [labelLookData, hpre]
        cases hrf' : rf && fl.weight <;> simp [hrf']
      · intro G hG1 hadd hz hG hGf hfw d e
        rw [Option.some.injEq] at e
        subst e
        have hGw := hsum G hadd hz hG hfw
        cases rf with
        | false => exact hGw
        | true =>
          obtain ⟨w', hw', hw0⟩ := hrf1 rfl
          simp only [hfw, Bool.and_self, if_true, hw', Option.getD_some]
          exact hadd _ _ hGw (hGf w' hw' hw0)

/-- If the look ahead finds nothing, a path of the matcher's FST and a path of the other FST that does not begin with ε have no common tape, or no weight. -/
theorem labelLook_none {M L f : Fst W} {side : Bool} {D : LabelReachableData} (hT : Tabled M side f D) (hL : LookedAt L (!side)) {fl : LaFlags} {s ls : StateId}
    (hs : s < M.numStates) (hls : ls < L.numStates) (h : labelLook fl (some (D, !side)) s L ls = .ok none) {n m : Nat} {p q : PathT W} (hp : p ∈ M.pathsFrom n s)
    (hq : q ∈ pathsC (fun t => t.labelOn (!side)) L false m ls) (e : q.tape (!side) = p.tape side) : p.2.2 = 0 ∨ q.2.2 = 0 := by
  obtain ⟨r, hr, hn, -⟩ := labelLook_spec hT hL fl hs hls
  rw [h] at hr
  injection hr with hr
  obtain ⟨h1, h2⟩ := hn hr.symm
  by_contra hw
  rw [not_or] at hw
  cases m with
  | zero =>
    simp only [pathsC, Bool.false_eq_true, if_false] at hq
    cases hf : L.finOf ls with
    | none => rw [hf] at hq; simp [finPath] at hq
    | some w =>
      rw [hf] at hq
      simp [finPath] at hq
      subst hq
      have : p.tape side = [] := by rw [← e]; cases side <;> rfl
      have hc := hT.fin s hs (path_canEnd hp this hw.1)
      rw [h2 w hf hw.2] at hc
      cases hc
  | succ m =>
    simp only [pathsC] at hq
    obtain ⟨t, ht, hq⟩ := Multiset.mem_bind.1 hq
    obtain ⟨q', -, rfl⟩ := Multiset.mem_map.1 hq
    have ht' := Multiset.mem_filter.1 ht
    have h0 : t.labelOn (!side) ≠ EPS := by simpa using ht'.2
    rw [cat_tape] at e
    simp only [strip, h0, if_false] at e
    have hc := hT.read s hs _ h0 (path_canRead hp e.symm)
    rw [h1 t (Multiset.mem_coe.1 ht'.1)] at hc
    cases hc

/-- The same for joined paths, the matcher being that of the first FST. -/
theorem labelLook_join_out {A B f : Fst W} {D : LabelReachableData} (hT : Tabled A false f D) (hL : LookedAt B true) {fl : LaFlags} {s1 s2 : StateId}
    (h1 : s1 < A.numStates) (h2 : s2 < B.numStates) (h : labelLook fl (some (D, true)) s1 B s2 = .ok none) (n m : Nat) :
    nonzero (joinPaths (A.pathsFrom n s1) (pathsC Tr.ilabel B false m s2)) = 0 := by
  rw [nonzero_eq_zero]
  intro r hr
  obtain ⟨p, hp, q, hq, e, rfl⟩ := mem_join.1 hr
  rcases labelLook_none hT hL h1 h2 h hp hq e with e | e <;> simp [e]

/-- The matcher being that of the second FST. -/
theorem labelLook_join_in {A B f : Fst W} {D : LabelReachableData} (hT : Tabled B true f D) (hL : LookedAt A false) {fl : LaFlags} {s1 s2 : StateId}
    (h1 : s1 < A.numStates) (h2 : s2 < B.numStates) (h : labelLook fl (some (D, false)) s2 A s1 = .ok none) (n m : Nat) :
    nonzero (joinPaths (pathsC Tr.olabel A false n s1) (B.pathsFrom m s2)) = 0 := by
  rw [nonzero_eq_zero]
  intro r hr
  obtain ⟨p, hp, q, hq, e, rfl⟩ := mem_join.1 hr
  rcases labelLook_none hT hL h2 h1 h hq hp e.symm with e | e <;> simp [e]

end
end Verif
