import Verif.Lemmas.SdIdem
import Verif.Lemmas.SdReverse
import Verif.Lemmas.Weights
import Verif.Props.C17
import Verif.Lemmas.DecHist
import Verif.Model.Weights
import Mathlib.Algebra.Order.Field.Rat

/-!
# C32: `shortest_distance`

Two settings, as in the property: an FST without cycles over any right semiring, and an FST over an idempotent semiring where going
around a cycle never adds anything (`CyclesAbsorbed`, which holds for the tropical semiring whenever no weight is negative). `eqv` is
the comparison up to `delta`, taken as exact equality. `sf` are the semiring properties the weight type claims.
-/

namespace Verif
universe u v
set_option linter.unusedSectionVars false
open Fst Dfs

section
variable {W : Type u} [AddCommMonoid W] [Monoid W] [RightDistribClass W]

theorem walk_of_transGen {f : Fst W} {keep : Tr W → Bool} {a b : StateId} (h : Relation.TransGen (KEdge f keep) a b) :
    ∃ n c, (b, c) ∈ f.walks keep (n + 1) a := by
  induction h with
  | single h =>
    obtain ⟨t, ht, hk, rfl⟩ := h
    exact ⟨0, 1 * t.weight, walks_snoc ((f.mem_walks_zero keep).2 ⟨rfl, rfl⟩) ht hk⟩
  | tail _ h ih =>
    obtain ⟨n, c, hc⟩ := ih
    obtain ⟨t, ht, hk, rfl⟩ := h
    exact ⟨n + 1, c * t.weight, walks_snoc hc ht hk⟩

theorem cyclesAbsorbed_of_noCycles {f : Fst W} {keep : Tr W → Bool} (h : f.NoCycles keep) : f.CyclesAbsorbed keep :=
  fun n s c hc => absurd hc (h n s c)

/-- What the returned vector says: entry `q` is the distance to `q`; beyond its end the distance is zero. -/
def DistanceVector (f : Fst W) (keep : Tr W → Bool) (p : StateId) (l : List W) : Prop := ∀ q, f.IsDistance keep p q (l[q]?.getD 0)

theorem distances_get {Q : Type v} {e : SdEnv W Q} (he : e.retain = false) {st : SdState W Q} {d r : Nat → W} (h : Sd.View e st d r)
    (q : Nat) : st.distances[q]?.getD 0 = d q := by
  unfold SdState.distances
  by_cases hq : q < st.len
  · rw [List.getElem?_map, List.getElem?_range hq]
    exact h.dist q (fun h => by rw [he] at h; cases h)
  · rw [List.getElem?_eq_none (by simpa using hq), h.beyond q (by omega)]
    rfl

/-- C32 for every queue that delivers the states put into it, in whatever order, and every filter and source: with idempotent weights. -/
theorem C32_any_queue {Q : Type v} {ops : QueueOps Q} {q0 : Q} {keep : Tr W → Bool} {eqv : W → W → Bool} {sf : SemiringFlags} {f : Fst W}
    (hz : ∀ a : W, 0 * a = 0) (hid : ∀ a : W, a + a = a) (hexact : ∀ a b, eqv a b = true ↔ b = a) (hsf : sf.right = true)
    (hw : f.WF) (hcyc : f.CyclesAbsorbed keep) {i : StateId} (hi : f.start = some i) (source : Option StateId)
    (hsrc : source.getD i < f.numStates) (hq : Lawful0 ops q0 (EdgeOk f keep) (fun _ _ => True)) :
    ∃ l st', EndsWith (fun n => (SdState.new q0).shortestDistance ⟨ops, eqv, keep, false⟩ sf f source n) (.ok (l, st')) ∧
      DistanceVector f keep (source.getD i) l := by
  obtain ⟨L, hL⟩ := hq
  obtain ⟨fuel, st', st'', c', d, r, h1, h2, h3, -⟩ := Sd.run_spec (e := ⟨ops, eqv, keep, false⟩) (st := SdState.new q0) (L := L) hw hexact
    (Sd.idAlg f hw hz hid keep hcyc (source.getD i) hsrc) hL hi source hsrc (fun h => by cases h) hsf (Sd.idI_init hz hid)
  refine ⟨_, st'', ⟨fuel, fun n hn => Sd.run_mono _ _ h1 hn⟩, fun q => ?_⟩
  rw [distances_get rfl h2.view]
  exact Sd.idI_distance hid h3 q

/-- C32 for every queue that serves the states in topological order: any right semiring. -/
theorem C32_topological_queue {Q : Type v} {ops : QueueOps Q} {q0 : Q} {keep : Tr W → Bool} {eqv : W → W → Bool} {sf : SemiringFlags}
    {f : Fst W} (hz : ∀ a : W, 0 * a = 0) (hexact : ∀ a b, eqv a b = true ↔ b = a) (hsf : sf.right = true)
    (hw : f.WF) {i : StateId} (hi : f.start = some i) (source : Option StateId) (hsrc : source.getD i < f.numStates)
    (ord : StateId → Nat) (hord : ∀ s, ∀ t ∈ f.trsOf s, keep t = true → ord s < ord t.nextstate)
    (hq : Lawful0 ops q0 (EdgeOk f keep) (fun s x => ord s < ord x)) :
    ∃ l st', EndsWith (fun n => (SdState.new q0).shortestDistance ⟨ops, eqv, keep, false⟩ sf f source n) (.ok (l, st')) ∧
      DistanceVector f keep (source.getD i) l := by
  obtain ⟨L, hL⟩ := hq
  have hord' : ∀ a b, KEdge f keep a b → ord a < ord b := by
    rintro a b ⟨t, ht, hk, rfl⟩
    exact hord a t ht hk
  obtain ⟨fuel, st', st'', c', d, r, h1, h2, h3, -⟩ := Sd.run_spec (e := ⟨ops, eqv, keep, false⟩) (st := SdState.new q0) (L := L) hw hexact
    (Sd.topAlg f hw hz keep ord hord' (source.getD i)) hL hi source hsrc (fun h => by cases h) hsf (Sd.topI_init hz hsrc)
  refine ⟨_, st'', ⟨fuel, fun n hn => Sd.run_mono _ _ h1 hn⟩, fun q => ?_⟩
  rw [distances_get rfl h2.view]
  exact Sd.topI_distance hw hz hord' hsrc h3 q

variable [DecidableEq W]

theorem shortestDistance_auto {sf : SemiringFlags} {eqv : W → W → Bool} {f : Fst W} {q : AutoQ} (hq : AutoQ.new sf f (fun _ => true) = .ok q)
    {l : List W} {st'} (h : EndsWith (fun n => (SdState.new q).shortestDistance ⟨AutoQ.ops, eqv, fun _ => true, false⟩ sf f none n)
      (.ok (l, st'))) : EndsWith (f.shortestDistance sf eqv) (.ok l) := by
  obtain ⟨N, hN⟩ := h
  refine ⟨N, fun n hn => ?_⟩
  unfold Fst.shortestDistance
  simp only [hq]
  have := hN n hn
  simp only at this
  rw [this]

/-- C32: the public function, with the queue it selects. -/
theorem C32_shortest_distance {sf : SemiringFlags} {eqv : W → W → Bool} {f : Fst W} (hz : ∀ a : W, 0 * a = 0)
    (hexact : ∀ a b, eqv a b = true ↔ b = a) (hsf : sf.right = true) (hidf : sf.idempotent = true → ∀ a : W, a + a = a)
    (hw : f.WF) (ht : f.Truthful) {i : StateId} (hi : f.start = some i)
    (hcase : f.NoCycles (fun _ => true) ∨ ((∀ a : W, a + a = a) ∧ f.CyclesAbsorbed (fun _ => true))) :
    ∃ l, EndsWith (f.shortestDistance sf eqv) (.ok l) ∧ DistanceVector f (fun _ => true) i l := by
  have hil := hw.start_lt i hi
  have idem : (∀ a : W, a + a = a) → f.CyclesAbsorbed (fun _ => true) →
      ∃ l, EndsWith (f.shortestDistance sf eqv) (.ok l) ∧ DistanceVector f (fun _ => true) i l := by
    intro hid hcyc
    obtain ⟨q, hq, hlaw⟩ := AutoQ.new_lawful hw ht sf (fun _ => true)
    obtain ⟨l, st', h1, h2⟩ := C32_any_queue (eqv := eqv) hz hid hexact hsf hw hcyc hi none hil hlaw
    exact ⟨l, shortestDistance_auto hq h1, h2⟩
  rcases hcase with hac | ⟨hid, hcyc⟩
  · by_cases hi' : sf.idempotent = true
    · exact idem (hidf hi') (cyclesAbsorbed_of_noCycles hac)
    · have hi' : sf.idempotent = false := by simpa using hi'
      have hac' : ¬ ∃ q, Relation.TransGen (KEdge f (fun _ => true)) q q := by
        rintro ⟨q, hq⟩
        obtain ⟨n, c, hc⟩ := walk_of_transGen hq
        exact hac n q c hc
      obtain ⟨q, hq, ⟨ord, hord, hlaw⟩ | ⟨hno, hlaw⟩⟩ := AutoQ.new_topological hw ht hi sf hi' (fun _ => true) hac'
      · obtain ⟨l, st', h1, h2⟩ := C32_topological_queue (eqv := eqv) hz hexact hsf hw hi none hil ord
          (fun s t ht hk => hord s _ ⟨t, ht, hk, rfl⟩) hlaw
        exact ⟨l, shortestDistance_auto hq h1, h2⟩
      · obtain ⟨L, hL⟩ := hlaw
        obtain ⟨fuel, st', st'', c', d, r, h1, h2, h3, -⟩ := Sd.run_spec (e := ⟨AutoQ.ops, eqv, fun _ => true, false⟩)
          (st := SdState.new q) (L := L) hw hexact (Sd.noAlg f (fun _ => true) hno i) hL hi none hil (fun h => by cases h) hsf rfl
        refine ⟨_, shortestDistance_auto hq ⟨fuel, fun n hn => Sd.run_mono _ _ h1 hn⟩, fun q => ?_⟩
        rw [distances_get rfl h2.view, show d = Sd.init i from h3]
        exact Sd.no_distance hw hz hno hil q
  · exact idem hid hcyc

/-- C32: an FST without start state has no distances; weights that do not claim right distributivity are refused. -/
theorem C32_refused {sf : SemiringFlags} {eqv : W → W → Bool} {f : Fst W} (hw : f.WF) (ht : f.Truthful) (n : Nat) :
    (f.start = none → f.shortestDistance sf eqv n = some (.ok [])) ∧
    (f.start ≠ none → sf.right = false → f.shortestDistance sf eqv n = some (.error .err)) := by
  obtain ⟨q, hq, -⟩ := AutoQ.new_lawful hw ht sf (fun _ => true)
  constructor
  · intro h
    simp [Fst.shortestDistance, hq, SdState.shortestDistance, h]
  · intro h hr
    obtain ⟨i, hi⟩ := Option.ne_none_iff_exists'.1 h
    simp [Fst.shortestDistance, hq, SdState.shortestDistance, hi, hr]

end

/-- C32, the reversed direction: entry `q` is the distance from `q` to the final states. `rev` and `back` are `reverse` and
`reverse_back`. -/
theorem C32_reverse {W : Type u} {V : Type v} [AddCommMonoid W] [Monoid W] [LeftDistribClass W] [DecidableEq W] [AddCommMonoid V] [Monoid V]
    [RightDistribClass V] [DecidableEq V] {rev : W → V} {back : V → W} {sf : SemiringFlags} {eqv : V → V → Bool} {f : Fst W}
    (hback : ∀ a, back (rev a) = a) (hrev : ∀ v, rev (back v) = v) (h0 : rev 0 = 0) (h1 : rev 1 = 1)
    (hadd : ∀ a b, rev (a + b) = rev a + rev b) (hmul : ∀ a b, rev (a * b) = rev b * rev a)
    (hz : ∀ a : W, a * 0 = 0) (hexact : ∀ a b, eqv a b = true ↔ b = a) (hsf : sf.right = true)
    (hidf : sf.idempotent = true → ∀ a : W, a + a = a) (hw : f.WF) (ht : f.Truthful)
    (hcase : f.NoCycles (fun _ => true) ∨ ((∀ a : W, a + a = a) ∧ f.CyclesAbsorbedLeft (fun _ => true))) :
    ∃ l, EndsWith (f.shortestDistanceRev rev back sf eqv) (.ok l) ∧
      ∀ q, q < f.numStates → f.IsFinalDistance (fun _ => true) q (l[q]?.getD 0) := by
  obtain ⟨o, ho, hn, hs, t0, ts, -, -, -⟩ := reverse_spec rev f hw.next_lt
  obtain ⟨o', ho', hwo, -⟩ := C17_structure rev f hw
  rw [ho] at ho'; cases ho'
  obtain ⟨o', ho', hto⟩ := C17_flags rev (fun w => ⟨fun h => by rw [← hback w, h, ← h0, hback], fun h => by rw [h, h0]⟩)
    (fun w => ⟨fun h => by rw [← hback w, h, ← h1, hback], fun h => by rw [h, h1]⟩) f hw ht
  rw [ho] at ho'; cases ho'
  have hzv : ∀ v : V, 0 * v = 0 := by
    intro v
    rw [← hrev v, ← h0, ← hmul, hz]
  have hidv : (∀ a : W, a + a = a) → ∀ v : V, v + v = v := by
    intro h v
    rw [← hrev v, ← hadd, h]
  have hnozero : ∀ n c, (0, c) ∉ o.walks (fun _ => true) (n + 1) 0 := by
    intro n c hc
    obtain ⟨s, a, -, t, htm, -, hn0, -⟩ := (o.mem_walks_succ' _).1 hc
    cases s with
    | zero =>
      rw [t0, revFinals, List.mem_flatMap] at htm
      obtain ⟨i, -, htm⟩ := htm
      cases h : f.finOf i with
      | none => rw [h] at htm; cases htm
      | some w =>
        rw [h] at htm
        obtain rfl := List.mem_singleton.1 htm
        simp at hn0
    | succ s =>
      have hsl := lt_of_mem_trsOf htm
      rw [ts s (by omega), revList, List.mem_flatMap] at htm
      obtain ⟨i, -, htm⟩ := htm
      obtain ⟨t', -, rfl⟩ := List.mem_map.1 htm
      simp [revTr] at hn0
  have hcycle : ∀ n s v, (s, v) ∈ o.walks (fun _ => true) (n + 1) s →
      ∃ y w, (y, w) ∈ f.walks (fun _ => true) (n + 1) y ∧ v = rev w := by
    intro n s v hv
    cases s with
    | zero => exact absurd hv (hnozero n v)
    | succ s =>
      have hsl : s < f.numStates := by
        obtain ⟨t, htm, -⟩ := (o.mem_walks_succ _).1 hv
        have := lt_of_mem_trsOf htm
        omega
      obtain ⟨y, w, hy, -, rfl, hwk⟩ := walks_reverse hmul h1 ts hsl hv
      obtain rfl : s = y := by omega
      exact ⟨s, w, hwk, rfl⟩
  obtain ⟨l, ⟨N, hN⟩, hl⟩ := C32_shortest_distance (sf := sf) hzv hexact hsf (fun h => hidv (hidf h)) hwo hto hs (by
    rcases hcase with h | ⟨hid, h⟩
    · left
      intro n s v hv
      obtain ⟨y, w, hyw, -⟩ := hcycle n s v hv
      exact h n y w hyw
    · right
      refine ⟨hidv hid, fun n s v hv a => ?_⟩
      obtain ⟨y, w, hyw, rfl⟩ := hcycle n s v hv
      rw [← hrev a, ← hmul, ← hadd, h n y w hyw])
  refine ⟨l.tail.map back, ⟨N, fun n hn => ?_⟩, fun q hq => ?_⟩
  · unfold Fst.shortestDistanceRev
    simp only [ho, hN n hn]
  · obtain ⟨M, hM⟩ := hl (q + 1)
    have hg : (l.tail.map back)[q]?.getD 0 = back (l[q + 1]?.getD 0) := by
      rw [List.getElem?_map, List.getElem?_tail]
      cases l[q + 1]? with
      | none => simpa [← h0] using (hback 0).symm
      | some v => rfl
    refine ⟨M, fun n hn => ?_⟩
    have h2 := hM (n + 1) (by omega)
    rw [Finset.sum_range_succ' (fun k => o.walkSum (fun _ => true) k 0 (q + 1)), walkSum_zero, if_neg (by omega), add_zero] at h2
    have h3 : ∀ m, ∑ k ∈ Finset.range m, o.walkSum (fun _ => true) (k + 1) 0 (q + 1) =
        rev (∑ k ∈ Finset.range m, f.finalSum (fun _ => true) k q) := by
      intro m
      induction m with
      | zero => simp [h0]
      | succ m ih =>
        rw [Finset.sum_range_succ, Finset.sum_range_succ, ih, hadd,
          (walkSum_reverse h0 hadd hmul hz hzv hw hwo (by omega) t0 ts m).2 q hq]
    rw [h3] at h2
    rw [hg, ← h2, hback]

/-- A tropical weight that is not negative. -/
def TW.Nonneg {K : Type u} [LE K] [Zero K] : TW K → Prop
  | .negInf => False
  | .fin x => 0 ≤ x
  | .inf => True

theorem TW.nonneg_absorbed {K : Type u} [LinearOrder K] [AddCommMonoid K] [IsOrderedAddMonoid K] {c : TW K} (h : c.Nonneg) (a : TW K) :
    a + a * c = a := by
  change TW.plus a (TW.times a c) = a
  cases c with
  | negInf => exact absurd h id
  | inf => simp
  | fin x =>
    cases a with
    | negInf => simp
    | inf => simp
    | fin y =>
      have h : 0 ≤ x := h
      simp only [TW.fin_fin, TW.plus_fin]
      rw [min_eq_left (le_add_of_nonneg_right h)]

theorem TW.cyclesAbsorbed_keep {K : Type u} [LinearOrder K] [AddCommMonoid K] [IsOrderedAddMonoid K] {f : Fst (TW K)} (keep : Tr (TW K) → Bool)
    (hpos : ∀ s, ∀ t ∈ f.trsOf s, keep t = true → t.weight.Nonneg) : f.CyclesAbsorbed keep := by
  have hmul : ∀ a b : TW K, a.Nonneg → b.Nonneg → (a * b).Nonneg := by
    intro a b ha hb
    change (TW.times a b).Nonneg
    cases a <;> cases b <;> first | exact absurd ha id | exact absurd hb id | trivial | exact add_nonneg ha hb
  have hall : ∀ n s x c, (x, c) ∈ f.walks keep n s → c.Nonneg := by
    intro n
    induction n with
    | zero =>
      intro s x c hc
      obtain ⟨-, rfl⟩ := (f.mem_walks_zero _).1 hc
      exact le_refl (0 : K)
    | succ n ih =>
      intro s x c hc
      obtain ⟨t, htm, hk, v, hv, rfl⟩ := (f.mem_walks_succ _).1 hc
      exact hmul _ _ (hpos s t htm hk) (ih _ _ _ hv)
  exact fun n s c hc a => TW.nonneg_absorbed (hall _ _ _ _ hc) a

theorem TW.cyclesAbsorbed {K : Type u} [LinearOrder K] [AddCommMonoid K] [IsOrderedAddMonoid K] {f : Fst (TW K)}
    (hpos : ∀ s, ∀ t ∈ f.trsOf s, t.weight.Nonneg) : f.CyclesAbsorbed (fun _ => true) :=
  TW.cyclesAbsorbed_keep _ fun s t ht _ => hpos s t ht

/-- C32 for tropical weights: when no transition weight is negative, the distances are the least path weights. -/
theorem C32_tropical {K : Type u} [LinearOrder K] [AddCommMonoid K] [IsOrderedAddMonoid K] {eqv : TW K → TW K → Bool} {f : Fst (TW K)}
    (hexact : ∀ a b, eqv a b = true ↔ b = a) (hw : f.WF) (ht : f.Truthful) {i : StateId} (hi : f.start = some i)
    (hpos : ∀ s, ∀ t ∈ f.trsOf s, t.weight.Nonneg) :
    ∃ l, EndsWith (f.shortestDistance (TW.ops (K := K)).flags eqv) (.ok l) ∧ DistanceVector f (fun _ => true) i l := by
  have hid : ∀ a : TW K, a + a = a := fun a => by
    change TW.plus a a = a
    cases a <;> simp [TW.plus_fin]
  exact C32_shortest_distance (fun a => zero_mul a) hexact rfl (fun _ => hid) hw ht hi (.inr ⟨hid, TW.cyclesAbsorbed hpos⟩)

/-! ## The hypotheses are met -/

/-- The FST of the documentation (shortest_distance.rs 276-300). -/
def exDoc : Fst Nat := (((((Fst.new.addStates 3).setStart 0).addTr 0 ⟨32, 23, 18, 1⟩).addTr 0 ⟨32, 23, 21, 2⟩).addTr 1 ⟨32, 23, 55, 2⟩)

/-- … and what the documentation says. -/
example : exDoc.shortestDistance ⟨true, true, true, false, false⟩ (fun a b => a == b) 10 = some (.ok [1, 18, 21 + 18 * 55]) := by
  decide +kernel

/-- When every transition goes to a state with a larger rank there is no cycle. -/
theorem noCycles_of_ord {W : Type u} [Monoid W] {f : Fst W} {keep : Tr W → Bool} (ord : StateId → Nat)
    (h : ∀ s, ∀ t ∈ f.trsOf s, ord s < ord t.nextstate) : f.NoCycles keep := by
  have key : ∀ n p x w, (x, w) ∈ f.walks keep n p → ord p + n ≤ ord x := by
    intro n
    induction n with
    | zero => intro p x w hx; obtain ⟨rfl, -⟩ := (f.mem_walks_zero _).1 hx; omega
    | succ n ih =>
      intro p x w hx
      obtain ⟨t, ht, -, v, hv, -⟩ := (f.mem_walks_succ _).1 hx
      have := h p t ht
      have := ih _ _ _ hv
      omega
  intro n s c hc
  have := key _ _ _ _ hc
  omega

example : ∃ l, EndsWith (exDoc.shortestDistance ⟨true, true, true, false, false⟩ (fun a b => a == b)) (.ok l) ∧
    DistanceVector exDoc (fun _ => true) 0 l := by
  refine C32_shortest_distance (by simp) (fun a b => by rw [beq_iff_eq]; exact eq_comm) rfl (fun h => by cases h) (Fst.wf_of_wfB (by decide)) ?_ rfl (.inl (noCycles_of_ord id ?_))
  · unfold exDoc
    refine truthful_addTr (truthful_addTr (truthful_addTr (truthful_setStart
      (truthful_addStates truthful_new 3) 0) ?_ _) ?_ _) ?_ _ <;> decide
  · intro s
    by_cases hs : s < 3
    · have : ∀ s < 3, ∀ t ∈ exDoc.trsOf s, id s < id t.nextstate := by decide +kernel
      exact this s hs
    · rw [trsOf_eq, List.getElem?_eq_none (show exDoc.states.length ≤ s from Nat.le_of_not_lt hs)]
      intro t ht; cases ht

/-- A tropical FST with a cycle (0 → 1 → 0), a self-loop and two ways to reach state 2. -/
def exTropCyc : Fst (TW Nat) :=
  ((((((Fst.new.addStates 3).setStart 0).addTr 0 ⟨1, 1, .fin 4, 1⟩).addTr 1 ⟨1, 1, .fin 1, 0⟩).addTr 1 ⟨1, 1, .fin 2, 1⟩).addTr 1 ⟨1, 1, .fin 1, 2⟩).addTr
    0 ⟨1, 1, .fin 7, 2⟩

example : exTropCyc.shortestDistance (TW.ops (K := Nat)).flags (fun a b => decide (b = a)) 20 = some (.ok [.fin 0, .fin 4, .fin 5]) := by
  decide +kernel

example : ∃ l, EndsWith (exTropCyc.shortestDistance (TW.ops (K := Nat)).flags (fun a b => decide (b = a))) (.ok l) ∧
    DistanceVector exTropCyc (fun _ => true) 0 l := by
  refine C32_tropical (by simp) (Fst.wf_of_wfB (by decide)) ?_ rfl ?_
  · unfold exTropCyc
    refine truthful_addTr (truthful_addTr (truthful_addTr (truthful_addTr (truthful_addTr (truthful_setStart
      (truthful_addStates truthful_new 3) 0) ?_ _) ?_ _) ?_ _) ?_ _) ?_ _ <;> decide
  · have h : ∀ s, ∀ t ∈ exTropCyc.trsOf s, t.weight ≠ TW.negInf := by
      intro s
      by_cases hs : s < 3
      · have : ∀ s < 3, ∀ t ∈ exTropCyc.trsOf s, t.weight ≠ TW.negInf := by decide +kernel
        exact this s hs
      · rw [trsOf_eq, List.getElem?_eq_none (show exTropCyc.states.length ≤ s from Nat.le_of_not_lt hs)]
        intro t ht; cases ht
    intro s t ht
    have := h s t ht
    generalize t.weight = w at this
    cases w with
    | negInf => exact absurd rfl this
    | fin x => exact Nat.zero_le x
    | inf => trivial

/-! ## What fails -/

/-- Defect: after a self-loop has improved the distance of the state being expanded, the states reached by its later transitions are
not enqueued, because line 221 tests `enqueued[state]` and not `enqueued[nextstate]`. Over the probability semiring with a positive
`delta` the state 2 is never reached here, though a path of weight 1/2 leads to it. -/
def exSelf : Fst ℚ := ((((Fst.new.addStates 3).setStart 0).addTr 0 ⟨1, 1, 1 / 2, 0⟩).addTr 0 ⟨1, 1, 1 / 2, 1⟩).addTr 1 ⟨1, 1, 1, 2⟩

theorem C32_self_loop_defect :
    exSelf.WF ∧ exSelf.shortestDistance ⟨true, true, true, false, false⟩ (fun a b => decide (|a - b| ≤ 1 / 4)) 10 = some (.ok [3 / 2, 1 / 2]) ∧
    (2, (1 / 2 : ℚ)) ∈ exSelf.walks (fun _ => true) 2 0 := by
  refine ⟨Fst.wf_of_wfB (by decide +kernel), by decide +kernel, by decide +kernel⟩

end Verif
