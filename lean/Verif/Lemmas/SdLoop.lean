import Verif.Model.ShortestDistance
import Verif.Spec.Queue
import Verif.Lemmas.AutoQueue
import Mathlib.Algebra.Ring.Defs

/-! # The loop of the shortest-distance algorithm, seen through the distances it stands for -/

namespace Verif
universe u v
set_option linter.unusedSectionVars false

namespace Sd
open SdState Dfs
variable {W : Type u} {Q : Type v} [AddCommMonoid W] [Monoid W]

/-- The vectors hold a value for `n` that belongs to the current source. -/
def Seen (e : SdEnv W Q) (st : SdState W Q) (n : Nat) : Prop := e.retain = true → st.sources n = some st.sourceId

/-- The state stands for the distances `d` and the pending parts `r`. -/
structure View (e : SdEnv W Q) (st : SdState W Q) (d r : Nat → W) : Prop where
  dist : ∀ n, Seen e st n → st.dist n = d n
  rad : ∀ n, Seen e st n → st.radder n = r n
  add : ∀ n, Seen e st n → st.adder n = st.dist n
  unseen : ∀ n, ¬ Seen e st n → d n = 0 ∧ r n = 0
  beyond : ∀ n, st.len ≤ n → d n = 0

/-- What a step leaves alone. -/
structure Le (e : SdEnv W Q) (st st' : SdState W Q) : Prop where
  len : st.len ≤ st'.len
  seen : ∀ n, Seen e st n → Seen e st' n
  sid : st'.sourceId = st.sourceId
  src : ∀ n k, st'.sources n = some k → st.sources n = some k ∨ k = st.sourceId

theorem Le.refl (e : SdEnv W Q) (st : SdState W Q) : Le e st st := ⟨le_rfl, fun _ h => h, rfl, fun _ _ h => .inl h⟩
theorem Le.trans {e : SdEnv W Q} {a b c : SdState W Q} (h : Le e a b) (h' : Le e b c) : Le e a c :=
  ⟨h.len.trans h'.len, fun n hn => h'.seen n (h.seen n hn), h'.sid.trans h.sid, fun n k hn => by
    rcases h'.src n k hn with hn | hn
    · exact h.src n k hn
    · exact .inr (hn.trans h.sid)⟩

variable {e : SdEnv W Q} {st : SdState W Q} {d r : Nat → W}

theorem refresh_spec (h : View e st d r) (n : Nat) :
    View e ((st.ensure n).refresh e n) d r ∧ Le e st ((st.ensure n).refresh e n) ∧ Seen e ((st.ensure n).refresh e n) n ∧
      n < ((st.ensure n).refresh e n).len ∧ ((st.ensure n).refresh e n).queue = st.queue ∧
      ∀ s, Seen e st s → ((st.ensure n).refresh e n).enq s = st.enq s := by
  unfold SdState.refresh
  by_cases hc : e.retain = true ∧ (st.ensure n).sources n ≠ some (st.ensure n).sourceId
  · rw [if_pos hc]
    obtain ⟨hr, hne⟩ := hc
    have hne : st.sources n ≠ some st.sourceId := hne
    have hun : ¬ Seen e st n := fun hs => hne (hs hr)
    obtain ⟨hd0, hr0⟩ := h.unseen n hun
    have hiff : ∀ m, m ≠ n → (Seen e ⟨(st.ensure n).queue, (st.ensure n).len, upd (st.ensure n).dist n 0, upd (st.ensure n).adder n 0,
        upd (st.ensure n).radder n 0, upd (st.ensure n).enq n false,
        upd (st.ensure n).sources n (some (st.ensure n).sourceId), (st.ensure n).sourceId⟩ m ↔ Seen e st m) := by
      intro m hm
      simp [Seen, upd, hm, SdState.ensure]
    refine ⟨⟨?_, ?_, ?_, ?_, ?_⟩, ⟨?_, ?_, rfl, ?_⟩, ?_, ?_, rfl, ?_⟩
    · intro m hm
      by_cases hmn : m = n
      · subst hmn; simp [upd, hd0]
      · simp only [upd, hmn, if_false]
        exact h.dist m ((hiff m hmn).1 hm)
    · intro m hm
      by_cases hmn : m = n
      · subst hmn; simp [upd, hr0]
      · simp only [upd, hmn, if_false]
        exact h.rad m ((hiff m hmn).1 hm)
    · intro m hm
      by_cases hmn : m = n
      · subst hmn; simp [upd]
      · simp only [upd, hmn, if_false]
        exact h.add m ((hiff m hmn).1 hm)
    · intro m hm
      by_cases hmn : m = n
      · subst hmn; exact ⟨hd0, hr0⟩
      · exact h.unseen m (fun hs => hm ((hiff m hmn).2 hs))
    · intro m hm
      refine h.beyond m (le_trans ?_ hm)
      exact le_max_left _ _
    · exact le_max_left _ _
    · intro m hm
      by_cases hmn : m = n
      · intro _; simp [upd, hmn]
      · exact (hiff m hmn).2 hm
    · intro m k hm
      by_cases hmn : m = n
      · right; subst hmn; simpa [upd, SdState.ensure] using hm.symm
      · left; simpa [upd, hmn, SdState.ensure] using hm
    · intro _; simp [upd]
    · change n < max st.len (n + 1)
      omega
    · intro s hs
      have : s ≠ n := fun hsn => hun (hsn ▸ hs)
      simp [upd, this, SdState.ensure]
  · rw [if_neg hc]
    have hc' : e.retain = true → st.sources n = some st.sourceId := by
      intro hr
      by_contra hne
      exact hc ⟨hr, hne⟩
    refine ⟨⟨h.dist, h.rad, h.add, h.unseen, ?_⟩, ⟨le_max_left _ _, fun _ h => h, rfl, fun _ _ h => .inl h⟩, hc', ?_, rfl, fun _ _ => rfl⟩
    · intro m hm
      refine h.beyond m (le_trans ?_ hm)
      exact le_max_left _ _
    · change n < max st.len (n + 1)
      omega

/-- What is proved about the algorithm by following the distances it stands for. -/
structure Alg (f : Fst W) (keep : Tr W → Bool) (after : StateId → StateId → Prop) where
  I : Option StateId → Set StateId → (Nat → W) → (Nat → W) → Prop
  J : StateId → W → List (Tr W) → Set StateId → (Nat → W) → (Nat → W) → Prop
  rank : Option StateId → (Nat → W) → (Nat → W) → Nat → Nat
  rankJ : StateId → W → List (Tr W) → (Nat → W) → (Nat → W) → Nat → Nat
  mono : ∀ {s a l d r k k'}, k ≤ k' → rankJ s a l d r k ≤ rankJ s a l d r k'
  start : ∀ {c S d r s S'}, I c S d r → s ∈ S → S' ⊆ S → S ⊆ S' ∪ {s} → (∀ x ∈ S', after s x) →
    J s (r s) [] S' d (upd r s 0) ∧ ∀ k k', k' < k → rankJ s (r s) [] d (upd r s 0) k' < rank c d r k
  skip : ∀ {s a l S d r t m}, J s a l S d r → f.trsOf s = l ++ t :: m →
    (keep t = false ∨ d t.nextstate + a * t.weight = d t.nextstate) →
    J s a (l ++ [t]) S d r ∧ ∀ k, rankJ s a (l ++ [t]) d r k ≤ rankJ s a l d r k
  step : ∀ {s a l S d r t m}, J s a l S d r → f.trsOf s = l ++ t :: m → keep t = true →
    d t.nextstate + a * t.weight ≠ d t.nextstate →
    t.nextstate ≠ s ∧ J s a (l ++ [t]) (S ∪ {t.nextstate}) (upd d t.nextstate (d t.nextstate + a * t.weight))
      (upd r t.nextstate (r t.nextstate + a * t.weight)) ∧
    ∀ k, rankJ s a (l ++ [t]) (upd d t.nextstate (d t.nextstate + a * t.weight)) (upd r t.nextstate (r t.nextstate + a * t.weight)) (k + 1) ≤
      rankJ s a l d r k
  finish : ∀ {s a S d r}, J s a (f.trsOf s) S d r → I (some s) S d r ∧ ∀ k, rank (some s) d r k ≤ rankJ s a (f.trsOf s) d r k

variable {f : Fst W} {after : StateId → StateId → Prop}

/-- The invariant of the loop. -/
structure Inv (L : QueueLaw e.ops (EdgeOk f e.keep) after) (st : SdState W Q) (c : Option StateId) (S : Set StateId) (d r : Nat → W) :
    Prop where
  view : View e st d r
  rep : L.Rep c st.queue S
  known : ∀ x ∈ S, Seen e st x ∧ x < st.len ∧ x < f.numStates

variable {L : QueueLaw e.ops (EdgeOk f e.keep) after}

/-- The transitions of the state have been followed: their targets are known. -/
def Expanded (e : SdEnv W Q) (f : Fst W) (st : SdState W Q) (x : StateId) : Prop :=
  ∀ t ∈ f.trsOf x, e.keep t = true → Seen e st t.nextstate ∧ t.nextstate < st.len

theorem Expanded.mono {f : Fst W} {st st' : SdState W Q} {x : StateId} (h : Expanded e f st x) (hl : Le e st st') : Expanded e f st' x :=
  fun t ht hk => ⟨hl.seen _ (h t ht hk).1, lt_of_lt_of_le (h t ht hk).2 hl.len⟩

theorem relaxAll_spec (hw : f.WF) (hex : ∀ a b, e.eqv a b = true ↔ b = a) (A : Alg f e.keep after) {s : StateId} {a : W} :
    ∀ (m l : List (Tr W)) (st : SdState W Q) (S : Set StateId) (d r : Nat → W), f.trsOf s = l ++ m →
      Inv L st (some s) S d r → Seen e st s → st.enq s = false → A.J s a l S d r →
      (∀ x, d x ≠ 0 → x ∈ S ∨ Expanded e f st x ∨ x = s) →
      ∃ st' S' d' r', relaxAll e s a st m = .ok st' ∧ Inv L st' (some s) S' d' r' ∧ Le e st st' ∧ A.J s a (l ++ m) S' d' r' ∧
        A.rankJ s a (l ++ m) d' r' (L.size st'.queue) ≤ A.rankJ s a l d r (L.size st.queue) ∧
        (∀ t ∈ m, e.keep t = true → Seen e st' t.nextstate ∧ t.nextstate < st'.len) ∧
        (∀ x, d' x ≠ 0 → x ∈ S' ∨ Expanded e f st' x ∨ x = s)
  | [], l, st, S, d, r, hm, hI, hs, hq, hJ, hX => ⟨st, S, d, r, rfl, hI, Le.refl e st, by simpa using hJ, by simp, by simp, hX⟩
  | t :: m, l, st, S, d, r, hm, hI, hs, hq, hJ, hX => by
    have hmem : t ∈ f.trsOf s := by rw [hm]; simp
    have hm' : f.trsOf s = (l ++ [t]) ++ m := by rw [hm]; simp
    by_cases hk : e.keep t = true
    · obtain ⟨hv, hle, hsn, hln, hqq, henq⟩ := refresh_spec hI.view t.nextstate
      obtain ⟨st1, hst1⟩ : ∃ st1, st1 = (st.ensure t.nextstate).refresh e t.nextstate := ⟨_, rfl⟩
      rw [← hst1] at hv hle hsn hln hqq henq
      by_cases habs : d t.nextstate + a * t.weight = d t.nextstate
      · have e1 : st.relax e s a t = .ok st1 := by
          unfold SdState.relax
          rw [if_pos hk]
          simp only [← hst1]
          rw [if_pos]
          rw [hex, hv.dist _ hsn]
          exact habs
        have hI1 : Inv L st1 (some s) S d r := ⟨hv, by rw [hqq]; exact hI.rep, fun x hx =>
          ⟨hle.seen x (hI.known x hx).1, lt_of_lt_of_le (hI.known x hx).2.1 hle.len, (hI.known x hx).2.2⟩⟩
        obtain ⟨st', S', d', r', h1, h2, h3, h4, h5, h6, h7⟩ := relaxAll_spec hw hex A m (l ++ [t]) st1 S d r hm' hI1 (hle.seen s hs)
          (by rw [henq s hs]; exact hq) (A.skip hJ hm (.inr habs)).1
          (fun x hx => (hX x hx).imp id (Or.imp (fun h => h.mono hle) id))
        refine ⟨st', S', d', r', ?_, h2, hle.trans h3, by simpa using h4, by rw [hqq] at h5; simpa using h5.trans ((A.skip hJ hm (.inr habs)).2 _), ?_, h7⟩
        · simp only [relaxAll, e1, h1]
        · intro u hu hku
          rcases List.mem_cons.1 hu with rfl | hu
          · exact ⟨h3.seen _ hsn, lt_of_lt_of_le hln h3.len⟩
          · exact h6 u hu hku
      · obtain ⟨hne, hJ', hrank⟩ := A.step hJ hm hk habs
        have hlt : t.nextstate < f.numStates := hw.next_lt s t hmem
        have hok : EdgeOk f e.keep (some s) t.nextstate := ⟨hlt, fun v hv => by cases hv; exact ⟨t, hmem, hk, rfl⟩⟩
        obtain ⟨q', eq', hrep', hsize⟩ := L.enqueue hI.rep hok
        obtain ⟨st2, hst2⟩ : ∃ st2 : SdState W Q, st2 = ⟨q', st1.len,
            upd st1.dist t.nextstate (st1.adder t.nextstate + a * t.weight),
            upd st1.adder t.nextstate (st1.adder t.nextstate + a * t.weight),
            upd st1.radder t.nextstate (st1.radder t.nextstate + a * t.weight),
            upd st1.enq t.nextstate true, st1.sources, st1.sourceId⟩ := ⟨_, rfl⟩
        have e1 : st.relax e s a t = .ok st2 := by
          unfold SdState.relax
          rw [if_pos hk]
          simp only [← hst1]
          rw [if_neg]
          · unfold SdState.improve
            rw [henq s hs, hq, hqq]
            simp only [Bool.not_false, if_true, eq', hst2]
          · rw [hex, hv.dist _ hsn]
            exact habs
        have hseen : ∀ n, Seen e st2 n ↔ Seen e st1 n := by
          intro n; rw [hst2]; rfl
        have hlen : st2.len = st1.len := by rw [hst2]
        have hqq2 : st2.queue = q' := by rw [hst2]
        have hI2 : Inv L st2 (some s) (S ∪ {t.nextstate}) (upd d t.nextstate (d t.nextstate + a * t.weight))
            (upd r t.nextstate (r t.nextstate + a * t.weight)) := by
          refine ⟨⟨?_, ?_, ?_, ?_, ?_⟩, by rw [hqq2]; exact hrep', ?_⟩
          · intro n hn
            rw [hseen] at hn
            rw [hst2]
            by_cases hnn : n = t.nextstate
            · subst hnn; simp [upd, hv.add _ hsn, hv.dist _ hsn]
            · simp [upd, hnn, hv.dist _ hn]
          · intro n hn
            rw [hseen] at hn
            rw [hst2]
            by_cases hnn : n = t.nextstate
            · subst hnn; simp [upd, hv.rad _ hsn]
            · simp [upd, hnn, hv.rad _ hn]
          · intro n hn
            rw [hseen] at hn
            rw [hst2]
            by_cases hnn : n = t.nextstate
            · subst hnn; simp [upd]
            · simp [upd, hnn, hv.add _ hn]
          · intro n hn
            rw [hseen] at hn
            by_cases hnn : n = t.nextstate
            · subst hnn; exact absurd hsn hn
            · simp [upd, hnn, hv.unseen n hn]
          · intro n hn
            rw [hlen] at hn
            have : n ≠ t.nextstate := by omega
            simp [upd, this, hv.beyond n hn]
          · intro x hx
            rw [hseen, hlen]
            rcases hx with hx | hx
            · exact ⟨hle.seen x (hI.known x hx).1, lt_of_lt_of_le (hI.known x hx).2.1 hle.len, (hI.known x hx).2.2⟩
            · cases hx; exact ⟨hsn, hln, hlt⟩
        have hle2 : Le e st st2 := ⟨by rw [hlen]; exact hle.len, fun n hn => (hseen n).2 (hle.seen n hn),
          by rw [hst2]; exact hle.sid, by rw [hst2]; exact hle.src⟩
        obtain ⟨st', S', d', r', h1, h2, h3, h4, h5, h6, h7⟩ := relaxAll_spec hw hex A m (l ++ [t]) st2 _ _ _ hm' hI2 (hle2.seen s hs)
          (by rw [hst2]; simp only [upd]; rw [if_neg (Ne.symm hne), henq s hs, hq]) hJ'
          (fun x hx => by
            by_cases hxn : x = t.nextstate
            · exact .inl (.inr hxn)
            · simp only [upd, hxn, if_false] at hx
              exact (hX x hx).imp .inl (Or.imp (fun h => h.mono hle2) id))
        refine ⟨st', S', d', r', ?_, h2, hle2.trans h3, by simpa using h4, ?_, ?_, h7⟩
        · simp only [relaxAll, e1, h1]
        · refine le_trans (by simpa using h5) ?_
          rw [hqq2]
          exact (A.mono hsize).trans (hrank _)
        · intro u hu hku
          rcases List.mem_cons.1 hu with rfl | hu
          · exact ⟨h3.seen _ ((hseen _).2 hsn), lt_of_lt_of_le (hlen ▸ hln) h3.len⟩
          · exact h6 u hu hku
    · have hk : e.keep t = false := by simpa using hk
      have e1 : st.relax e s a t = .ok st := by
        unfold SdState.relax
        rw [hk]; rfl
      obtain ⟨st', S', d', r', h1, h2, h3, h4, h5, h6, h7⟩ := relaxAll_spec hw hex A m (l ++ [t]) st S d r hm' hI hs hq (A.skip hJ hm (.inl hk)).1 hX
      refine ⟨st', S', d', r', ?_, h2, h3, by simpa using h4, by simpa using h5.trans ((A.skip hJ hm (.inl hk)).2 _), ?_, h7⟩
      · simp only [relaxAll, e1, h1]
      · intro u hu hku
        rcases List.mem_cons.1 hu with rfl | hu
        · rw [hk] at hku; cases hku
        · exact h6 u hu hku

theorem loop_spec (hw : f.WF) (hex : ∀ a b, e.eqv a b = true ↔ b = a) (A : Alg f e.keep after) :
    ∀ (k : Nat) (st : SdState W Q) (c : Option StateId) (S : Set StateId) (d r : Nat → W),
      A.rank c d r (L.size st.queue) < k → Inv L st c S d r → A.I c S d r → (∀ x, d x ≠ 0 → x ∈ S ∨ Expanded e f st x) →
      ∃ st' c' d' r', st.loop e f k = some (.ok st') ∧ Inv L st' c' ∅ d' r' ∧ A.I c' ∅ d' r' ∧ Le e st st' ∧
        ∀ x, d' x ≠ 0 → Expanded e f st' x := by
  intro k
  induction k with
  | zero => intro st c S d r hk; omega
  | succ k ih =>
    intro st c S d r hk hI hA hX
    rcases L.dequeue hI.rep with ⟨s, q, S', eq, hs, hrep, hsub, hsup, hafter, hsize⟩ | ⟨q, eq, hS, hrep⟩
    · obtain ⟨hsn, hsl, hsf⟩ := hI.known s hs
      obtain ⟨hJ, hrank⟩ := A.start hA hs hsub hsup hafter
      rw [← hI.view.rad s hsn] at hJ hrank
      have htrs : f.getTrsR s = .ok (f.trsOf s) := by
        unfold Fst.getTrsR
        rw [Fst.trsOf_eq]
        cases hg : f.states[s]? with
        | none =>
          rw [List.getElem?_eq_none_iff] at hg
          exact absurd hsf (by unfold Fst.numStates; omega)
        | some st => rfl
      obtain ⟨st1, hst1⟩ : ∃ st1 : SdState W Q, st1 = ⟨q, st.len, st.dist, st.adder, upd st.radder s 0, upd st.enq s false, st.sources,
        st.sourceId⟩ := ⟨_, rfl⟩
      have hseen : ∀ n, Seen e st1 n ↔ Seen e st n := by intro n; rw [hst1]; rfl
      have hle : Le e st st1 := ⟨by rw [hst1], fun n hn => (hseen n).2 hn, by rw [hst1], fun n k h => .inl (by rw [hst1] at h; exact h)⟩
      have hI1 : Inv L st1 (some s) S' d (upd r s 0) := by
        refine ⟨⟨?_, ?_, ?_, ?_, ?_⟩, by rw [hst1]; exact hrep, fun x hx => ?_⟩
        · intro n hn
          rw [hseen] at hn
          rw [hst1]; exact hI.view.dist n hn
        · intro n hn
          rw [hseen] at hn
          rw [hst1]
          by_cases hns : n = s
          · simp [upd, hns]
          · simp [upd, hns, hI.view.rad n hn]
        · intro n hn
          rw [hseen] at hn
          rw [hst1]; exact hI.view.add n hn
        · intro n hn
          rw [hseen] at hn
          have hns : n ≠ s := by rintro rfl; exact hn hsn
          simp [upd, hns, hI.view.unseen n hn]
        · intro n hn
          rw [hst1] at hn; exact hI.view.beyond n hn
        · obtain ⟨h1, h2, h3⟩ := hI.known x (hsub hx)
          exact ⟨(hseen x).2 h1, by rw [hst1]; exact h2, h3⟩
      obtain ⟨st2, S2, d2, r2, h1, h2, h3, h4, h5, h6, h7⟩ := relaxAll_spec hw hex A (f.trsOf s) [] st1 S' d (upd r s 0) rfl hI1
        ((hseen s).2 hsn) (by rw [hst1]; simp [upd]) hJ (fun x hx => by
          rcases hX x hx with hx | hx
          · exact (hsup hx).imp id .inr
          · exact .inr (.inl (hx.mono hle)))
      obtain ⟨hA2, hfin⟩ := A.finish (show A.J s (st.radder s) (f.trsOf s) S2 d2 r2 by simpa using h4)
      have hr2 : A.rank (some s) d2 r2 (L.size st2.queue) < k := by
        have hf := hfin (L.size st2.queue)
        rw [List.nil_append] at h5
        have := hrank (L.size st.queue) (L.size q) hsize
        have hq1 : st1.queue = q := by rw [hst1]
        rw [hq1] at h5
        omega
      obtain ⟨st3, c3, d3, r3, g1, g2, g3, g4, g5⟩ := ih st2 (some s) S2 d2 r2 hr2 h2 hA2 (fun x hx => by
        rcases h7 x hx with hx | hx | rfl
        · exact .inl hx
        · exact .inr hx
        · exact .inr h6)
      refine ⟨st3, c3, d3, r3, ?_, g2, g3, (hle.trans h3).trans g4, g5⟩
      unfold SdState.loop SdState.turn
      simp only [eq, hsl, if_true, htrs]
      rw [hst1] at h1
      simp only [h1, g1]
    · subst hS
      refine ⟨{ st with queue := q }, c, d, r, ?_, ⟨⟨hI.view.dist, hI.view.rad, hI.view.add, hI.view.unseen, hI.view.beyond⟩, hrep,
        fun x hx => absurd hx (Set.notMem_empty x)⟩, hA, ⟨le_rfl, fun _ h => h, rfl, fun _ _ h => .inl h⟩, ?_⟩
      · unfold SdState.loop SdState.turn
        simp only [eq]
      · intro x hx
        rcases hX x hx with hx | hx
        · exact absurd hx (Set.notMem_empty x)
        · exact hx

/-- The distances right after `prepare`. -/
def init (src : Nat) : Nat → W := upd (fun _ => 0) src 1

/-- No vector entry belongs to the coming source. -/
def Fresh (e : SdEnv W Q) (st : SdState W Q) : Prop := e.retain = true → ∀ n k, st.sources n = some k → k < st.sourceId

theorem prepare_spec {c : Option StateId} {S : Set StateId} (hrep : L.Rep c st.queue S) {src : Nat} (hsrc : src < f.numStates)
    (hold : Fresh e st) :
    ∃ st', st.prepare e src = .ok st' ∧ Inv L st' none {src} (init src) (init src) ∧ st'.sourceId = st.sourceId ∧
      (e.retain = true → ∀ n k, st'.sources n = some k → k ≤ st.sourceId) := by
  obtain ⟨q, hq, hr0, -⟩ := L.clear hrep
  obtain ⟨q', hq', hr1, -⟩ := L.enqueue (s := src) hr0 ⟨hsrc, fun v hv => by cases hv⟩
  rw [Set.empty_union] at hr1
  cases hret : e.retain with
  | false =>
    refine ⟨⟨q', max 0 (src + 1), upd (fun _ => 0) src 1, upd (fun _ => 0) src 1, upd (fun _ => 0) src 1, upd (fun _ => false) src true,
      st.sources, st.sourceId⟩, ?_, ⟨⟨?_, ?_, ?_, ?_, ?_⟩, hr1, ?_⟩, rfl, fun h => by cases h⟩
    · simp only [SdState.prepare, hq, hret, SdState.ensure, hq', Bool.false_eq_true, if_false]
    · intro n _; rfl
    · intro n _; rfl
    · intro n _; rfl
    · intro n hn; exact absurd (fun h => by rw [hret] at h; cases h) hn
    · intro n hn
      have : n ≠ src := by simp at hn; omega
      simp [init, upd, this]
    · intro x hx
      cases hx
      exact ⟨fun h => absurd (hret ▸ h) (by decide), by simp, hsrc⟩
  | true =>
    have hseen : ∀ n, Seen e (⟨q', max st.len (src + 1), upd st.dist src 1, upd st.adder src 1, upd st.radder src 1, upd st.enq src true,
      upd st.sources src (some st.sourceId), st.sourceId⟩ : SdState W Q) n ↔ n = src := by
      intro n
      constructor
      · intro h
        by_contra hne
        have := h hret
        simp only [upd, hne, if_false] at this
        exact absurd (hold hret n _ this) (lt_irrefl _)
      · rintro rfl _
        simp [upd]
    refine ⟨⟨q', max st.len (src + 1), upd st.dist src 1, upd st.adder src 1, upd st.radder src 1, upd st.enq src true,
      upd st.sources src (some st.sourceId), st.sourceId⟩, ?_, ⟨⟨?_, ?_, ?_, ?_, ?_⟩, hr1, ?_⟩, rfl, ?_⟩
    · simp only [SdState.prepare, hq, hret, SdState.ensure, hq', if_true]
    · intro n hn
      rw [hseen] at hn
      subst hn; simp [init, upd]
    · intro n hn
      rw [hseen] at hn
      subst hn; simp [init, upd]
    · intro n hn
      rw [hseen] at hn
      subst hn; simp [upd]
    · intro n hn
      rw [hseen] at hn
      simp [init, upd, hn]
    · intro n hn
      have : n ≠ src := by simp at hn; omega
      simp [init, upd, this]
    · intro x hx
      cases hx
      exact ⟨(hseen _).2 rfl, by simp, hsrc⟩
    · intro _ n k hn
      by_cases hns : n = src
      · subst hns; simp [upd] at hn; omega
      · simp [upd, hns] at hn
        exact (hold hret n k hn).le

/-- One call: with enough fuel it ends, and the vector it returns stands for the final distances. -/
theorem run_spec (hw : f.WF) (hex : ∀ a b, e.eqv a b = true ↔ b = a) (A : Alg f e.keep after) {c : Option StateId} {S : Set StateId}
    (hrep : L.Rep c st.queue S) {i : Nat} (hi : f.start = some i) (source : Option StateId)
    (hsrc : source.getD i < f.numStates) (hold : Fresh e st) {sf : SemiringFlags} (hsf : sf.right = true)
    (hA : A.I none {source.getD i} (init (source.getD i)) (init (source.getD i))) :
    ∃ fuel st' st'' c' d r, st.shortestDistance e sf f source fuel = some (.ok (st'.distances, st'')) ∧
      Inv L st' c' ∅ d r ∧ A.I c' ∅ d r ∧ (∀ x, d x ≠ 0 → Expanded e f st' x) ∧
      st''.queue = st'.queue ∧ Fresh e st'' := by
  obtain ⟨st1, e1, hI1, hid, hk⟩ := prepare_spec hrep hsrc hold
  obtain ⟨fuel, hfuel⟩ : ∃ k, k = A.rank none (init (source.getD i)) (init (source.getD i)) (L.size st1.queue) + 1 := ⟨_, rfl⟩
  obtain ⟨st2, c2, d2, r2, e2, hI2, hA2, hle, hX⟩ := loop_spec hw hex A fuel st1 none _ _ _ (by omega) hI1 hA
    (fun x hx => by
      left
      by_contra hne
      simp only [Set.mem_singleton_iff] at hne
      simp [init, upd, hne] at hx)
  refine ⟨fuel, st2, { st2 with sourceId := st2.sourceId + 1 }, c2, d2, r2, ?_, hI2, hA2, hX, rfl, ?_⟩
  · unfold SdState.shortestDistance
    simp only [hi, hsf, Bool.true_eq_false, if_false, e1]
    rw [e2]
  · intro hr n k hn
    have h1 := hle.sid
    have : st2.sources n = some k := hn
    simp only
    rcases hle.src n k this with h | h
    · have := hk hr n k h; omega
    · omega

/-- More turns than needed change nothing. -/
theorem loop_mono (e : SdEnv W Q) (f : Fst W) : ∀ (k m : Nat) (st : SdState W Q) (x), st.loop e f k = some x → k ≤ m → st.loop e f m = some x
  | 0, _, _, _, h, _ => by simp [SdState.loop] at h
  | k + 1, m, st, x, h, hm => by
    obtain ⟨m, rfl⟩ : ∃ m', m = m' + 1 := ⟨m - 1, by omega⟩
    simp only [SdState.loop] at h ⊢
    split at h
    · exact h
    · exact h
    · exact loop_mono e f k m _ x h (by omega)

theorem run_mono (e : SdEnv W Q) (f : Fst W) {sf : SemiringFlags} {source : Option StateId} {k m : Nat} {st : SdState W Q} {x}
    (h : st.shortestDistance e sf f source k = some x) (hm : k ≤ m) : st.shortestDistance e sf f source m = some x := by
  unfold SdState.shortestDistance at h ⊢
  cases hs : f.start with
  | none => simpa [hs] using h
  | some i =>
    simp only [hs] at h ⊢
    split
    · simpa [*] using h
    · rename_i hr
      rw [if_neg hr] at h
      cases hp : st.prepare e (source.getD i) with
      | error y => simpa [hp] using h
      | ok st1 =>
        simp only [hp] at h ⊢
        cases hl : st1.loop e f k with
        | none => simp [hl] at h
        | some y => rw [loop_mono e f k m st1 y hl hm]; simpa [hl] using h

end Sd
end Verif
