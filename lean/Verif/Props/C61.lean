import Verif.Lemmas.DetNonFunc
import Verif.Lemmas.DetFuncTotal
import Verif.Lemmas.DetDisamb
import Verif.Lemmas.ComputeOk
import Verif.Lemmas.Path

/-! # C61: determinization of transducers -/

namespace Verif
set_option linter.unusedSectionVars false
universe u
variable {W : Type u}

/-- A fuel-indexed pipeline of two loops and a conversion. -/
theorem via_ends {V : Type u} [Zero W] [One W] [DecidableEq W] [Zero V] [One V] [Mul V] [DecidableEq V] {mk : StrW × W → V} {extract : V → R (W × Label)}
    {o : DetOps V} {factors : V → List (V × V)} {quantize : V → R V} {ord : DTup V → Label → List (DElt V) → List (DElt V)} {f : Fst W} {g D H : Fst V} {F : Fst W}
    (distinct : Bool) (h1 : f.weightConvert (toGallic mk) = .ok g) (h2 : EndsWith (determinizeFsa g o ord) (.ok D))
    (h3 : EndsWith (factorWeight D factors quantize detFwOpts) (.ok H)) (h4 : H.weightConvert (fromGallic extract EPS) = .ok F) :
    EndsWith (determinizeT mk extract o factors quantize ord distinct f) (.ok (F.setProps (Props.determinize f.props false distinct))) := by
  obtain ⟨N1, e1⟩ := h2
  obtain ⟨N2, e2⟩ := h3
  refine ⟨N1 + N2, fun n hn => ?_⟩
  simp only [determinizeT, determinizeVia, h1, e1 n (by omega), e2 n (by omega), h4]

/-- What the pipeline returns, step by step. -/
theorem via_out {V : Type u} [Zero W] [One W] [DecidableEq W] [Zero V] [One V] [Mul V] [DecidableEq V] {mk : StrW × W → V} {extract : V → R (W × Label)}
    {o : DetOps V} {factors : V → List (V × V)} {quantize : V → R V} {ord : DTup V → Label → List (DElt V) → List (DElt V)} {f F : Fst W} {n : Nat}
    {distinct : Bool} (h : determinizeT mk extract o factors quantize ord distinct f n = some (.ok F)) :
    ∃ g D H F', f.weightConvert (toGallic mk) = .ok g ∧ determinizeFsa g o ord n = some (.ok D) ∧ factorWeight D factors quantize detFwOpts n = some (.ok H) ∧
      H.weightConvert (fromGallic extract EPS) = .ok F' ∧ F = F'.setProps (Props.determinize f.props false distinct) := by
  cases h1 : f.weightConvert (toGallic mk) with
  | error e => simp only [determinizeT, determinizeVia, h1] at h; cases h
  | ok g =>
    match h2 : determinizeFsa g o ord n with
    | none => simp only [determinizeT, determinizeVia, h1, h2] at h; cases h
    | some (.error e) => simp only [determinizeT, determinizeVia, h1, h2] at h; cases h
    | some (.ok D) =>
      match h3 : factorWeight D factors quantize detFwOpts n with
      | none => simp only [determinizeT, determinizeVia, h1, h2, h3] at h; cases h
      | some (.error e) => simp only [determinizeT, determinizeVia, h1, h2, h3] at h; cases h
      | some (.ok H) =>
        match h4 : H.weightConvert (fromGallic extract EPS) with
        | .error e => simp only [determinizeT, determinizeVia, h1, h2, h3, h4] at h; cases h
        | .ok F' =>
          simp only [determinizeT, determinizeVia, h1, h2, h3, h4, Option.some.injEq, Except.ok.injEq] at h
          exact ⟨g, D, H, F', rfl, h2, h3, h4, h.symm⟩

/-- Two fuel-indexed loops that both stop give the same. -/
theorem endsWith_eq {α : Type*} {run : Nat → Option (R α)} {x : R α} (h : EndsWith run x) (hm : ∀ n m r, run n = some r → n ≤ m → run m = some r)
    {n : Nat} {r : R α} (hr : run n = some r) : r = x := by
  obtain ⟨N, hN⟩ := h
  have := hm n (n + N) r hr (by omega)
  rw [hN _ (by omega)] at this
  injection this with this
  exact this.symm

theorem determinizeFsa_ok_names {V : Type u} [Zero V] [One V] [Mul V] [DecidableEq V] {f D : Fst V} {o : DetOps V}
    {ord : DTup V → Label → List (DElt V) → List (DElt V)} {n : Nat} (h : determinizeFsa f o ord n = some (.ok D)) :
    o.leftSemiring = true ∧ f.props .acceptor = true ∧
      ∀ t, (detMachine f o ord).Reach t → (∃ as, detTrs f o ord t = .ok as) ∧ ∃ w, detFin f o t = .ok w := by
  unfold determinizeFsa at h
  split at h
  · cases h
  · rename_i h1
    split at h
    · cases h
    · rename_i h2
      refine ⟨by simpa using h1, by simpa [Props.has] using h2, ?_⟩
      match hc : Lz.compute mapCache ((detOp f o ord).withTable BiMap.findId BiMap.findTuple) n ⟨mapCache.empty, BiMap.new⟩ with
      | none => rw [hc] at h; cases h
      | some (r, z') =>
        rw [hc] at h
        simp only [Option.map_some, Option.some.injEq] at h
        subst h
        exact fun t ht => compute_no_error mapCache_law BiMap.law BiMap.findTuple_eq (detOp f o ord) rfl BiMap.ok_new (fun s => by simp [BiMap.tup, BiMap.new]) hc t ht

/-- If `determinizeFsa` succeeds, its result presents the machine of weighted subsets, which is finite and free of errors. -/
theorem det_fsa_ok {V : Type u} [Zero V] [One V] [Mul V] [DecidableEq V] {f D : Fst V} {o : DetOps V}
    {ord : DTup V → Label → List (DElt V) → List (DElt V)} {n : Nat} (h : determinizeFsa f o ord n = some (.ok D)) :
    D.WF ∧ D.AllCounters ∧ ∃ nm, (detMachine f o ord).Presents nm D := by
  obtain ⟨hl, hflag, hok⟩ := determinizeFsa_ok_names h
  obtain ⟨D', h1, h2, h3, h4⟩ := det_fsa_static hl hflag hok (det_fsa_finite hl hflag hok (by rw [h]; simp))
  have := endsWith_eq h1 (fun n m r h hle => det_fsa_mono h hle) h
  injection this with this
  subst this
  exact ⟨h2, h3, h4⟩

theorem SameWeightsDelayed.setProps [Semiring W] {f F : Fst W} (h : SameWeightsDelayed f F) (p : Props) : SameWeightsDelayed f (F.setProps p) := by
  obtain ⟨part, h1, h2⟩ := h
  exact ⟨part, fun m => by rw [← h1, Fst.accPaths_congr (f := F) (g := F.setProps p) rfl (fun _ => rfl) (fun _ => rfl)], h2⟩

section
variable [Semiring W] [DecidableEq W] {o : DetOps W} {good : W → Prop} {q : W → R W} {f : Fst W}
  {ord : DTup (GW W) → Label → List (DElt (GW W)) → List (DElt (GW W))}

/-- Without a final weight `0` the conversion to gallic weights succeeds. -/
theorem toGallic_ok {V : Type*} [Zero V] [One V] [DecidableEq V] (mk : StrW × W → V) (hz : ∀ s, f.finOf s ≠ some 0) : ∃ g, f.weightConvert (toGallic mk) = .ok g := by
  by_cases hs : f.start = none
  · exact ⟨_, C60_no_start f _ hs⟩
  · exact (C60_to_gallic f mk hs).1.2 hz

/-- The input of the determinization of a transducer. -/
structure DetTInput (f : Fst W) (good : W → Prop) : Prop where
  wf : f.WF
  weights : ∀ s, ∀ t ∈ f.trsOf s, good t.weight
  finals : ∀ s, f.finOf s ≠ some 0

/-- **C61**, `DeterminizeNonFunctional`, acyclic transducers: the determinization ends, and its result has at most one transition per state and input
label (`ε` aside) and gives each pair of strings the weight of the input, whatever the order of the hash maps. -/
theorem C61_nonfunctional (L : DivLaw o good) (hl : o.leftSemiring = true) (hq : q 1 = .ok 1) (ho : Orders ord) (hi : DetTInput f good) (hac : f.Holds .acyclic) :
    ∃ F, EndsWith (determinizeNF o q ord f) (.ok F) ∧ F.WF ∧ F.AllCounters ∧ F.InputDeterministicUpToEps ∧ SameWeightsDelayed f F := by
  obtain ⟨g, h1⟩ := toGallic_ok (V := GW W) GW.mk' hi.finals
  obtain ⟨hin, -, hacg⟩ := toGallic_input (good := GWGood good) h1 hi.wf fun s t ht => gwGood_single (hi.weights s t ht) (strip_clean _)
  obtain ⟨L', T'⟩ := gwDet_law L
  obtain ⟨D, d1, d2, -, nm, d4⟩ := det_fsa_static (f := g) (o := gwDet o) (ord := ord) hl hin.flag (fun t => det_no_error L' T' ho hin)
    (det_finite_acyclic L' ho hin.wf hin.weights (hacg hac))
  obtain ⟨H, F, e1, e2, e3, e4, e5, e6⟩ := nf_after L hq ho hi.wf hi.weights h1 d2 d4
  exact ⟨_, via_ends false h1 d1 e1 e2, ⟨e3.start_lt, e3.next_lt⟩, e4, e5, e6.setProps _⟩

/-- **C61**, `DeterminizeNonFunctional`: whatever is returned is such a result. -/
theorem C61_nonfunctional_returns (L : DivLaw o good) (hl : o.leftSemiring = true) (hq : q 1 = .ok 1) (ho : Orders ord) (hi : DetTInput f good) {n : Nat} {r : R (Fst W)}
    (h : determinizeNF o q ord f n = some r) :
    ∃ F, r = .ok F ∧ F.WF ∧ F.AllCounters ∧ F.InputDeterministicUpToEps ∧ SameWeightsDelayed f F := by
  obtain ⟨g, h1⟩ := toGallic_ok (V := GW W) GW.mk' hi.finals
  obtain ⟨hin, -, hacg⟩ := toGallic_input (good := GWGood good) h1 hi.wf fun s t ht => gwGood_single (hi.weights s t ht) (strip_clean _)
  obtain ⟨L', T'⟩ := gwDet_law L
  have hok := fun t => det_no_error (t := t) L' T' ho hin
  match h2 : determinizeFsa g (gwDet o) ord n with
  | none => simp only [determinizeNF, determinizeT, determinizeVia, h1, h2] at h; cases h
  | some r' =>
    obtain ⟨D, d1, d2, -, nm, d4⟩ := det_fsa_static (f := g) (o := gwDet o) (ord := ord) hl hin.flag hok (det_fsa_finite hl hin.flag hok (by rw [h2]; simp))
    have hr := endsWith_eq d1 (fun n m r h hle => det_fsa_mono h hle) h2
    subst hr
    obtain ⟨H, F, e1, e2, e3, e4, e5, e6⟩ := nf_after L hq ho hi.wf hi.weights h1 d2 d4
    match h3 : factorWeight D gwFactor (gwQuantize q) detFwOpts n with
    | none => simp only [determinizeNF, determinizeT, determinizeVia, h1, h2, h3] at h; cases h
    | some r' =>
      have hr := endsWith_eq e1 (fun n m r h hle => factorWeight_mono h hle) h3
      subst hr
      simp only [determinizeNF, determinizeT, determinizeVia, h1, h2, h3, e2] at h
      injection h with h
      exact ⟨_, h.symm, ⟨e3.start_lt, e3.next_lt⟩, e4, e5, e6.setProps _⟩

section
variable {ordF : DTup (RG W) → Label → List (DElt (RG W)) → List (DElt (RG W))}

/-- **C61**, `DeterminizeFunctional`: an FST that is returned has at most one transition per state and input label (`ε` aside) and gives each pair of
strings the weight of the input, whether the input was functional or not. -/
theorem C61_functional_ok (L : DivLaw o good) (hq : q 1 = .ok 1) (ho : Orders ordF) (hi : DetTInput f good) {n : Nat} {F : Fst W}
    (h : determinizeF o q ordF f n = some (.ok F)) : F.WF ∧ F.AllCounters ∧ F.InputDeterministicUpToEps ∧ SameWeightsDelayed f F := by
  obtain ⟨g, D, H, F', h1, h2, h3, h4, rfl⟩ := via_out h
  obtain ⟨d1, -, nm, d3⟩ := det_fsa_ok h2
  obtain ⟨-, -, hok⟩ := determinizeFsa_ok_names h2
  obtain ⟨H', F, e1, e2, e3, e4, e5, e6⟩ := f_after L hq ho hi.wf hi.weights h1 hok d1 d3
  have := endsWith_eq e1 (fun n m r h hle => factorWeight_mono h hle) h3
  injection this with this
  subst this
  rw [h4] at e2
  injection e2 with e2
  subst e2
  exact ⟨⟨e3.start_lt, e3.next_lt⟩, e4, e5, e6.setProps _⟩

/-- **C61**, `DeterminizeFunctional`, functional acyclic transducers without dead states: the determinization succeeds. -/
theorem C61_functional (L : DivLaw o good) (hl : o.leftSemiring = true) (hq : q 1 = .ok 1) (ho : Orders ordF) (hi : DetTInput f good) (hac : f.Holds .acyclic)
    (hfun : f.Functional) (hco : f.Holds .coaccessible) :
    ∃ F, EndsWith (determinizeF o q ordF f) (.ok F) ∧ F.WF ∧ F.AllCounters ∧ F.InputDeterministicUpToEps ∧ SameWeightsDelayed f F := by
  obtain ⟨g, h1⟩ := toGallic_ok (V := RG W) RG.mk' hi.finals
  obtain ⟨hin, -, hacg⟩ := toGallic_input (good := RGood good) h1 hi.wf fun s t ht => ⟨_, _, rfl, hi.weights s t ht, strip_clean _⟩
  have L' := rgDet_law L
  have hok : ∀ t, (detMachine g (rgDet o) ordF).Reach t → (∃ as, detTrs g (rgDet o) ordF t = .ok as) ∧ ∃ w, detFin g (rgDet o) t = .ok w := by
    cases hs : f.start with
    | none =>
      rw [C60_no_start f _ hs] at h1
      injection h1 with h1
      intro t ht
      have : ∀ t, ¬ (detMachine g (rgDet o) ordF).Reach t := by
        intro t ht
        induction ht with
        | start h => rw [← h1] at h; simp [TupleOp.machine, detOp, Fst.new] at h
        | step _ _ ih => exact ih
      exact absurd ht (this t)
    | some i =>
      obtain ⟨-, hconv⟩ := C60_to_gallic f (RG.mk' (W := W)) (by rw [hs]; simp)
      obtain ⟨c3, c1, c2, c4, -⟩ := hconv g h1
      exact fun t ht => functional_no_error L ho hi.wf hi.weights c1 c2 hs (by rw [c3, hs]) hfun hco c4 ht
  obtain ⟨D, d1, d2, -, nm, d4⟩ := det_fsa_static (f := g) (o := rgDet o) (ord := ordF) hl hin.flag hok
    (det_finite_acyclic L' ho hin.wf hin.weights (hacg hac))
  obtain ⟨H, F, e1, e2, e3, e4, e5, e6⟩ := f_after L hq ho hi.wf hi.weights h1 hok d2 d4
  exact ⟨_, via_ends true h1 d1 e1 e2, ⟨e3.start_lt, e3.next_lt⟩, e4, e5, e6.setProps _⟩

end

section
variable {w : WeightOps W} {ordF : DTup (RG W) → Label → List (DElt (RG W)) → List (DElt (RG W))}

theorem SameInputWeightsDelayed.setProps {f F : Fst W} (h : SameInputWeightsDelayed f F) (p : Props) : SameInputWeightsDelayed f (F.setProps p) := by
  obtain ⟨part, h1, h2⟩ := h
  exact ⟨part, fun m => by rw [← h1, Fst.accPaths_congr (f := F) (g := F.setProps p) rfl (fun _ => rfl) (fun _ => rfl)], h2⟩

theorem accepts_setProps {F : Fst W} {p : Props} {x y : List Label} {v : W} : (F.setProps p).Accepts x y v ↔ F.Accepts x y v := by
  unfold Fst.Accepts
  simp only [Fst.accPaths_congr (f := F) (g := F.setProps p) rfl (fun _ => rfl) (fun _ => rfl)]

/-- Without `ε` a deterministic FST has at most one path for each input. -/
theorem det_unique {V : Type*} [Mul V] {D : Fst V} (hnd : ∀ s, ((D.trsOf s).map (·.ilabel)).Nodup) (hne : ∀ s, ∀ t ∈ D.trsOf s, t.ilabel ≠ EPS) :
    ∀ (n m : Nat) (s : StateId) (p p' : PathT V), p ∈ D.pathsFrom n s → p' ∈ D.pathsFrom m s → p.1 = p'.1 → p = p' := by
  have hcons : ∀ s, ∀ t ∈ D.trsOf s, ∀ p : PathT V, (t.asPath.cat p).1 = t.ilabel :: p.1 := by
    intro s t ht p
    simp [PathT.cat, Tr.asPath, strip, hne s t ht]
  have hzero : ∀ s (p : PathT V), p ∈ D.pathsFrom 0 s → ∃ v, D.finOf s = some v ∧ p = ([], [], v) := by
    intro s p hp
    rw [Fst.pathsFrom] at hp
    cases hf : D.finOf s with
    | none => rw [hf] at hp; simp at hp
    | some v => rw [hf] at hp; exact ⟨v, rfl, by simpa using hp⟩
  have hsucc : ∀ n s (p : PathT V), p ∈ D.pathsFrom (n + 1) s → ∃ t ∈ D.trsOf s, ∃ p' ∈ D.pathsFrom n t.nextstate, p = t.asPath.cat p' := by
    intro n s p hp
    rw [Fst.pathsFrom, Multiset.mem_bind] at hp
    obtain ⟨t, ht, hp⟩ := hp
    obtain ⟨p', hp', e⟩ := Multiset.mem_map.1 hp
    exact ⟨t, by simpa using ht, p', hp', e.symm⟩
  intro n
  induction n with
  | zero =>
    intro m s p p' h h' e
    obtain ⟨v, hv, rfl⟩ := hzero s p h
    cases m with
    | zero =>
      obtain ⟨v', hv', rfl⟩ := hzero s p' h'
      rw [hv] at hv'; injection hv' with hv'; rw [hv']
    | succ m =>
      obtain ⟨t, ht, q, -, rfl⟩ := hsucc m s p' h'
      rw [hcons s t ht] at e; cases e
  | succ n ih =>
    intro m s p p' h h' e
    obtain ⟨t, ht, q, hq, rfl⟩ := hsucc n s p h
    rw [hcons s t ht] at e
    cases m with
    | zero =>
      obtain ⟨v', hv', rfl⟩ := hzero s p' h'
      cases e
    | succ m =>
      obtain ⟨t', ht', q', hq', rfl⟩ := hsucc m s p' h'
      rw [hcons s t' ht'] at e
      injection e with e1 e2
      have := List.inj_on_of_nodup_map (hnd s) ht ht' e1
      subst this
      rw [ih m _ q q' hq hq' e2]

/-- **C61**, `DeterminizeDisambiguate`, acyclic transducers whose weights have the path property: the determinization ends, its result has at most
one transition per state and input label (`ε` aside), gives each input the weight of the input FST, with paths of the input FST only, and if no
transition of that has input `ε`, then one path for each input. -/
theorem C61_disambiguate (P : PathLaw w) (L : DivLaw o good) (hl : o.leftSemiring = true) (hq : q 1 = .ok 1) (ho : Orders ordF) (hi : DetTInput f good)
    (hac : f.Holds .acyclic) :
    ∃ F, EndsWith (determinizeD w o q ordF f) (.ok F) ∧ F.WF ∧ F.AllCounters ∧ F.InputDeterministicUpToEps ∧ SameInputWeightsDelayed f F ∧
      (∀ x y v, F.Accepts x y v → f.Accepts x y v) ∧ (f.Holds .noIEpsilons → F.Unambiguous) := by
  obtain ⟨g, h1⟩ := toGallic_ok (V := RG W) RG.mk' hi.finals
  obtain ⟨hin, -, hacg⟩ := toGallic_input (good := RGood good) h1 hi.wf fun s t ht => ⟨_, _, rfl, hi.weights s t ht, strip_clean _⟩
  have L' := mgDet_law P L
  have hok := fun t => det_no_error (t := t) L' (mgDet_total P L) ho hin
  obtain ⟨D, d1, d2, -, nm, d4⟩ := det_fsa_static (f := g) (o := mgDet w o) (ord := ordF) hl hin.flag hok
    (det_finite_acyclic L' ho hin.wf hin.weights (hacg hac))
  obtain ⟨H, F, e1, e2, e3, e4, e5, e6, e7, e8⟩ := d_after P L hq ho hi.wf hi.weights h1 d2 d4
  refine ⟨F.setProps (Props.determinize f.props false true), ?_, ⟨e3.start_lt, e3.next_lt⟩, e4, e5, e6.setProps _, ?_, ?_⟩
  · obtain ⟨N, hN⟩ := via_ends true h1 d1 e1 e2
    exact ⟨N, fun n hn => by rw [determinizeD, P.flag]; exact hN n hn⟩
  · intro x y v h
    obtain ⟨y', z, e, h'⟩ := e8 _ _ _ (e7 x y v (accepts_setProps.1 h))
    obtain ⟨rfl, rfl⟩ := RG.single_inj e
    exact h'
  · intro heps x y y' v v' h h'
    obtain ⟨n, hn⟩ := e7 x y v (accepts_setProps.1 h)
    obtain ⟨m, hm⟩ := e7 x y' v' (accepts_setProps.1 h')
    cases hs : D.start with
    | none => rw [Fst.accPaths_none hs] at hn; simp at hn
    | some i =>
      rw [Fst.accPaths_some hs] at hn hm
      obtain ⟨hs, hac⟩ := det_presents_trs L' ho hin.wf hin.weights d4
      have := det_unique (D := D) (fun s => (hs s).imp (fun h => Nat.ne_of_lt h)) (fun s t ht h0 => by
        obtain ⟨d, a, -, hr, ha, hn⟩ := d4.trs_of s t ht
        simp only [TupleOp.machine, detOp] at ha
        obtain ⟨as, has⟩ := (hok d hr).1
        rw [has] at ha
        have hdg := det_reach_good L' ho hin.wf hin.weights hr
        have hmem := (detTrs_spec L' ho hin.wf hin.weights has hdg).1
        obtain ⟨b, hb⟩ := List.exists_mem_of_ne_nil _ (hmem.nonempty a ha)
        obtain ⟨e, he, tr, htr, hlab, -⟩ := (hmem.next a ha b.state).1 (List.mem_map_of_mem hb)
        have hf : f.start ≠ none := by
          intro hf
          rw [C60_no_start f _ hf] at h1
          injection h1 with h1
          rw [← h1] at htr
          simp [Fst.trsOf, Fst.new] at htr
        obtain ⟨-, -, c2, -⟩ := (C60_to_gallic f (RG.mk' (W := W)) hf).2 g h1
        rw [c2] at htr
        obtain ⟨t', ht', rfl⟩ := List.mem_map.1 htr
        exact heps ⟨_, t', ht', by
          show (gallicTr RG.mk' t').ilabel = EPS
          rw [hlab, ← hn.1, h0]⟩) n m i _ _ hn hm rfl
      simp only [Prod.mk.injEq] at this
      exact RG.single_inj this.2.2

end

/-- A stored final weight `0` is an error in all three kinds. -/
theorem C61_zero_final {V : Type u} [Zero V] [One V] [Mul V] [DecidableEq V] (mk : StrW × W → V) (extract : V → R (W × Label)) (o : DetOps V)
    (factors : V → List (V × V)) (quantize : V → R V) (ord : DTup V → Label → List (DElt V) → List (DElt V)) (distinct : Bool) (hs : f.start ≠ none)
    {s : StateId} (h0 : f.finOf s = some 0) (n : Nat) : ∃ e, determinizeT mk extract o factors quantize ord distinct f n = some (.error e) := by
  have : ¬ ∃ g, f.weightConvert (toGallic mk) = .ok g := fun h => (C60_to_gallic f mk hs).1.1 h s h0
  cases h1 : f.weightConvert (toGallic mk) with
  | ok g => exact absurd ⟨g, h1⟩ this
  | error e => exact ⟨e, by simp [determinizeT, determinizeVia, h1]⟩

end

end Verif
