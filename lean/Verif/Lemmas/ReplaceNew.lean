import Verif.Lemmas.ReplaceOp
import Mathlib.Data.Set.Finite.List
import Mathlib.Data.List.Perm.Subperm
import Mathlib.Data.List.Nodup
import Mathlib.Data.Set.Finite.Lattice
import Mathlib.Order.Interval.Set.Infinite
import Mathlib.Order.Interval.Finset.Nat

/-! # `replace`: the grammar of a list of FSTs; finitely many configurations -/

set_option linter.unusedSectionVars false

namespace Verif
universe u
variable {W : Type u}

theorem namedBy_snoc (list : List (Label × Fst W)) (x : Label × Fst W) (l : Label) :
    namedBy (list ++ [x]) l = if x.1 = l then some list.length else namedBy list l := by
  unfold namedBy
  rw [List.length_append, List.length_singleton, List.range_succ, List.reverse_append]
  simp only [List.reverse_cons, List.reverse_nil, List.nil_append, List.singleton_append, List.find?_cons]
  have h1 : (list ++ [x])[list.length]? = some x := by simp
  rw [h1]
  by_cases h : x.1 = l
  · simp [h]
  · have : (Option.map (fun p => p.1) (some x) == some l) = false := by simp [h]
    rw [this, if_neg h]
    simp only
    have h2 : ∀ ns : List Nat, (∀ i ∈ ns, i < list.length) →
        ns.find? (fun i => ((list ++ [x])[i]?.map (·.1)) == some l) = ns.find? (fun i => (list[i]?.map (·.1)) == some l) := by
      intro ns
      induction ns with
      | nil => intro _; rfl
      | cons i ns ih =>
        intro hi
        rw [List.find?_cons, List.find?_cons, ih (fun j hj => hi j (List.mem_cons_of_mem _ hj)),
          List.getElem?_append_left (hi i (List.mem_cons_self ..))]
    exact h2 _ (by simp)

theorem hashGet_eq (list : List (Label × Fst W)) (l : Label) :
    hashGet (list.zipIdx.map fun p => (p.1.1, p.2)).reverse l = namedBy list l := by
  induction list using List.reverseRecOn with
  | nil => rfl
  | append_singleton list x ih =>
    rw [namedBy_snoc, List.zipIdx_append, List.map_append, List.reverse_append]
    unfold hashGet at ih ⊢
    simp only [List.zipIdx_singleton, List.map_cons, List.map_nil, List.reverse_cons, List.reverse_nil, List.nil_append, List.singleton_append,
      List.find?_cons]
    by_cases h : x.1 = l
    · simp [h]
    · simp only [h, decide_false, if_false]; exact ih

theorem namedBy_some {list : List (Label × Fst W)} {l : Label} {j : Nat} (h : namedBy list l = some j) :
    j < list.length ∧ ∃ f, list[j]? = some (l, f) := by
  unfold namedBy at h
  have h1 := List.find?_some h
  have h2 := List.mem_of_find?_eq_some h
  simp only [List.mem_reverse, List.mem_range] at h2
  refine ⟨h2, ?_⟩
  simp only [beq_iff_eq, Option.map_eq_some_iff] at h1
  obtain ⟨⟨l', f⟩, h3, h4⟩ := h1
  exact ⟨f, by rw [h3, ← h4]⟩

theorem namedBy_none {list : List (Label × Fst W)} {l : Label} : namedBy list l = none ↔ l ∉ list.map (·.1) := by
  unfold namedBy
  rw [List.find?_eq_none]
  simp only [List.mem_reverse, List.mem_range, beq_iff_eq, Option.map_eq_some_iff, not_exists, not_and, List.mem_map]
  constructor
  · rintro h x hx rfl
    obtain ⟨i, hi, rfl⟩ := List.getElem_of_mem hx
    exact h i hi _ (List.getElem?_eq_getElem hi) rfl
  · intro h i hi x hx
    exact h x (List.mem_of_getElem? hx)

namespace RGrammar

theorem new_none {list : List (Label × Fst W)} {o : ROpts} (h : namedBy list o.root = none) : RGrammar.new list o = .error .err := by
  unfold RGrammar.new
  simp only [hashGet_eq, h]

theorem new_some {list : List (Label × Fst W)} {o : ROpts} {i} (h : namedBy list o.root = some i) : ∃ g, RGrammar.new list o = .ok g ∧
    g.root = i ∧ g.fsts = list.map (·.2) ∧ g.labels = list.map (·.1) ∧ (∀ l, hashGet g.hash l = namedBy list l) ∧ g.callOut = o.callOut ∧
    g.retLabel = o.retLabel ∧ g.callType = (if o.callOut = some EPS then .neither else o.callType) ∧
    g.retType = (if o.retLabel = 0 then .neither else o.retType) ∧ g.props = replaceProps list o := by
  unfold RGrammar.new
  simp only [hashGet_eq, h]
  exact ⟨_, rfl, rfl, rfl, rfl, hashGet_eq list, rfl, rfl, rfl, rfl, rfl⟩

theorem ok_of {list : List (Label × Fst W)} {g : RGrammar W} {l : Label} (h : namedBy list l = some g.root) (h1 : g.fsts = list.map (·.2))
    (h2 : g.labels = list.map (·.1)) (h3 : ∀ l, hashGet g.hash l = namedBy list l) (hwf : ∀ p ∈ list, p.2.WF) : g.Ok where
  hash l j hj := by
    rw [h3] at hj
    obtain ⟨h4, f, h5⟩ := namedBy_some hj
    refine ⟨?_, by rw [h1, List.length_map]; exact h4⟩
    rw [h2]
    exact List.mem_map_of_mem (f := (·.1)) (List.mem_of_getElem? h5)
  root := by rw [h1, List.length_map]; exact (namedBy_some h).1
  labels := by
    rw [h2]
    intro he
    have := (namedBy_some h).1
    rw [List.map_eq_nil_iff.1 he] at this
    simp at this
  wf f hf := by
    rw [h1, List.mem_map] at hf
    obtain ⟨p, hp, rfl⟩ := hf
    exact hwf p hp

/-- `replace` works on the network of its list. -/
theorem new_net [One W] {list : List (Label × Fst W)} {root : Label} {i : Nat} (eps : Bool) (h : namedBy list root = some i) (hwf : ∀ p ∈ list, p.2.WF) :
    ∃ g, RGrammar.new list (ROpts.new root eps) = .ok g ∧ g.Ok ∧ g.net.root = i ∧ g.net.rtn = rtnOf list eps ∧
      g.props = replaceProps list (ROpts.new root eps) := by
  obtain ⟨g, h1, h2, h3, h4, h5, h6, h7, h8, h9, h10⟩ := new_some (o := ROpts.new root eps) h
  refine ⟨g, h1, ok_of (by rw [h2]; exact h) h3 h4 h5 hwf, h2, ?_, h10⟩
  have ha : g.net.callee = (rtnOf list eps).callee := by
    funext tr
    simp only [net, rtnOf, h5]
  have hb : g.net.fst = (rtnOf list eps).fst := by
    funext i
    simp only [net, rtnOf, fstAt, h3, List.getElem?_map]
  have hc : ∀ tr, strip (g.net.callIn tr) = if eps then [] else strip tr.ilabel := by
    intro tr
    simp only [net, h8, ROpts.new]
    cases eps <;> simp [RLabelType.epsIn, strip]
  have hd : ∀ tr, strip (g.net.callOut tr) = [] := by
    intro tr
    simp only [net, h8, ROpts.new]
    cases eps <;> simp [RLabelType.epsOut, strip]
  have he : strip g.net.retIn = [] := by
    simp only [net, h9, ROpts.new]
    simp [RLabelType.epsIn, strip]
  have hf : strip g.net.retOut = [] := by
    simp only [net, h9, ROpts.new]
    simp [RLabelType.epsOut, strip]
  unfold RNet.rtn
  rw [ha, hb, he, hf]
  simp only [hc, hd]
  rfl

end RGrammar

/-! ### Finitely many configurations -/

namespace RNet
variable [Zero W] [DecidableEq W] (N : RNet W)

/-- One step of the machine. -/
def Next (c c' : RCfg) : Prop := ∃ a ∈ N.machine.trs c, a.next = c'

variable {N}

theorem next_plain {st i s} {tr : Tr W} (h : tr ∈ (N.fst i).trsOf s) (hc : N.callee tr = none) : N.Next ⟨st, i, s⟩ ⟨st, i, tr.nextstate⟩ := by
  refine ⟨⟨tr.ilabel, tr.olabel, tr.weight, ⟨st, i, tr.nextstate⟩⟩, ?_, rfl⟩
  rw [machine_trs, List.mem_append, List.mem_flatMap]
  exact Or.inr ⟨tr, h, by simp [stepTr, hc]⟩

theorem next_call {st i s j q} {tr : Tr W} (h : tr ∈ (N.fst i).trsOf s) (hc : N.callee tr = some j) (hq : (N.fst j).start = some q) :
    N.Next ⟨st, i, s⟩ ⟨⟨i, tr.nextstate⟩ :: st, j, q⟩ := by
  refine ⟨⟨N.callIn tr, N.callOut tr, tr.weight, ⟨⟨i, tr.nextstate⟩ :: st, j, q⟩⟩, ?_, rfl⟩
  rw [machine_trs, List.mem_append, List.mem_flatMap]
  exact Or.inr ⟨tr, h, by simp [stepTr, hc, hq]⟩

theorem next_ret {st i s fr w} (h : (N.fst i).finOf s = some w) (hw : w ≠ 0) : N.Next ⟨fr :: st, i, s⟩ ⟨st, fr.fst, fr.state⟩ := by
  refine ⟨⟨N.retIn, N.retOut, w, ⟨st, fr.fst, fr.state⟩⟩, ?_, rfl⟩
  rw [machine_trs, List.mem_append]
  exact Or.inl (by simp [retTr, h, hw])

/-- What a step can be. -/
theorem next_cases {c c' : RCfg} (h : N.Next c c') :
    (∃ tr ∈ (N.fst c.fst).trsOf c.state, N.callee tr = none ∧ c' = ⟨c.stack, c.fst, tr.nextstate⟩) ∨
    (∃ tr ∈ (N.fst c.fst).trsOf c.state, ∃ j q, N.callee tr = some j ∧ (N.fst j).start = some q ∧ c' = ⟨⟨c.fst, tr.nextstate⟩ :: c.stack, j, q⟩) ∨
    (∃ fr st w, c.stack = fr :: st ∧ (N.fst c.fst).finOf c.state = some w ∧ w ≠ 0 ∧ c' = ⟨st, fr.fst, fr.state⟩) := by
  obtain ⟨a, ha, rfl⟩ := h
  rw [machine_trs, List.mem_append] at ha
  rcases ha with ha | ha
  · unfold retTr at ha
    cases hs : c.stack with
    | nil => simp [hs] at ha
    | cons fr st =>
      cases hf : (N.fst c.fst).finOf c.state with
      | none => simp [hs, hf] at ha
      | some w =>
        by_cases hw : w = 0
        · simp [hs, hf, hw] at ha
        · simp only [hs, hf, hw, if_false, List.mem_singleton] at ha
          subst ha
          exact .inr (.inr ⟨fr, st, w, rfl, rfl, hw, rfl⟩)
  · rw [List.mem_flatMap] at ha
    obtain ⟨tr, htr, ha⟩ := ha
    unfold stepTr at ha
    cases hc : N.callee tr with
    | none =>
      simp only [hc, List.mem_singleton] at ha
      subst ha
      exact .inl ⟨tr, htr, hc, rfl⟩
    | some j =>
      cases hq : (N.fst j).start with
      | none => simp [hc, hq] at ha
      | some q =>
        simp only [hc, hq, List.mem_singleton] at ha
        subst ha
        exact .inr (.inl ⟨tr, htr, j, q, hc, hq, rfl⟩)

theorem reach_next {c c' : RCfg} (h : N.machine.Reach c) (hn : Relation.ReflTransGen N.Next c c') : N.machine.Reach c' := by
  induction hn with
  | refl => exact h
  | tail _ h2 ih => obtain ⟨a, ha, rfl⟩ := h2; exact .step ih ha

variable [One W]

theorem arrives_run {i s} (h : N.rtn.Arrives i s) : ∃ q, (N.fst i).start = some q ∧
    ∀ st, Relation.ReflTransGen N.Next ⟨st, i, q⟩ ⟨st, i, s⟩ := by
  induction h with
  | start h => exact ⟨_, h, fun st => .refl⟩
  | step _ h1 h2 ih =>
    obtain ⟨q, hq, hr⟩ := ih
    exact ⟨q, hq, fun st => (hr st).tail (next_plain h1 h2)⟩
  | @call i s tr j q' w _ h1 h2 _ h3 h4 ih ih' =>
    obtain ⟨q, hq, hr⟩ := ih
    obtain ⟨p, hp, hr'⟩ := ih'
    refine ⟨q, hq, fun st => (((hr st).tail (next_call h1 h2 hp)).trans (hr' _)).tail ?_⟩
    exact next_ret (fr := ⟨i, tr.nextstate⟩) h3 h4

theorem calls_run {i j} (h : N.rtn.Calls i j) {q} (hq : (N.fst j).start = some q) : ∃ p, (N.fst i).start = some p ∧
    ∀ st, ∃ fr, Relation.ReflTransGen N.Next ⟨st, i, p⟩ ⟨fr :: st, j, q⟩ := by
  obtain ⟨s, tr, h1, h2, h3⟩ := h
  obtain ⟨p, hp, hr⟩ := arrives_run h1
  exact ⟨p, hp, fun st => ⟨_, (hr st).tail (next_call h2 h3 hq)⟩⟩

theorem chain_run {i j} (h : Relation.ReflTransGen N.rtn.Calls i j) {q} (hq : (N.fst j).start = some q) : ∃ p, (N.fst i).start = some p ∧
    ∀ st, ∃ st', Relation.ReflTransGen N.Next ⟨st, i, p⟩ ⟨st', j, q⟩ := by
  induction h using Relation.ReflTransGen.head_induction_on with
  | refl => exact ⟨q, hq, fun st => ⟨st, .refl⟩⟩
  | head h1 _ ih =>
    obtain ⟨p, hp, hr⟩ := ih
    obtain ⟨p', hp', hr'⟩ := calls_run h1 hp
    refine ⟨p', hp', fun st => ?_⟩
    obtain ⟨fr, h2⟩ := hr' st
    obtain ⟨st', h3⟩ := hr (fr :: st)
    exact ⟨st', h2.trans h3⟩

theorem loop_run {i j} (h : Relation.TransGen N.rtn.Calls i j) {q} (hq : (N.fst j).start = some q) : ∃ p, (N.fst i).start = some p ∧
    ∀ st, ∃ st', st.length < st'.length ∧ Relation.ReflTransGen N.Next ⟨st, i, p⟩ ⟨st', j, q⟩ := by
  induction h using Relation.TransGen.head_induction_on with
  | single h =>
    obtain ⟨p, hp, hr⟩ := calls_run h hq
    refine ⟨p, hp, fun st => ?_⟩
    obtain ⟨fr, h2⟩ := hr st
    exact ⟨_, by simp, h2⟩
  | head h1 _ ih =>
    obtain ⟨p, hp, hr⟩ := ih
    obtain ⟨p', hp', hr'⟩ := calls_run h1 hp
    refine ⟨p', hp', fun st => ?_⟩
    obtain ⟨fr, h2⟩ := hr' st
    obtain ⟨st', h3, h4⟩ := hr (fr :: st)
    exact ⟨st', by simp only [List.length_cons] at h3; omega, h2.trans h4⟩

/-- With recursion the stack grows without end. -/
theorem recursive_infinite (h : N.rtn.Recursive N.root) : ¬ {c | N.machine.Reach c}.Finite := by
  obtain ⟨k, h1, h2⟩ := h
  have hk : ∃ q, (N.fst k).start = some q := by
    obtain ⟨m, ⟨s, tr, ha, _⟩, _⟩ := Relation.TransGen.head'_iff.1 h2
    obtain ⟨q, hq, _⟩ := arrives_run ha
    exact ⟨q, hq⟩
  obtain ⟨q, hq⟩ := hk
  obtain ⟨p, hp, hr⟩ := chain_run h1 hq
  obtain ⟨q', hq', hl⟩ := loop_run h2 hq
  obtain rfl : q' = q := by rw [hq] at hq'; exact (Option.some.inj hq').symm
  have key : ∀ n : Nat, ∃ st : List RFrame, n ≤ st.length ∧ N.machine.Reach ⟨st, k, q'⟩ := by
    intro n
    induction n with
    | zero =>
      obtain ⟨st, h⟩ := hr []
      refine ⟨st, Nat.zero_le _, reach_next (.start ?_) h⟩
      simp [machine, hp]
    | succ n ih =>
      obtain ⟨st, h3, h4⟩ := ih
      obtain ⟨st', h5, h6⟩ := hl st
      exact ⟨st', by omega, reach_next h4 h6⟩
  intro hfin
  obtain ⟨b, hb⟩ := (hfin.image fun c : RCfg => c.stack.length).bddAbove
  obtain ⟨st, h3, h4⟩ := key (b + 1)
  have := hb ⟨_, h4, rfl⟩
  simp only at this
  omega

/-- The stack is a chain of calls. -/
def Chained (N : RNet W) : List RFrame → Nat → Prop
  | [], i => i = N.root
  | fr :: st, j => (∃ s tr, N.rtn.Arrives fr.fst s ∧ tr ∈ (N.fst fr.fst).trsOf s ∧ N.callee tr = some j ∧ fr.state = tr.nextstate) ∧ Chained N st fr.fst

theorem reach_chained {c : RCfg} (h : N.machine.Reach c) : N.rtn.Arrives c.fst c.state ∧ Chained N c.stack c.fst := by
  induction h with
  | start h =>
    simp only [machine, Option.map_eq_some_iff] at h
    obtain ⟨s, hs, rfl⟩ := h
    exact ⟨.start hs, rfl⟩
  | @step c a _ ha ih =>
    rcases next_cases ⟨a, ha, rfl⟩ with ⟨tr, h1, h2, h3⟩ | ⟨tr, h1, j, q, h2, h3, h4⟩ | ⟨fr, st, w, h1, h2, h3, h4⟩
    · rw [h3]; exact ⟨.step ih.1 h1 h2, ih.2⟩
    · rw [h4]; exact ⟨.start h3, ⟨_, tr, ih.1, h1, h2, rfl⟩, ih.2⟩
    · rw [h4]
      have hc := ih.2
      rw [h1] at hc
      obtain ⟨⟨s, tr, h5, h6, h7, h8⟩, h9⟩ := hc
      refine ⟨?_, h9⟩
      simp only [h8]
      exact .call h5 h6 h7 ih.1 h2 h3

theorem chained_calls : ∀ {st : List RFrame} {j}, Chained N st j → Relation.ReflTransGen N.rtn.Calls N.root j ∧
    (∀ k ∈ st.map (·.fst), Relation.ReflTransGen N.rtn.Calls N.root k ∧ Relation.TransGen N.rtn.Calls k j) ∧
    (st.map (·.fst)).Pairwise (fun a b => Relation.TransGen N.rtn.Calls b a)
  | [], j, h => by
    have : j = N.root := h
    subst this
    exact ⟨.refl, by simp, by simp⟩
  | fr :: st, j, h => by
    obtain ⟨⟨s, tr, h1, h2, h3, _⟩, h4⟩ := h
    obtain ⟨h5, h6, h7⟩ := chained_calls h4
    have hc : N.rtn.Calls fr.fst j := ⟨s, tr, h1, h2, h3⟩
    refine ⟨h5.tail hc, ?_, ?_⟩
    · intro k hk
      simp only [List.map_cons, List.mem_cons] at hk
      rcases hk with rfl | hk
      · exact ⟨h5, .single hc⟩
      · exact ⟨(h6 k hk).1, (h6 k hk).2.tail hc⟩
    · rw [List.map_cons, List.pairwise_cons]
      exact ⟨fun k hk => (h6 k hk).2, h7⟩

/-- Without recursion no FST is twice in the stack. -/
theorem stack_nodup (hr : ¬ N.rtn.Recursive N.root) {c : RCfg} (h : N.machine.Reach c) : (c.stack.map (·.fst)).Nodup := by
  obtain ⟨_, h2, h3⟩ := chained_calls (reach_chained h).2
  have : (c.stack.map (·.fst)).Pairwise (fun a b => Relation.TransGen N.rtn.Calls b a ∧ Relation.ReflTransGen N.rtn.Calls N.root a) := by
    rw [List.pairwise_iff_getElem] at h3 ⊢
    intro i j hi hj hij
    exact ⟨h3 i j hi hj hij, (h2 _ (List.getElem_mem hi)).1⟩
  refine this.imp ?_
  rintro a b ⟨h4, h5⟩ rfl
  exact hr ⟨a, h5, h4⟩

end RNet

namespace RGrammar
variable [Zero W] [One W] [DecidableEq W] {g : RGrammar W}

theorem frames_finite (g : RGrammar W) : {fr : RFrame | g.Pos fr.fst fr.state}.Finite := by
  refine Set.Finite.subset ((Set.finite_Iio g.fsts.length).biUnion fun i _ => (Set.finite_Iio (g.fstAt i).numStates).image (RFrame.mk i)) ?_
  rintro ⟨i, s⟩ ⟨h1, h2⟩
  simp only [Set.mem_iUnion]
  exact ⟨i, h1, s, h2, rfl⟩

theorem reach_finite (hg : g.Ok) : {c | g.net.machine.Reach c}.Finite ↔ ¬ g.net.rtn.Recursive g.net.root := by
  refine ⟨fun h hr => RNet.recursive_infinite hr h, fun hr => ?_⟩
  haveI : Finite {fr : RFrame // g.Pos fr.fst fr.state} := (frames_finite g).to_subtype
  have hl := (List.finite_length_le {fr : RFrame // g.Pos fr.fst fr.state} g.fsts.length).image (List.map Subtype.val)
  refine Set.Finite.subset ((hl.prod (frames_finite g)).image fun p : List RFrame × RFrame => (⟨p.1, p.2.fst, p.2.state⟩ : RCfg)) ?_
  rintro ⟨st, i, s⟩ h
  have hv := reach_valid hg h
  have hb : st.length ≤ g.fsts.length := by
    have h1 := RNet.stack_nodup hr h
    have h2 : st.map (·.fst) ⊆ List.range g.fsts.length := by
      intro k hk
      obtain ⟨fr, hfr, rfl⟩ := List.mem_map.1 hk
      exact List.mem_range.2 (hv.2 fr hfr).1
    have := (List.subperm_of_subset h1 h2).length_le
    simpa using this
  refine ⟨(st, ⟨i, s⟩), ⟨⟨st.attachWith (fun fr => g.Pos fr.fst fr.state) hv.2, ?_, ?_⟩, hv.1⟩, rfl⟩
  · simp only [Set.mem_setOf_eq, List.length_attachWith]
    exact hb
  · simp

end RGrammar
end Verif
