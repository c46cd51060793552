import Verif.Lemmas.ArcsStep

/-!
# C78: copies and transition lists handed out never change behind the holder's back
-/

namespace Verif.Arcs
universe u
variable {W : Type u} [Zero W] [One W] [Add W] [DecidableEq W]

theorem init_owned : (World.init : World W).Owned := by
  refine ⟨fun a => ?_, fun a _ => ?_⟩ <;> simp [World.init, World.arcs, Mem.count, Mem.read]

theorem run_spec (as : List (Act W)) : ∀ {w : World W}, w.Owned →
    (w.run as).map (fun r => (r.1.view, r.2)) = vRun w.view as ∧ ∀ w' os, w.run as = some (w', os) → w'.Owned := by
  induction as with
  | nil =>
    intro w hw
    exact ⟨rfl, fun w' os h => by cases h; exact hw⟩
  | cons a as ih =>
    intro w hw
    have h1 := step_spec hw a
    unfold World.run vRun
    cases hs : w.step a with
    | none =>
      rw [hs] at h1
      rw [show vStep w.view a = none from h1]
      exact ⟨rfl, fun w' os h => by simp at h⟩
    | some x =>
      obtain ⟨w1, o⟩ := x
      rw [hs] at h1
      obtain ⟨e1, hw1⟩ := h1
      rw [e1]
      obtain ⟨e2, h2⟩ := ih hw1
      simp only
      rw [← e2]
      cases hr : w1.run as with
      | none => exact ⟨rfl, fun w' os h => by simp at h⟩
      | some y =>
        obtain ⟨w2, os⟩ := y
        refine ⟨rfl, fun w' os' h => ?_⟩
        simp only [Option.some.injEq, Prod.mk.injEq] at h
        rw [← h.1]
        exact h2 w2 os hr

/-- **C78 (programs).** Take any program that makes FSTs, changes them through every mutator, clones them, keeps the transition lists
of their states and changes those, converts and consumes FSTs and drops objects, in any order. What it reads from its objects
at the end, what every call gave back and whether a call panicked is what it would be if every object had its own copy of
its data. -/
theorem C78_values (as : List (Act W)) :
    (World.init.run as).map (fun r => (r.1.view, r.2)) = vRun [] as :=
  (run_spec as init_owned).1

omit [Zero W] [One W] [Add W] [DecidableEq W] in
theorem get_append {l : List (Val W)} {j : Nat} (hj : j < l.length) (v : Val W) : (l ++ [v])[j]? = l[j]? :=
  List.getElem?_append_left hj

omit [Zero W] [One W] [Add W] [DecidableEq W] in
theorem get_set {l : List (Val W)} {i j : Nat} (h : (some i : Option Nat) ≠ some j) (v : Val W) :
    (l.set i v)[j]? = l[j]? :=
  List.getElem?_set_ne fun e => h (congrArg some e)

/-- On values a call changes the object it names and no other. -/
theorem vStep_frame {l l' : List (Val W)} {a : Act W} {o : Out W} (h : vStep l a = some (l', o)) {j : Nat}
    (hj : j < l.length) (ht : a.target ≠ some j) : l'[j]? = l[j]? := by
  cases a <;> simp only [vStep, Act.target] at h ht <;> (repeat' split at h) <;>
    first
    | (cases h; rfl)
    | (cases h; exact get_append hj _)
    | (cases h; exact get_set ht _)
    | cases h

theorem vStep_length {l l' : List (Val W)} {a : Act W} {o : Out W} (h : vStep l a = some (l', o)) :
    l.length ≤ l'.length := by
  cases a <;> simp only [vStep] at h <;> (repeat' split at h) <;>
    first
    | (cases h; exact Nat.le_refl _)
    | (cases h; simp)
    | cases h

/-- A program that never names object `j` leaves it alone. -/
theorem vRun_frame (as : List (Act W)) : ∀ {l l' : List (Val W)} {os : List (Out W)}, vRun l as = some (l', os) →
    ∀ {j : Nat}, j < l.length → (∀ a ∈ as, a.target ≠ some j) → l'[j]? = l[j]? := by
  induction as with
  | nil => intro l l' os h j _ _; cases h; rfl
  | cons a as ih =>
    intro l l' os h j hj ht
    unfold vRun at h
    cases hs : vStep l a with
    | none => simp [hs] at h
    | some x =>
      obtain ⟨l1, o⟩ := x
      simp only [hs] at h
      cases hr : vRun l1 as with
      | none => simp [hr] at h
      | some y =>
        obtain ⟨l2, os2⟩ := y
        simp only [hr, Option.some.injEq, Prod.mk.injEq] at h
        rw [← h.1, ih hr (Nat.lt_of_lt_of_le hj (vStep_length hs)) fun b hb => ht b (List.mem_cons_of_mem _ hb)]
        exact vStep_frame hs hj (ht a (List.mem_cons_self ..))

/-- **C78 (independence).** After any program, go on with any calls none of which names object `j` as the object to change. Then
`j` reads as before: an FST does not change with its clones, nor with the transition lists taken from it, and such a list
does not change with the FST. -/
theorem C78_independent {as bs : List (Act W)} {w w' : World W} {os os' : List (Out W)}
    (h : World.init.run as = some (w, os)) (h' : w.run bs = some (w', os')) {j : Nat} (hj : j < w.objs.length)
    (ht : ∀ a ∈ bs, a.target ≠ some j) : w'.view[j]? = w.view[j]? := by
  have hw := (run_spec as init_owned).2 w os h
  have e := (run_spec bs hw).1
  rw [h'] at e
  exact vRun_frame bs e.symm (by simpa [World.view] using hj) ht

/-- **C78 (copies).** A clone reads like the original, and nothing else changes. -/
theorem C78_clone {as : List (Act W)} {w w' : World W} {os : List (Out W)} {i : Nat}
    (h : World.init.run as = some (w, os)) (h' : w.step (.clone i) = some (w', .done true)) :
    ∃ v, w.view[i]? = some v ∧ w'.view = w.view ++ [v] := by
  have hw := (run_spec as init_owned).2 w os h
  have e := step_spec hw (.clone i)
  rw [h'] at e
  have e1 := e.1
  simp only [vStep] at e1
  split at e1
  · simp at e1
  · rename_i v hne hv
    simp only [Option.some.injEq, Prod.mk.injEq] at e1
    exact ⟨_, hv, e1.1.symm⟩
  · simp at e1

/-- **C78 (snapshots).** `get_trs` gives the transitions the state has at that moment. -/
theorem C78_getTrs {as : List (Act W)} {w w' : World W} {os : List (Out W)} {i : Nat} {s : StateId} {f : Fst W}
    (h : World.init.run as = some (w, os)) (hf : w.view[i]? = some (.fst f))
    (h' : w.step (.getTrs i s) = some (w', .done true)) :
    s < f.numStates ∧ w'.view = w.view ++ [.trs (f.trsOf s)] := by
  have hw := (run_spec as init_owned).2 w os h
  have e := step_spec hw (.getTrs i s)
  rw [h'] at e
  have e1 := e.1
  simp only [vStep, hf, Fst.getTrsR] at e1
  cases hs : f.states[s]? with
  | none => simp [hs] at e1
  | some st =>
    simp only [hs, Option.some.injEq, Prod.mk.injEq] at e1
    refine ⟨(List.getElem?_eq_some_iff.1 hs).1, ?_⟩
    rw [← e1.1]
    simp [Fst.trsOf, hs]

/-- **C78 (memory).** After any program the count of every cell is the number of pointers the objects hold to it. So whatever an object
points to is alive, and what nobody points to has been freed. -/
theorem C78_counts {as : List (Act W)} {w : World W} {os : List (Out W)} (h : World.init.run as = some (w, os)) :
    (∀ a, w.mem.count a = (w.objs.flatMap (·.arcs)).count a) ∧
    (∀ o ∈ w.objs, ∀ a ∈ o.arcs, a < w.mem.length ∧ 0 < w.mem.count a) ∧
    (∀ a, (∀ o ∈ w.objs, a ∉ o.arcs) → w.mem.count a = 0 ∧ w.mem.read a = []) := by
  have hw := (run_spec as init_owned).2 w os h
  refine ⟨hw.1, fun o ho a ha => ?_, fun a ha => ?_⟩
  · have := hw.pos (List.mem_flatMap.2 ⟨o, ho, ha⟩)
    exact ⟨Mem.lt_of_pos this, this⟩
  · have h0 : w.mem.count a = 0 := by
      rw [hw.1]
      refine List.count_eq_zero.2 fun hm => ?_
      obtain ⟨o, ho, hoa⟩ := List.mem_flatMap.1 hm
      exact ha o ho hoa
    exact ⟨h0, hw.2 a h0⟩

/-- **C78 (no needless copies).** A change through the only pointer to a vector is made in place: no memory is taken. -/
theorem C78_in_place (m : Mem W) (a : Nat) (g : List (Tr W) → List (Tr W)) (h : m.count a = 1) :
    (m.update a g).2 = a ∧ (m.update a g).1.length = m.length := by
  have e : m.makeMut a = (m, a) := by unfold Mem.makeMut; rw [if_pos h]
  unfold Mem.update
  rw [e]
  refine ⟨rfl, ?_⟩
  simp [Mem.write]

/-! ## A program -/

namespace C78

/-- An FST with two transitions from state 0; keep its transition list, clone the FST, change the FST, change the kept list,
change the clone. -/
def prog : List (Act Nat) := [
  .new, .call 0 (.addStates 2), .call 0 (.addTr 0 ⟨1, 1, 5, 1⟩), .call 0 (.addTr 0 ⟨2, 2, 6, 1⟩),
  .getTrs 0 0, .clone 0,
  .call 0 (.setIlabel 0 0 7), .push 1 ⟨3, 3, 0, 0⟩, .call 2 (.delTrs 0), .call 0 (.delStates [1]), .shallow 1, .clear 1]

/-- The transition lists read from each object at the end. -/
def lists (w : World Nat) : List (List (List (Tr Nat))) :=
  w.objs.map fun o => o.arcs.map w.mem.read

example : (World.init.run prog).map (fun r => lists r.1) =
    some [[[]], [[]], [[], []], [[⟨1, 1, 5, 1⟩, ⟨2, 2, 6, 1⟩, ⟨3, 3, 0, 0⟩]]] := by decide +kernel

example : (World.init.run (prog.take 8)).map (fun r => lists r.1) =
    some [[[⟨7, 1, 5, 1⟩, ⟨2, 2, 6, 1⟩], []], [[⟨1, 1, 5, 1⟩, ⟨2, 2, 6, 1⟩, ⟨3, 3, 0, 0⟩]],
      [[⟨1, 1, 5, 1⟩, ⟨2, 2, 6, 1⟩], []]] := by decide +kernel

/-- Sharing does take place: after `get_trs` two pointers lead to one vector. -/
example : (World.init.run (prog.take 5)).map (fun r => (r.1.objs.map (·.arcs), r.1.mem.count 0)) =
    some ([[0, 1], [0]], 2) := by decide +kernel

/-- The hypotheses of `C78_independent` with object 1, the kept list, while the FST changes. -/
example : ∃ w w' os os', World.init.run (prog.take 6) = some (w, os) ∧
    w.run [.call 0 (.setIlabel 0 0 7), .call 0 .delAllStates, .drop 0] = some (w', os') ∧ 1 < w.objs.length ∧
    ∀ a ∈ [(.call 0 (.setIlabel 0 0 7) : Act Nat), .call 0 .delAllStates, .drop 0], a.target ≠ some 1 := by
  refine ⟨_, _, _, _, rfl, rfl, by decide +kernel, by simp [Act.target]⟩

/-- A consumed FST leaves the list taken from it. -/
example : (World.init.run (prog.take 5 ++ [.intoIter 0])).map (fun r => (lists r.1, r.1.mem.count 0)) =
    some ([[], [[⟨1, 1, 5, 1⟩, ⟨2, 2, 6, 1⟩]]], 1) := by decide +kernel

/-- So does a converted one, and the lists of the `ConstFst` share its only vector. -/
example : (World.init.run (prog.take 5 ++ [.toConst 0, .getTrs 0 0, .push 1 ⟨3, 3, 0, 0⟩])).map
    (fun r => (lists r.1, r.1.objs.map (·.arcs))) =
    some ([[[⟨1, 1, 5, 1⟩, ⟨2, 2, 6, 1⟩]], [[⟨1, 1, 5, 1⟩, ⟨2, 2, 6, 1⟩, ⟨3, 3, 0, 0⟩]],
      [[⟨1, 1, 5, 1⟩, ⟨2, 2, 6, 1⟩]]], [[3], [0], [3]]) := by decide +kernel

example : (World.init.run (prog ++ [.drop 0, .drop 1, .drop 2, .drop 3])).map
    (fun r => r.1.mem.all fun c => c.count == 0 && c.val.isEmpty) = some true := by decide +kernel

end C78
end Verif.Arcs
