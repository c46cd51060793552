import Verif.Lemmas.PartSplit

/-!
# C45: partitions

The abstract partitions of `Spec/Partition` say what each call means; a sequence of calls is valid if `PState.run` is defined.
-/

namespace Verif

/-- Every valid sequence of calls on a new partition succeeds, gives the queue the classes it should, and leaves a partition whose
queries show the abstract partition: each class id, each size, and by iteration each class, without repetition. -/
theorem C45_history (n : Nat) (ops : List POp) {out σ} (h : (PState.new n).run ops = some (out, σ)) :
    ∃ p, (Part.new n).run ops = .ok (out, p) ∧ p.Shows σ := by
  obtain ⟨p, h1, h2⟩ := Part.rep_run ops (Part.rep_new n) h
  exact ⟨p, h1, h2.shows⟩

/-- After every valid sequence of calls, `finalize_split` separates two elements if and only if they were in different classes or
exactly one of them was marked. In particular it only refines, and no element is lost. -/
theorem C45_refines (n : Nat) (ops : List POp) {out σ} (h : (PState.new n).run ops = some (out, σ)) {new σ'}
    (hf : σ.apply .finalize = some (new, σ')) :
    (∀ e, (σ'.cls e).isSome = (σ.cls e).isSome ∧ σ'.marked e = false) ∧
      ∀ e e', (σ.cls e).isSome = true → (σ.cls e').isSome = true →
        (σ'.cls e = σ'.cls e' ↔ σ.cls e = σ.cls e' ∧ σ.marked e = σ.marked e') := by
  obtain ⟨p, _, hr⟩ := Part.rep_run ops (Part.rep_new n) h
  have hok := PState.ok_of_rep hr
  obtain ⟨p', hp', hr'⟩ := Part.rep_step hr hf
  injection hf with hf; injection hf with h1 h2; subst h1 h2
  refine ⟨fun e => ⟨Part.foldl_split_dom σ.pending σ e, ?_⟩, fun e e' he he' => PState.finalize_same σ.pending hok he he'⟩
  obtain ⟨E, C, no, yes, k, hv, hi, _⟩ := hr'
  exact hi.noMarks e

/-- The classes that `finalize_split` gives to the queue are the new ones. Each is not empty, is part of one old class, and is not larger
than what is left of that class. -/
theorem C45_smaller_half (n : Nat) (ops : List POp) {out σ} (h : (PState.new n).run ops = some (out, σ)) {new σ'}
    (hf : σ.apply .finalize = some (new, σ')) :
    (∀ k, k ∈ new ↔ σ.nc ≤ k ∧ k < σ'.nc) ∧ new.Nodup ∧
      ∀ k ∈ new, ∃ c, c < σ.nc ∧ 0 < σ'.size k ∧ σ'.size k ≤ σ'.size c ∧ ∀ e, σ'.cls e = some k → σ.cls e = some c := by
  obtain ⟨p, _, hr⟩ := Part.rep_run ops (Part.rep_new n) h
  have hok := PState.ok_of_rep hr
  injection hf with hf; injection hf with h1 h2; subst h1 h2
  have hm : ∀ k, k ∈ List.range' σ.nc ((σ.pending.foldl PState.split σ).nc - σ.nc) ↔
      σ.nc ≤ k ∧ k < (σ.pending.foldl PState.split σ).nc := by
    intro k
    rw [List.mem_range'_1]
    omega
  refine ⟨hm, List.nodup_range', fun k hk => ?_⟩
  exact PState.finalize_sizes σ.pending hok k ((hm k).1 hk).1 ((hm k).1 hk).2

/-- Three elements in two classes, one of them marked and split off, another one moved. -/
def exPartOps : List POp :=
  [.allocate 2, .add 0 0, .add 1 0, .add 2 0, .splitOn 1, .finalize, .move 2 1, .splitOn 0, .splitOn 2]

example : ((PState.new 3).run exPartOps).map (fun x => (x.1, x.2.nc, x.2.pending, x.2.cls 0, x.2.cls 1, x.2.cls 2, x.2.marked 2)) =
    some ([[], [], [], [], [], [2], [], [], []], 3, [0, 1], some 0, some 2, some 1, true) := by rfl

/-- Moving a marked element is outside these histories, and nothing in the code prevents it. It leaves a partition in which element 0,
of class 1, is listed in both classes, and element 1, of class 0, in none. -/
theorem C45_move_marked :
    ∃ p, (Part.new 2).run [.allocate 2, .add 0 0, .add 1 0, .splitOn 0, .move 0 1, .finalize] = .ok ([[], [], [], [], [], []], p) ∧
      p.getClassId 0 = .ok 1 ∧ p.getClassId 1 = .ok 0 ∧ p.iter 0 = .ok [0] ∧ p.iter 1 = .ok [0] :=
  ⟨⟨[⟨1, 0, -1, -1⟩, ⟨0, 0, -1, -1⟩], [⟨1, 0, 0, -1⟩, ⟨1, 0, 0, -1⟩], [], 2⟩, by decide +kernel, by decide +kernel, by decide +kernel,
    by decide +kernel, by decide +kernel⟩

/-- `initialize` between `split_on` and `finalize_split` keeps the list of marked classes: `finalize_split` then panics. -/
theorem C45_init_pending :
    (Part.new 1).run [.allocate 1, .add 0 0, .splitOn 0, .init 1, .finalize] = .error .panic := by decide +kernel

end Verif
