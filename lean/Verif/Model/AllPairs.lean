import Verif.Model.Dfs

/-!
# All pairs shortest distance (`algorithms/all_pairs_shortest_distance.rs` 41-81)

The matrix `d` (a vector of vectors, `num_states` in both directions) is modelled as a function of two indices that is only read and
written below `num_states`.
-/

namespace Verif
universe u
variable {W : Type u} [Zero W] [Add W] [Mul W]

/-- `d[i][j] = x`. -/
def upd2 (d : Nat → Nat → W) (i j : Nat) (x : W) : Nat → Nat → W := upd d i (upd (d i) j x)

namespace Fst

/-- Lines 49-59: the sums of the transition weights. -/
def apInit (f : Fst W) : Nat → Nat → W :=
  (List.range f.numStates).foldl (fun d s => (f.trsOf s).foldl (fun d t => upd2 d s t.nextstate (d s t.nextstate + t.weight)) d)
    (fun _ _ => 0)

/-- The states other than `k` (64, 66, 72). -/
def others (n k : Nat) : List Nat := (List.range n).filter (fun s => decide (s ≠ k))

/-- Lines 66-70. -/
def apRow (n k : Nat) (c : W) (d : Nat → Nat → W) (i : Nat) : Nat → Nat → W :=
  (others n k).foldl (fun d j => upd2 d i j (d i j + d i k * c * d k j)) d

/-- Lines 73-75. -/
def apScale (k : Nat) (c : W) (d : Nat → Nat → W) (i : Nat) : Nat → Nat → W :=
  let d := upd2 d k i (c * d k i)
  upd2 d i k (d i k * c)

/-- One turn of the loop over `k` (61-78). -/
def apStep (star : W → W) (n : Nat) (d : Nat → Nat → W) (k : Nat) : Nat → Nat → W :=
  let c := star (d k k)
  let d := (others n k).foldl (apRow n k c) d
  let d := (others n k).foldl (apScale k c) d
  upd2 d k k c

/-- The matrix before turn `k`. -/
def apBefore (star : W → W) (f : Fst W) (k : Nat) : Nat → Nat → W := (List.range k).foldl (apStep star f.numStates) f.apInit

/-- `all_pairs_shortest_distance` (41-81). A target that does not exist is out of bounds in line 57. -/
def allPairs (star : W → W) (f : Fst W) : R (List (List W)) :=
  if f.targetsOk then
    .ok ((List.range f.numStates).map fun i => (List.range f.numStates).map fun j => f.apBefore star f.numStates i j)
  else .error .panic

end Fst
end Verif
