import Verif.Model.LazyThreads
import Verif.Spec.Lazy

/-! # Specification: lazy FSTs shared by several threads -/

namespace Verif
universe u v w x
variable {W : Type u} {C : Type v} {τ : Type w} {T : Type x}

namespace Lz

/-- Threads ask only about states that were told in finished answers. -/
def Conf.Fair (K : CacheOps W C) (O : TupleOp T W) (find : τ → T → StateId × τ) (tuple : τ → StateId → R T) :
    Conf C τ T W → List Event → Prop
  | _, [] => True
  | x, .issue q :: es => q.about (fun s => ∃ q' a, Thread.done q' a ∈ x.threads ∧ a.told s) ∧
      Conf.Fair K O find tuple (x.event K O find tuple (.issue q)) es
  | x, .step i :: es => Conf.Fair K O find tuple (x.event K O find tuple (.step i)) es

end Lz
end Verif
