import Verif.Model.Text

/-! # Specification: the FST described by the rows of a text -/

namespace Verif
universe u
variable {W : Type u} [One W]

/-- The transitions of state `q`, in the order of the rows. -/
def rowsTrs (rows : List (Row W)) (q : StateId) : List (Tr W) := ((rows.filterMap rowTr).filter fun p => p.1 = q).map Prod.snd

/-- The final weight of state `q`: the one in its last row. -/
def rowsFin (rows : List (Row W)) (q : StateId) : Option W := (((rows.filterMap rowFin).filter fun p => p.1 = q).map Prod.snd).getLast?

end Verif
