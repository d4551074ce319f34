import Mathlib.Data.Int.Notation
import Mathlib.Data.List.Basic

/-! Specification of which elements a device holds. -/

namespace Verif.Spec

/-- Nodes of the elements assigned to device `p`, element after element in increasing element order. -/
def deviceNodes (elements : List (List ℤ)) (partitions : List ℕ) (p : ℕ) : List ℤ :=
  ((List.range partitions.length).filter (fun e => partitions[e]? = some p)).flatMap
    (fun e => elements.getD e [])

end Verif.Spec
