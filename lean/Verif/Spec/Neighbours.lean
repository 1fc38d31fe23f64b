import Verif.Imports
import Mathlib.Data.Real.Basic

/-! # Specification: spacings between neighbours of any order -/

namespace RMT.Spec

/-- The spacings `u[i+m] - u[i]` between each level and its `m`-th neighbour. -/
def nbr (m : Nat) (u : List ℝ) : List ℝ := (List.range (u.length - m)).map fun (i : Nat) => u.getD (i + m) 0 - u.getD i 0

end RMT.Spec
