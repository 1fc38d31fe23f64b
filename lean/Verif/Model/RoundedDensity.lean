import Verif.Model.Analytic

/-!
# The semicircle density in rounded arithmetic
-/

namespace RMT
namespace Rounded
open Real

/-- eigenvalues.py lines 815 and 817-821, construct.py lines 36 and 38-42: `end` and the level density `__R1` with every operation rounded. The integer `2 * N` is converted to a float where it meets one; `np.pi` is the rounded `π`; the square root of a
negative number is NaN (`none`). -/
noncomputable def semicircleFl (fl : ℝ → ℝ) (N : Nat) (x : ℝ) : Option ℝ :=
  if |x| < fl √(fl (2 * N)) then
    let a := fl (fl (2 * N) - fl (x * x))
    if a < 0 then none else some (fl (fl (1 / fl π) * fl √a))
  else some 0

end Rounded
end RMT
