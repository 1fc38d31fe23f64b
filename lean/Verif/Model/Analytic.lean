import Verif.Model.Unfold
import Mathlib.MeasureTheory.Integral.IntervalIntegral.Basic
import Mathlib.Analysis.SpecialFunctions.Exp
import Mathlib.Analysis.Real.Sqrt
import Mathlib.Analysis.SpecialFunctions.Trigonometric.Basic

/-!
# Model of the analytic unfoldings

`Eigenvalues.unfold_goe`, `Eigenvalues.unfold_poisson` and `construct.goe_unfolded` over the reals. `scipy.integrate.quad` is replaced by
the exact integral.
-/

namespace RMT
namespace Analytic
open MeasureTheory Real EigValsM

/-- eigenvalues.py line 815, construct.py line 36: `end = sqrt(2 * N)`. -/
noncomputable def edge (N : Nat) : ℝ := √(2 * N)

/-- eigenvalues.py lines 817-821, construct.py lines 38-42: the level density `__R1`. -/
noncomputable def semicircle (N : Nat) (x : ℝ) : ℝ :=
  if |x| < edge N then (1 / π) * √(2 * N - x * x) else 0

/-- eigenvalues.py lines 823-828, construct.py lines 44-49: `smooth_goe` (`quad` is exact). -/
noncomputable def smoothGoe (N : Nat) (x : ℝ) : ℝ :=
  if edge N < x then ∫ t in (-edge N)..(edge N), semicircle N t
  else ∫ t in (-edge N)..x, semicircle N t

/-- eigenvalues.py line 830: `np.vectorize(smooth_goe)(eigs)`, with `N = len(eigs)`. -/
noncomputable def goeMap (eigs : List ℝ) : List ℝ := eigs.map (smoothGoe eigs.length)

/-- eigenvalues.py lines 810-831, `unfold_goe`. -/
noncomputable def unfoldGoe (eigs : List ℝ) : Py (Unfold.Unfolded ℝ) :=
  Unfold.mkUnfolded eigs (npSort (goeMap eigs)) .none

/-- eigenvalues.py lines 868-872: `smooth_poisson` (`quad` is exact). -/
noncomputable def smoothPoisson (N : Nat) (x : ℝ) : ℝ :=
  N * ∫ t in Set.Iic |x|, exp (-|t|)

/-- eigenvalues.py line 876: `np.vectorize(smooth_poisson)(eigs)`, with `N = len(eigs)`. -/
noncomputable def poissonMap (eigs : List ℝ) : List ℝ := eigs.map (smoothPoisson eigs.length)

/-- eigenvalues.py lines 833-877, `unfold_poisson`. -/
noncomputable def unfoldPoisson (eigs : List ℝ) : Py (Unfold.Unfolded ℝ) :=
  Unfold.mkUnfolded eigs (npSort (poissonMap eigs)) .none

/-- construct.py lines 16-58, `goe_unfolded(matsize)`; `eigs` is what `np.linalg.eigvalsh` returns for the generated matrix. Here `N` is
the size of the matrix. -/
noncomputable def goeUnfolded (matsize : Nat) (eigs : List ℝ) : Py (Unfold.Unfolded ℝ) :=
  Unfold.mkUnfolded eigs (npSort (eigs.map (smoothGoe matsize))) .none

end Analytic
end RMT
