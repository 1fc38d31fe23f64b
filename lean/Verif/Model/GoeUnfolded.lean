import Verif.Model.Analytic
import Verif.Model.Generate

/-! # Model of `goe_unfolded` with its random matrix -/

namespace RMT
namespace Analytic
open Gen EigM EigValsM

/-- construct.py lines 16-58, the whole of `goe_unfolded(matsize)`: the tridiagonal matrix is drawn for every size (line 51), without a seed; `eh` is `np.linalg.eigvalsh`. The printed progress messages are not modelled. -/
noncomputable def goeUnfoldedRun {σ : Type} (R : Rng σ) (eh : EigSolver) (matsize : Nat) (s : σ) : Py (Unfold.Unfolded ℝ) × σ :=
  let M := generateGOETridiagonal R matsize none s
  (goeUnfolded matsize (eh matsize M.1), M.2)

end Analytic
end RMT
