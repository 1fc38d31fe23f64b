import Verif.Model.EigVals
import Verif.Model.Eigenvalues
import Mathlib.Data.Complex.Basic

/-!
# Model of `_eigvals.py` lines 17-35 for matrix arguments

`Model/EigVals.lean` models the constructor with abstract eigenvalue routines over any linear order. Here the entries are complex numbers (an `ndarray` of any numeric
type), and the routines work on real matrices, which is what they are given after line 20.
-/

namespace RMT
namespace EigM
open EigValsM

/-- `np.linalg.eigvals` on real square matrices: its results may be complex. -/
abbrev GenSolver := (n : ℕ) → Matrix (Fin n) (Fin n) ℝ → List ℂ

/-- _eigvals.py line 20: `np.array(values, dtype=np.float64)` of a complex array keeps the real parts (with a `ComplexWarning`). -/
def asFloat {n m : ℕ} (A : Matrix (Fin n) (Fin m) ℂ) : Matrix (Fin n) (Fin m) ℝ := fun i j => (A i j).re

/-- _eigvals.py lines 23-31 for a square real matrix; line 25 compares with the conjugate transpose, for real entries the transpose. Line 31 converts the results of
`eigvals` to `float64`, keeping the real parts. -/
noncomputable def squareEigs (eigvalsh : EigSolver) (eigvals : GenSolver) {n : ℕ} (M : Matrix (Fin n) (Fin n) ℝ) : List ℝ :=
  open Classical in
  if M.transpose = M then eigvalsh n M else (eigvals n M).map Complex.re

/-- _eigvals.py lines 17-35, `EigVals.__init__` with an `n × m` matrix. If `n ≠ m` the comparison in line 25 is false and `eigvals` raises `LinAlgError`. Entries are
finite: for infinite or NaN entries `eigvals` raises `LinAlgError` too. -/
noncomputable def fromMatrix (eigvalsh : EigSolver) (eigvals : GenSolver) {n m : ℕ} (A : Matrix (Fin n) (Fin m) ℂ) : Py (Obj ℝ) :=
  if h : n = m then
    let eigs := npSort (squareEigs eigvalsh eigvals ((asFloat A).submatrix id (Fin.cast h)))
    .ok ⟨eigs, npSort eigs, none⟩
  else .error .linAlgError

end EigM
end RMT
