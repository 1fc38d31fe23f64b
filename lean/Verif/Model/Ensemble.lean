import Verif.Model.Numeric
import Mathlib.Analysis.SpecialFunctions.Gamma.Basic
import Mathlib.Analysis.SpecialFunctions.Pow.Real
import Mathlib.Analysis.SpecialFunctions.Log.Basic
import Mathlib.NumberTheory.Harmonic.EulerMascheroni
import Mathlib.Analysis.Real.Pi.Bounds

/-!
# Model of `empyricalRMT/ensemble.py` and of the densities of `empyricalRMT/brody.py`

Real numbers. Array functions apply a function of one number to each entry of a grid.
-/

namespace RMT
namespace Ensembles
open Real

/-- The grid: the explicit values if given, else `np.linspace(lo, hi, n)` (ensemble.py lines 78-82 and the same lines of the other methods). -/
noncomputable def gridOf (explicit : Option (List ℝ)) (lo hi : ℝ) (n : Nat) : List ℝ :=
  match explicit with
  | some s => s
  | none => linspace lo hi n

/-- `np.clip(s, 0, None)` of one entry. -/
noncomputable def clip0 (s : ℝ) : ℝ := max s 0

/-! ## Brody -/

/-- brody.py lines 16-17, ensemble.py lines 148-149: `alpha`. -/
noncomputable def brodyAlpha (beta : ℝ) : ℝ := Gamma ((beta + 2) / (beta + 1)) ^ (beta + 1)

/-- brody.py lines 10-18, `brody_dist` of one spacing `s ≥ 0` (the power of a negative number with a non-integer exponent is NaN in numpy). -/
noncomputable def brodyDist (s beta : ℝ) : ℝ :=
  (beta + 1) * brodyAlpha beta * s ^ beta * exp (-brodyAlpha beta * s ^ (beta + 1))

/-- brody.py lines 21-25, `brody_cdf` of one spacing `s ≥ 0`. -/
noncomputable def brodyCdf (s beta : ℝ) : ℝ := 1 - exp (-brodyAlpha beta * s ^ (beta + 1))

/-! ## Poisson -/

/-- ensemble.py line 83: the entry of `Poisson.nnsd` for `s`. -/
noncomputable def poissonDensity (s : ℝ) : ℝ := exp (-s)

/-- ensemble.py lines 57-83, `Poisson.nnsd`. -/
noncomputable def poissonNnsd (range : ℝ × ℝ) (n : Nat) (spacings : Option (List ℝ)) : List ℝ :=
  (gridOf spacings range.1 range.2 n).map poissonDensity

/-- ensemble.py lines 111-112: the entry of `Poisson.nnsd_cdf` for `s`. -/
noncomputable def poissonCdf (s : ℝ) : ℝ := 1 - exp (-clip0 s)

/-- ensemble.py lines 85-112, `Poisson.nnsd_cdf`. -/
noncomputable def poissonNnsdCdf (range : ℝ × ℝ) (n : Nat) (spacings : Option (List ℝ)) : List ℝ :=
  (gridOf spacings range.1 range.2 n).map poissonCdf

/-- ensemble.py lines 114-161, `Poisson.nnnsd` (the warning is not modelled). -/
noncomputable def poissonNnnsd (range : ℝ × ℝ) (n : Nat) (spacings : Option (List ℝ)) : List ℝ :=
  (gridOf spacings range.1 range.2 n).map fun s => brodyDist s 0.6

/-- ensemble.py line 186: the entry of `Poisson.spectral_rigidity`. -/
noncomputable def poissonRigidity (L : ℝ) : ℝ := L / 15

/-- ensemble.py lines 210-212: the entry of `Poisson.level_variance`. -/
noncomputable def poissonLevelVar (L : ℝ) : ℝ := L

/-! ## GOE -/

/-- ensemble.py lines 242-243: the entry of `GOE.nnsd` for `s`. -/
noncomputable def goeDensity (s : ℝ) : ℝ := ((π * s) / 2) * exp (-(π / 4) * s * s)

/-- ensemble.py lines 216-243, `GOE.nnsd`. -/
noncomputable def goeNnsd (range : ℝ × ℝ) (n : Nat) (spacings : Option (List ℝ)) : List ℝ :=
  (gridOf spacings range.1 range.2 n).map goeDensity

/-- ensemble.py lines 271-273: the entry of `GOE.nnsd_cdf` for `s`. -/
noncomputable def goeCdf (s : ℝ) : ℝ := 1 - exp ((-π / 4) * clip0 s * clip0 s)

/-- ensemble.py lines 245-273, `GOE.nnsd_cdf`. -/
noncomputable def goeNnsdCdf (range : ℝ × ℝ) (n : Nat) (spacings : Option (List ℝ)) : List ℝ :=
  (gridOf spacings range.1 range.2 n).map goeCdf

/-- ensemble.py line 311: the formula of `GOE.nnnsd` for the scaled spacing `s`. -/
noncomputable def goeNextDensity (s : ℝ) : ℝ :=
  (2 ^ 18 / (3 ^ 6 * π ^ 3)) * (s ^ 4) * exp (-((64 / (9 * π)) * (s * s)))

/-- ensemble.py lines 275-313, `GOE.nnnsd`: the grid made from the range is divided by 2, explicit spacings are not. -/
noncomputable def goeNnnsd (range : ℝ × ℝ) (n : Nat) (spacings : Option (List ℝ)) : List ℝ :=
  (match spacings with
    | some s => s
    | none => (linspace range.1 range.2 n).map fun s => s / 2).map goeNextDensity

/-- ensemble.py line 339: the entry of `GOE.spectral_rigidity`. -/
noncomputable def goeRigidity (L : ℝ) : ℝ :=
  (1 / (π ^ 2)) * (log (2 * π * L) + eulerMascheroniConstant - 5 / 4 - (π ^ 2) / 8)

/-- ensemble.py line 365: the entry of `GOE.level_variance`. -/
noncomputable def goeLevelVar (L : ℝ) : ℝ :=
  (2 / (π ^ 2)) * (log (2 * π * L) + eulerMascheroniConstant + 1 - (π ^ 2) / 8)

/-! ## GUE -/

/-- ensemble.py lines 395-396: the entry of `GUE.nnsd` for `s`. -/
noncomputable def gueDensity (s : ℝ) : ℝ := (32 / π ^ 2) * (s * s) * exp (-(4 * s * s) / π)

/-- ensemble.py lines 369-396, `GUE.nnsd`: the grid always has 10000 points. -/
noncomputable def gueNnsd (range : ℝ × ℝ) (_n : Nat) (spacings : Option (List ℝ)) : List ℝ :=
  (gridOf spacings range.1 range.2 10000).map gueDensity

/-- ensemble.py lines 398-425, `GUE.nnnsd`. -/
def gueNnnsd (_range : ℝ × ℝ) (_n : Nat) (_spacings : Option (List ℝ)) : Py (List ℝ) :=
  .error .notImplementedError

/-- ensemble.py line 451: the entry of `GUE.spectral_rigidity`. -/
noncomputable def gueRigidity (L : ℝ) : ℝ :=
  (1 / (2 * (π ^ 2))) * (log (2 * π * L) + eulerMascheroniConstant - 5 / 4)

/-- ensemble.py line 477: the entry of `GUE.level_variance`. -/
noncomputable def gueLevelVar (L : ℝ) : ℝ :=
  (1 / (π ^ 2)) * (log (2 * π * L) + eulerMascheroniConstant + 1)

/-! ## GSE -/

/-- ensemble.py lines 507-509: the entry of `GSE.nnsd` for `s`. -/
noncomputable def gseDensity (s : ℝ) : ℝ :=
  (262144 / (729 * π ^ 3)) * (s ^ 4) * exp (-((64 / (9 * π)) * (s * s)))

/-- ensemble.py lines 481-509, `GSE.nnsd`: the grid always has 10000 points, all equal to the lower end of the range. -/
noncomputable def gseNnsd (range : ℝ × ℝ) (_n : Nat) (spacings : Option (List ℝ)) : List ℝ :=
  (gridOf spacings range.1 range.1 10000).map gseDensity

/-- ensemble.py lines 512-539, `GSE.nnnsd`. -/
def gseNnnsd (_range : ℝ × ℝ) (_n : Nat) (_spacings : Option (List ℝ)) : Py (List ℝ) :=
  .error .notImplementedError

/-- ensemble.py line 566: the entry of `GSE.spectral_rigidity`. -/
noncomputable def gseRigidity (L : ℝ) : ℝ :=
  (1 / (4 * (π ^ 2))) * (log (4 * π * L) + eulerMascheroniConstant - 5 / 4 + (π ^ 2) / 8)

/-- ensemble.py line 592: the entry of `GSE.level_variance`. -/
noncomputable def gseLevelVar (L : ℝ) : ℝ :=
  (1 / (2 * (π ^ 2))) * (log (4 * π * L) + eulerMascheroniConstant + 1 + (π ^ 2) / 8)

/-! ## Dispatch -/

/-- The four ensembles. -/
inductive Ens where
  | poisson | goe | gue | gse
  deriving DecidableEq, Repr

/-- The density of the nearest-neighbour spacing. -/
noncomputable def Ens.density : Ens → ℝ → ℝ
  | .poisson => poissonDensity
  | .goe => goeDensity
  | .gue => gueDensity
  | .gse => gseDensity

/-- The method `nnsd`. -/
noncomputable def Ens.nnsd : Ens → ℝ × ℝ → Nat → Option (List ℝ) → List ℝ
  | .poisson => poissonNnsd
  | .goe => goeNnsd
  | .gue => gueNnsd
  | .gse => gseNnsd

/-- The method `nnnsd`. -/
noncomputable def Ens.nnnsd : Ens → ℝ × ℝ → Nat → Option (List ℝ) → Py (List ℝ)
  | .poisson => fun r n s => .ok (poissonNnnsd r n s)
  | .goe => fun r n s => .ok (goeNnnsd r n s)
  | .gue => gueNnnsd
  | .gse => gseNnnsd

/-- The entry of `spectral_rigidity`. -/
noncomputable def Ens.rigidityAt : Ens → ℝ → ℝ
  | .poisson => poissonRigidity
  | .goe => goeRigidity
  | .gue => gueRigidity
  | .gse => gseRigidity

/-- The entry of `level_variance`. -/
noncomputable def Ens.levelVarAt : Ens → ℝ → ℝ
  | .poisson => poissonLevelVar
  | .goe => goeLevelVar
  | .gue => gueLevelVar
  | .gse => gseLevelVar

/-- The method `spectral_rigidity` (ensemble.py lines 163-186, 315-339, 427-451, 541-566). -/
noncomputable def Ens.spectralRigidity (e : Ens) (minL maxL : ℝ) (size : Nat) (L : Option (List ℝ)) : List ℝ :=
  (gridOf L minL maxL size).map e.rigidityAt

/-- The method `level_variance` (ensemble.py lines 188-212, 341-365, 453-477, 568-592). -/
noncomputable def Ens.levelVariance (e : Ens) (minL maxL : ℝ) (size : Nat) (L : Option (List ℝ)) : List ℝ :=
  (gridOf L minL maxL size).map e.levelVarAt

end Ensembles
end RMT
