import Verif.Model.Ensemble
import Verif.Model.EigVals

/-!
# Model of the fits of `empyricalRMT/brody.py` and of `Unfolded.fit_brody`

Real numbers. `scipy.optimize.minimize_scalar` is a parameter: a function of the objective and of the bounds.
-/

namespace RMT
namespace Brody
open Real Ensembles EigValsM

/-- What `minimize_scalar` returns: `success` and `x`. -/
structure OptResult where
  success : Bool
  x : ℝ

/-- `minimize_scalar(f, bounds=(lo, hi), method="Bounded")`. -/
abbrev Optimizer := (ℝ → ℝ) → ℝ → ℝ → OptResult

/-- brody.py lines 77-82 and 125-130: bounds, failure test and result of both fits. -/
noncomputable def optimise (opt : Optimizer) (objective : ℝ → ℝ) : Py ℝ :=
  let r := opt objective 1e-5 (1 - 1e-5)
  if r.success then .ok r.x else .error .runtimeError

/-- brody.py line 76: the objective of `fit_brody_mle`, `-np.sum(brody_dist(s, beta))`. -/
noncomputable def mleObjective (s : List ℝ) (beta : ℝ) : ℝ := -(s.map fun x => brodyDist x beta).sum

/-- brody.py lines 61-82, `fit_brody_mle`. -/
noncomputable def fitBrodyMle (opt : Optimizer) (s : List ℝ) : Py ℝ := optimise opt (mleObjective s)

/-- brody.py lines 109-114, `_positive_diffs`. -/
noncomputable def positiveDiffs (s : List ℝ) (beta : ℝ) : List ℝ :=
  (diff ((npSort s).map fun x => 1 - exp (-brodyAlpha beta * x ^ (beta + 1)))).filter fun d => 0 < d

/-- brody.py lines 104 and 123-124: `S_n`; here `n + 1 = len(s)`. -/
noncomputable def spacingObjective (s : List ℝ) (beta : ℝ) : ℝ :=
  -((positiveDiffs s beta).map log).sum / (((s.length : ℝ) - 1) + 1)

/-- brody.py lines 85-130, `fit_brody_max_spacing`. -/
noncomputable def fitBrodyMaxSpacing (opt : Optimizer) (s : List ℝ) : Py ℝ := optimise opt (spacingObjective s)

/-- `str.lower()`, on the letters A-Z; other characters are kept (no other character has an ASCII letter of the method names as its only
lower-case form). -/
def pyLower (s : String) : List Char := s.toList.map Char.toLower

/-- brody.py lines 40-58, `fit_brody`. -/
noncomputable def fitBrody (opt : Optimizer) (s : List ℝ) (method : String) : Py ℝ :=
  let m := pyLower method
  if m = "spacing".toList ∨ m = "spacings".toList then fitBrodyMaxSpacing opt s
  else if m = "mle".toList then fitBrodyMle opt s
  else .error .valueError

/-- The data frame returned by `brody_fit_evaluate` (the scalars are repeated in each row). -/
structure Eval where
  beta : ℝ
  mad : ℝ
  msqd : ℝ
  spacings : List ℝ
  ecdf : List ℝ
  brodyCdf : List ℝ

/-- brody.py lines 133-153, `brody_fit_evaluate`. `ECDF(s).x[1:]` of statsmodels is `np.sort(s)` and `ECDF(s).y[1:]` is
`np.linspace(1/n, 1, n)`; for an empty `s` the division `1/n` raises `ZeroDivisionError` (if the fit has not raised before). -/
noncomputable def brodyFitEvaluate (opt : Optimizer) (s : List ℝ) (method : String) : Py Eval := do
  let beta ← fitBrody opt s method
  if s.length = 0 then .error .zeroDivisionError
  else
    let x := npSort s
    let y := linspace (1 / (s.length : ℝ)) 1 s.length
    let b := x.map fun v => Ensembles.brodyCdf v beta
    .ok { beta := beta
          mad := mean (List.zipWith (fun u v => |u - v|) y b)
          msqd := mean (List.zipWith (fun u v => (u - v) ^ 2) y b)
          spacings := x, ecdf := y, brodyCdf := b }

/-- unfold.py lines 170-201, `Unfolded.fit_brody`: `vals` are the unfolded values; the spacings are those of line 64-65 of `_eigvals.py`. -/
noncomputable def unfoldedFitBrody (opt : Optimizer) (vals : List ℝ) (method : String) : Py Eval :=
  brodyFitEvaluate opt ((diff (npSort vals)).filter fun s => 0 < s) method

end Brody
end RMT
