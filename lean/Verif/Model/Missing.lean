import Verif.Model.Eigenvalues
import Verif.Model.MatrixInput
import Mathlib.Data.EReal.Basic
import Mathlib.Order.WithBot

/-!
# Model: arrays with missing (NaN) and infinite values

The other modules describe arrays of finite numbers. Nothing in the constructors rejects NaN or infinities, so this module describes the code written in plain NumPy on them: IEEE comparisons (every comparison
with NaN is false), IEEE arithmetic without rounding and overflow, `np.sort` (NaN last), `np.max`/`np.min` (NaN if there is one) and `np.diff`. The functions compiled with `fastmath=True` may assume that there is no NaN (LLVM flag `nnan`), so nothing
is claimed about them. NumPy's `RuntimeWarning`s are not modelled.
-/

namespace RMT
namespace Missing
open EigValsM EigM

/-- A `float64`: a finite number, an infinity or NaN. Simplification: finite numbers are reals, zeros have no sign. -/
inductive Fl where
  | negInf
  | fin (x : ℝ)
  | posInf
  | nan

/-- The position of a value in `np.sort`'s order: numbers by size, NaN last (documentation of `numpy.sort`). -/
noncomputable def Fl.key : Fl → WithTop EReal
  | .negInf => ((⊥ : EReal) : WithTop EReal)
  | .fin x => ((x : EReal) : WithTop EReal)
  | .posInf => ((⊤ : EReal) : WithTop EReal)
  | .nan => ⊤

theorem Fl.key_injective : Function.Injective Fl.key := by
  intro a b h
  cases a <;> cases b <;> simp_all [Fl.key]

/-- `np.sort`'s order. -/
noncomputable instance : LinearOrder Fl := LinearOrder.lift' Fl.key Fl.key_injective

/-- IEEE `a < b`. -/
def Fl.Lt (a b : Fl) : Prop := a ≠ .nan ∧ b ≠ .nan ∧ a < b

/-- IEEE `a <= b`. -/
def Fl.Le (a b : Fl) : Prop := a ≠ .nan ∧ b ≠ .nan ∧ a ≤ b

/-- IEEE `a - b`. -/
noncomputable def Fl.sub : Fl → Fl → Fl
  | .nan, _ => .nan
  | _, .nan => .nan
  | .fin x, .fin y => .fin (x - y)
  | .fin _, .posInf => .negInf
  | .fin _, .negInf => .posInf
  | .posInf, .posInf => .nan
  | .posInf, _ => .posInf
  | .negInf, .negInf => .nan
  | .negInf, _ => .negInf

noncomputable instance : Sub Fl := ⟨Fl.sub⟩

/-- IEEE `a * r` for a finite `r`. -/
noncomputable def Fl.scale (r : ℝ) : Fl → Fl
  | .nan => .nan
  | .fin x => .fin (x * r)
  | .posInf => if r = 0 then .nan else if 0 < r then .posInf else .negInf
  | .negInf => if r = 0 then .nan else if 0 < r then .negInf else .posInf

/-- `a / n` for a NumPy float `a` and a Python integer `n >= 0`: division by zero gives an infinity or NaN. -/
noncomputable def Fl.divNat (n : ℕ) : Fl → Fl
  | .nan => .nan
  | .posInf => .posInf
  | .negInf => .negInf
  | .fin x => if n = 0 then (if x = 0 then .nan else if 0 < x then .posInf else .negInf) else .fin (x / n)

/-- `np.abs`. -/
noncomputable def Fl.abs : Fl → Fl
  | .nan => .nan
  | .fin x => .fin |x|
  | _ => .posInf

open Classical in
/-- `a[mask]` for the mask `p`. -/
noncomputable def pick (p : Fl → Prop) (l : List Fl) : List Fl := l.filter fun v => decide (p v)

/-- `a.min()`: NaN if there is one; raises `ValueError` on an empty array. -/
noncomputable def npMinFl (l : List Fl) : Py Fl := open Classical in if Fl.nan ∈ l then .ok .nan else npMin l

/-- `a.max()`: NaN, the last value in `np.sort`'s order, if there is one; raises `ValueError` on an empty array. -/
noncomputable def npMaxFl (l : List Fl) : Py Fl := npMax l

/-- step.py line 28: `np.sum(eigs <= x)` for a number `x`. -/
noncomputable def stepScalar (eigs : List Fl) (x : Fl) : ℕ := (pick (fun e => Fl.Le e x) eigs).length

/-- eigenvalues.py lines 567-584, `trim_marchenko_pastur` with known sizes: the trimmed object and the cut points. -/
noncomputable def trimSizes (N T : ℕ) (vals : List Fl) (largest useShifted : Bool) : Py (Obj Fl × Fl × Fl) := do
  let eigMax ← npMaxFl vals                                                    -- line 567
  if T = 0 then .error .zeroDivisionError
  else
    let q := Real.sqrt ((N : ℝ) / T)
    let shift := Fl.fin 1 - Fl.divNat N eigMax                                 -- line 569
    let trims := if useShifted then (Fl.scale ((1 - q) ^ 2) shift, Fl.scale ((1 + q) ^ 2) shift)   -- lines 570-571
      else (Fl.fin ((1 - q) ^ 2), Fl.fin ((1 + q) ^ 2))                        -- line 573
    let kept := if largest then pick (fun v => Fl.Lt trims.2 v) vals           -- line 578
      else pick (fun v => Fl.Lt trims.1 v ∧ Fl.Lt v trims.2) vals              -- line 581
    let o ← initEigVals1d kept
    .ok (o, trims)

/-- eigenvalues.py lines 167-169: the mask of `from_correlations`. -/
noncomputable def correlationValues (data : List Fl) (atol : Fl) : Py (Obj Fl) := initEigVals1d (pick (fun e => Fl.Lt (Fl.abs e) atol) data)

/-- The argument `zeros` of `from_time_series`: a string or a number. -/
inductive Zeros where
  | str (s : String)
  | num (x : Fl)

/-- eigenvalues.py lines 253-270: the zero trimming; `float` is Python's `float` on strings, which accepts `"nan"` and `"inf"`. -/
noncomputable def trimZeros (float : String → Option Fl) (eigs : List Fl) : Zeros → Py (List Fl)
  | .num z => .ok (pick (fun e => Fl.Lt z e) eigs)
  | .str s =>
    if s = "heuristic" then do
      let eMin ← npMinFl eigs
      let minval := open Classical in if Fl.Le eMin (.fin 0) then Fl.scale (-100) eMin else .fin 0
      .ok (pick (fun e => Fl.Lt minval e) eigs)
    else if s = "negative" then .ok (pick (fun e => Fl.Lt (.fin 0) e) eigs)
    else match float s with
      | none => .error .valueError
      | some z => .ok (pick (fun e => Fl.Lt z e) eigs)

/-- eigenvalues.py lines 253-280, the end of `from_time_series` for `N >= 1` series of `T >= 1` points: from the eigenvalues which LAPACK computed (NaN if the data have missing values) to the object and the attribute `_marchenko_shifted`. -/
noncomputable def finishSeries (float : String → Option Fl) (N T : ℕ) (eigs : List Fl) (doTrim : Bool) (zeros : Zeros) : Py (Obj Fl × Fl × Fl) := do
  let eigs' ← (if doTrim then trimZeros float eigs zeros else .ok eigs)
  let o ← initEigVals1d eigs'                                                  -- line 272
  let m ← npMaxFl eigs'                                                        -- line 277
  let shift := Fl.fin 1 - Fl.divNat N m
  let r := Real.sqrt ((N : ℝ) / T)
  .ok (o, Fl.scale ((1 + r) ^ 2) shift, Fl.scale ((1 - r) ^ 2) shift)          -- line 280

/-- IEEE `a == b`. -/
def Fl.Eq (a b : Fl) : Prop := a ≠ .nan ∧ a = b

/-- `np.isfinite`. -/
def Fl.Finite : Fl → Prop
  | .fin _ => True
  | _ => False

/-- The number in a finite float. -/
noncomputable def Fl.toReal : Fl → ℝ
  | .fin x => x
  | _ => 0

open Classical in
/-- _eigvals.py lines 20-35, `EigVals.__init__` with an `n × m` array of floats. Line 25, `np.array_equal(vals.H, vals)`, is false if the shapes differ or an entry is not equal (IEEE) to its mirror image; `np.linalg.eigvalsh` does not check for NaN and
infinities and is a parameter (it may raise); `np.linalg.eigvals` raises `LinAlgError` for arrays that are not square or have a NaN or infinite entry. -/
noncomputable def fromMatrixFl (eigvalsh : (n : ℕ) → Matrix (Fin n) (Fin n) Fl → Py (List Fl)) (eigvals : GenSolver) {n m : ℕ} (A : Matrix (Fin n) (Fin m) Fl) : Py (Obj Fl) :=
  if h : n = m then
    let M : Matrix (Fin n) (Fin n) Fl := A.submatrix id (Fin.cast h)
    if ∀ i j, Fl.Eq (M j i) (M i j) then do
      let eigs ← eigvalsh n M
      initEigVals1d eigs
    else if ∀ i j, (M i j).Finite then initEigVals1d ((eigvals n (M.map Fl.toReal)).map fun z => Fl.fin z.re)
    else .error .linAlgError
  else .error .linAlgError

end Missing
end RMT
