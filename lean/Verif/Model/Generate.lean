import Verif.Model.Unfold
import Verif.Model.Eigenvalues
import Mathlib.Data.Complex.Basic
import Mathlib.LinearAlgebra.Matrix.ConjTranspose

/-!
# Model of `Eigenvalues.generate` and of `empyricalRMT/construct.py`

The global numpy random state has an abstract type `σ`; a generator says how `np.random.seed` sets it and how a draw changes it.
`np.random.seed(None)` sets it from operating-system entropy, an argument `entropy : σ`. LAPACK routines are parameters.
-/

namespace RMT
namespace Gen
open EigValsM EigM Unfold

/-- A random generator with global state of type `σ`. -/
structure Rng (σ : Type) where
  /-- `np.random.seed(seed)` -/
  seed : Nat → σ
  /-- one draw from the standard normal distribution -/
  normal : σ → ℝ × σ
  /-- one draw from the chi-square distribution with the given degrees of freedom -/
  chisquare : Nat → σ → ℝ × σ

variable {σ : Type}

/-- `np.random.standard_normal(n)`. -/
def normals (R : Rng σ) : Nat → σ → List ℝ × σ
  | 0, s => ([], s)
  | n + 1, s =>
    let x := R.normal s
    let r := normals R n x.2
    (x.1 :: r.1, r.2)

/-- `np.random.chisquare(dfs)`. -/
def chisquares (R : Rng σ) : List Nat → σ → List ℝ × σ
  | [], s => ([], s)
  | d :: ds, s =>
    let x := R.chisquare d s
    let r := chisquares R ds x.2
    (x.1 :: r.1, r.2)

/-- `if seed is not None: np.random.seed(seed)`. -/
def seedIfGiven (R : Rng σ) : Option Nat → σ → σ
  | none, s => s
  | some k, _ => R.seed k

/-- An `n × n` array filled in row-major order. -/
noncomputable def ofRowMajor (n : Nat) (l : List ℝ) : Matrix (Fin n) (Fin n) ℝ :=
  fun i j => l.getD (i.val * n + j.val) 0

/-- construct.py line 166: `(M + M.T) / np.sqrt(2)`. -/
noncomputable def goeOf {n : Nat} (A : Matrix (Fin n) (Fin n) ℝ) : Matrix (Fin n) (Fin n) ℝ :=
  fun i j => (A i j + A j i) / Real.sqrt 2

/-- construct.py lines 162-166, `_generate_GOE_matrix`. -/
noncomputable def generateGOEMatrix (R : Rng σ) (n : Nat) (seed : Option Nat) (s : σ) :
    Matrix (Fin n) (Fin n) ℝ × σ :=
  let d := normals R (n * n) (seedIfGiven R seed s)
  (goeOf (ofRowMajor n d.1), d.2)

/-- construct.py lines 178-184: the tridiagonal matrix from the chi-square draws and the standard normal draws (`np.random.normal(0, √2)` is `√2` times a standard normal
draw). -/
noncomputable def tridiagonalOf (n : Nat) (chi2 z : List ℝ) : Matrix (Fin n) (Fin n) ℝ := fun i j =>
  if i.val = j.val then (Real.sqrt 2 * z.getD i.val 0) / Real.sqrt 2
  else if i.val = j.val + 1 then Real.sqrt (chi2.getD j.val 0) / Real.sqrt 2
  else if j.val = i.val + 1 then Real.sqrt (chi2.getD i.val 0) / Real.sqrt 2
  else 0

/-- construct.py line 176: `size - 1 - np.arange(size - 1)`. -/
def chiRange (n : Nat) : List Nat := (List.range (n - 1)).map fun (k : Nat) => n - 1 - k

/-- construct.py lines 169-184, `_generate_GOE_tridiagonal`. -/
noncomputable def generateGOETridiagonal (R : Rng σ) (n : Nat) (seed : Option Nat) (s : σ) :
    Matrix (Fin n) (Fin n) ℝ × σ :=
  let c := chisquares R (chiRange n) (seedIfGiven R seed s)
  let d := normals R n c.2
  (tridiagonalOf n c.1 d.1, d.2)

/-- eigenvalues.py lines 116-117: the GUE matrix `(A + A*) / 2` from the draws of the real and imaginary parts. -/
noncomputable def gueOf {n : Nat} (A B : Matrix (Fin n) (Fin n) ℝ) : Matrix (Fin n) (Fin n) ℂ := fun i j =>
  (((A i j : ℂ) + Complex.I * (B i j : ℂ)) + (star ((A j i : ℂ) + Complex.I * (B j i : ℂ)))) / 2

/-- eigenvalues.py lines 112-117. -/
noncomputable def generateGUE (R : Rng σ) (n : Nat) (seed : Option Nat) (s : σ) :
    Matrix (Fin n) (Fin n) ℂ × σ :=
  let a := normals R (n * n) (seedIfGiven R seed s)
  let b := normals R (n * n) a.2
  (gueOf (ofRowMajor n a.1) (ofRowMajor n b.1), b.2)

/-- The `kind` argument: a string or a member of `MatrixKind`. -/
inductive KindArg where
  | str (s : String)
  | kind (k : MatrixKind)

/-- `_types.py` lines 30-38, `MatrixKind.validate`. -/
def KindArg.validate : KindArg → Py MatrixKind
  | .str s => validateKind s
  | .kind k => .ok k

/-- eigenvalues.py lines 118-122: the GOE matrix. -/
noncomputable def goeMatrix (R : Rng σ) (n : Nat) (seed : Option Nat) (useTridiagonal : Bool) (s : σ) :
    Matrix (Fin n) (Fin n) ℝ × σ :=
  if n > 500 ∧ useTridiagonal = true then generateGOETridiagonal R n seed s
  else generateGOEMatrix R n seed s

/-- A generated object: eigenvalues and kind. -/
abbrev Generated := Py (Obj ℝ × MatrixKind)

/-- The constructor `Eigenvalues(eigs, kind=kind)`. -/
noncomputable def mkGenerated (eigs : List ℝ) (k : MatrixKind) : Generated := do
  let o ← initEigVals1d eigs
  .ok (o, k)

/-- eigenvalues.py lines 66-132, `Eigenvalues.generate`: the result and the new global random state. `eigvalsh` and `eigvalshC` are LAPACK's routines for real
symmetric and complex Hermitian matrices. `log_time` only prints. -/
noncomputable def generate (R : Rng σ) (eigvalsh : EigSolver)
    (eigvalshC : (n : Nat) → Matrix (Fin n) (Fin n) ℂ → List ℝ) (n : Nat) (kind : KindArg)
    (seed : Option Nat) (useTridiagonal : Bool) (entropy s : σ) : Generated × σ :=
  match kind.validate with
  | .error e => (.error e, s)
  | .ok .poisson =>
    -- lines 106-109: `np.random.seed(seed)` also for `None`
    let s' := match seed with
      | none => entropy
      | some k => R.seed k
    let d := normals R n s'
    (mkGenerated (npSort d.1) .poisson, d.2)
  | .ok .uniform => (.error .notImplementedError, s)
  | .ok .gue =>
    let m := generateGUE R n seed s
    (mkGenerated (eigvalshC n m.1) .gue, m.2)
  | .ok .goe =>
    let m := goeMatrix R n seed useTridiagonal s
    (mkGenerated (eigvalsh n m.1) .goe, m.2)

/-! ## `correlated_eigs` -/

/-- construct.py lines 71-77, the choice of rows: `perm` is `np.random.permutation(n - 1)`; `percent` is a number. -/
def corrIndices (n : Nat) (perm : List Nat) (percent : ℚ) : List Nat :=
  let correlated := perm.map (· + 1)
  let last := ⌊percent / 100 * n⌋
  pySlice correlated 0 last

/-- construct.py lines 75-77, the loop: row `i` becomes `scale * (A[0] + noise)`, where the draws for row `i` are given by
`noise i` and `scale i`; rows are lists. -/
noncomputable def correlateRows (scale : Nat → ℝ) (noise : Nat → List ℝ) (A : List (List ℝ)) (idx : List Nat) :
    List (List ℝ) :=
  idx.foldl (fun A i => A.set i ((List.zipWith (· + ·) (A.headD []) (noise i)).map (scale i * ·))) A

end Gen
end RMT
