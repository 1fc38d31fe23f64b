import Verif.Model.Generate

/-!
# Model of `Eigenvalues.generate` with arbitrary integer arguments

`Model/Generate.lean` describes calls with a size `>= 0` and a seed that NumPy accepts. Here both are arbitrary integers.
-/

namespace RMT
namespace Gen
open EigM EigValsM Unfold

variable {σ : Type}

/-- `np.random.seed(k)` for an integer `k`: NumPy raises `ValueError` outside `0 .. 2**32 - 1`, before it changes the state. -/
def npSeedInt (R : Rng σ) (k : Int) : Py σ := if k < 0 ∨ 2 ^ 32 ≤ k then .error .valueError else .ok (R.seed k.toNat)

/-- eigenvalues.py line 106, and lines 113-114, construct.py lines 163-164, 174-175: the state after the seeding. For `'poisson'` `np.random.seed(seed)` is called for `None` too. -/
def seedArg (R : Rng σ) (kind : MatrixKind) (entropy s : σ) : Option Int → Py σ
  | some k => npSeedInt R k
  | none => .ok (if kind = .poisson then entropy else s)

/-- eigenvalues.py lines 66-132, `Eigenvalues.generate`, in the order of its statements: the validation of `kind` (line 104), `NotImplementedError` for `'uniform'` (line 111), the seeding, the draws. `np.random.standard_normal` raises `ValueError` for a
negative size without drawing; sizes below 0 take the branch of the full GOE matrix (line 119). From the seeded state on, the call is that of `Model/Generate.lean`. -/
noncomputable def generateInt (R : Rng σ) (eigvalsh : EigSolver) (eigvalshC : (n : Nat) → Matrix (Fin n) (Fin n) ℂ → List ℝ) (size : Int) (kind : KindArg) (seed : Option Int)
    (useTridiagonal : Bool) (entropy s : σ) : Generated × σ :=
  match kind.validate with
  | .error e => (.error e, s)
  | .ok .uniform => (.error .notImplementedError, s)
  | .ok k =>
    match seedArg R k entropy s seed with
    | .error e => (.error e, s)
    | .ok s' => if size < 0 then (.error .valueError, s') else generate R eigvalsh eigvalshC size.toNat (.kind k) none useTridiagonal s' s'

end Gen
end RMT
