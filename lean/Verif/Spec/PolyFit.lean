import Verif.Imports

/-! # Specification: least-squares polynomials -/

namespace RMT.Spec

variable {K : Type} [Field K]

/-- The polynomial with coefficients `c` (lowest degree first) at `x`: `∑ c_k x^k`. -/
def polyAt (c : List K) (x : K) : K := ∑ k ∈ Finset.range c.length, c.getD k 0 * x ^ k

/-- Sum of squared errors of `f` at the data points `(x_i, y_i)`. -/
def fitError (xs ys : List K) (f : K → K) : K := (List.zipWith (fun x y => (y - f x) ^ 2) xs ys).sum

/-- `c` are the coefficients of a least-squares polynomial of degree at most `d` for the data. -/
def IsPolyLS [LinearOrder K] (c xs ys : List K) (d : Nat) : Prop :=
  c.length = d + 1 ∧
  ∀ c' : List K, c'.length = d + 1 → fitError xs ys (polyAt c) ≤ fitError xs ys (polyAt c')

end RMT.Spec
