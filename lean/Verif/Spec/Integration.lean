import Verif.Imports

/-! # Specification: exact integrals of polynomials, grids -/

namespace RMT.Spec

variable {K : Type} [Field K]

/-- The polynomial `p t² + q t + r`. -/
def quad (p q r : K) (t : K) : K := p * t ^ 2 + q * t + r

/-- The exact integral of `p t² + q t + r` from `a` to `b`. -/
def quadIntegral (p q r : K) (a b : K) : K :=
  p * (b ^ 3 - a ^ 3) / 3 + q * (b ^ 2 - a ^ 2) / 2 + r * (b - a)

/-- Any two nodes at most two positions apart are distinct
(e.g. every strictly increasing or strictly decreasing grid). -/
def LocallyDistinct (g : List K) : Prop :=
  ∀ i j (hi : i < g.length) (hj : j < g.length), i < j → j ≤ i + 2 → g[i] ≠ g[j]

end RMT.Spec
