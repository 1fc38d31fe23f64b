import Verif.Imports

/-! # Specification: rounding to decimals -/

namespace RMT.Spec

/-- `y` is `x` rounded to `k` decimals: a multiple of `10^-k` at distance at most half a unit of the last place, an even multiple in case of a tie. -/
def RoundsTo (k : Nat) (x y : ℚ) : Prop :=
  ∃ m : ℤ, y = m / 10 ^ k ∧ |x - y| ≤ 1 / 2 / 10 ^ k ∧ (|x - y| = 1 / 2 / 10 ^ k → Even m)

/-- The number written in decimal notation by a list of digits. -/
def decimal (cs : List Char) : Nat := cs.foldl (fun n c => 10 * n + (c.toNat - '0'.toNat)) 0

end RMT.Spec
