import Verif.Imports

/-!
# Python number formatting

`str(int)` and `"{:1.kf}".format(x)` for the smoother names (`empyricalRMT/smoother.py`).  These model the Python
language: fixed-point formatting rounds the exact value to `k` decimals, ties to even.  Binary
floating-point numbers are rationals, so the argument is a rational number (infinities and NaN are
not modelled).
-/

namespace RMT
namespace Format

/-- `str(d)` for an `int`. -/
def pyStrInt (d : Int) : String :=
  if d < 0 then "-" ++ Nat.repr d.natAbs else Nat.repr d.natAbs

/-- Round a non-negative rational to the nearest integer, ties to even. -/
def roundHalfEven (q : ℚ) : Nat :=
  let f := q.floor.toNat
  let r := q - f
  if r < 1 / 2 then f else if 1 / 2 < r then f + 1 else if f % 2 = 0 then f else f + 1

/-- The last `k` decimal digits of `m`, zero-padded. -/
def padDigits : Nat → Nat → List Char
  | 0, _ => []
  | k + 1, m => padDigits k (m / 10) ++ [Nat.digitChar (m % 10)]

/-- The digits of `m / 10^k` in fixed-point notation with `k` decimals. -/
def fixedDigits (k m : Nat) : String :=
  Nat.repr (m / 10 ^ k) ++ "." ++ String.ofList (padDigits k m)

/-- `"{:1.kf}".format(q)`. -/
def fmtFixed (k : Nat) (q : ℚ) : String :=
  (if q < 0 then "-" else "") ++ fixedDigits k (roundHalfEven (|q| * 10 ^ k))

/-- `np.round(x, 1)`: one decimal, ties to even. -/
def round1 (q : ℚ) : ℚ :=
  (if q < 0 then -1 else 1) * (roundHalfEven (|q| * 10) : ℚ) / 10

end Format
end RMT
