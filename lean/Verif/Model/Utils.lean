import Verif.Imports
import Verif.Py

/-!
# Model of `empyricalRMT/utils.py` (numerical helpers)
-/

namespace RMT
namespace Utils

/-- The loop of utils.py lines 114-119 (`find_first`), `i` being the running index. -/
def findFirstFrom {α : Type} [DecidableEq α] (value : α) : Nat → List α → Int
  | _, [] => -1                                              -- line 119
  | i, v :: vs => if v = value then i else findFirstFrom value (i + 1) vs

/-- utils.py lines 114-119, `find_first(arr, value)`. -/
def findFirst {α : Type} [DecidableEq α] (arr : List α) (value : α) : Int :=
  findFirstFrom value 0 arr

/-- utils.py lines 124-128: the loop `for i in range(len(arr))` of `find_last`, from `i` on;
`j = len(arr) - i - 1`. -/
def findLastFrom {α : Type} [DecidableEq α] (arr : List α) (value : α) (i : Nat) : Int :=
  if h : i < arr.length then
    if arr[arr.length - i - 1]'(by omega) = value then ((arr.length - i - 1 : Nat) : Int)
    else findLastFrom arr value (i + 1)
  else -1
termination_by arr.length - i

/-- utils.py lines 122-128, `find_last(arr, value)`. -/
def findLast {α : Type} [DecidableEq α] (arr : List α) (value : α) : Int :=
  findLastFrom arr value 0

/-- utils.py lines 88-103, `kahan_add(current_sum, update, carry_over)`, in exact arithmetic:
returns `(updated_sum, c)`. -/
def kahanAdd {K : Type} [Add K] [Sub K] (currentSum update carryOver : K) : K × K :=
  let remainder := update - carryOver
  let lossy := currentSum + remainder
  let c := (lossy - currentSum) - remainder
  (lossy, c)

/-- utils.py lines 88-103 with every arithmetic operation followed by a rounding `fl`. -/
def kahanAddFl {K : Type} [Add K] [Sub K] (fl : K → K) (currentSum update carryOver : K) : K × K :=
  let remainder := fl (update - carryOver)
  let lossy := fl (currentSum + remainder)
  let c := fl (fl (lossy - currentSum) - remainder)
  (lossy, c)

end Utils
end RMT
