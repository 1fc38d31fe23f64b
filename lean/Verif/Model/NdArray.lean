import Verif.Model.Utils

/-!
# Model of the array helpers of `empyricalRMT/utils.py`: `flatten_4D`, `nd_find`, `is_symmetric`

An n-dimensional array is its shape and its entries in C (row-major) order, the order in which `reshape` and `np.ndenumerate` read them.
-/

namespace RMT
namespace Nd

/-- Number of entries of an array of the given shape. -/
def size (shape : List Nat) : Nat := shape.foldr (· * ·) 1

/-- Position of the entry with multi-index `idx` in C order. -/
def offset : List Nat → List Nat → Nat
  | _ :: ss, i :: is => i * size ss + offset ss is
  | _, _ => 0

/-- The multi-index has the length of the shape and each component is in range. -/
def Valid (shape idx : List Nat) : Prop := List.Forall₂ (· < ·) idx shape

/-- A numpy array. -/
structure Arr (α : Type) where
  shape : List Nat
  data : List α
  size_eq : data.length = size shape

/-- `a[idx]` for a valid multi-index. -/
def Arr.get {α : Type} (a : Arr α) (idx : List Nat) : Option α := a.data[offset a.shape idx]?

/-- The result of `reshape` (entries in C order are kept): `ValueError` when the sizes differ. -/
def reshape {α : Type} (a : Arr α) (shape : List Nat) : Py (Arr α) :=
  if h : size shape = size a.shape then .ok ⟨shape, a.data, by rw [a.size_eq, h]⟩ else .error .valueError

/-- utils.py lines 131-133, `flatten_4D` of an array of any dimension. For a 0-dimensional array `img4D.shape[-1]` raises `IndexError`; for a
1-dimensional one `np.prod(())` is the float `1.0`, which `reshape` rejects with `TypeError`. (For a value which is not an array the
code returns `None`; not modelled.) -/
def flatten4D {α : Type} (img : Arr α) : Py (Arr α) :=
  match img.shape.getLast? with
  | none => .error .indexError
  | some t =>
    if img.shape.dropLast = [] then .error .typeError
    else reshape img [size img.shape.dropLast, t]

/-- The multi-index at position `n` in C order (`np.ndenumerate`). -/
def unravel : List Nat → Nat → List Nat
  | [], _ => []
  | _ :: ss, n => n / size ss :: unravel ss (n % size ss)

/-- utils.py lines 106-111, the loop of `nd_find` over `np.ndenumerate(arr)`, from position `n` on. -/
def ndFindFrom {α : Type} [DecidableEq α] (shape : List Nat) (value : α) : Nat → List α → Option (List Nat)
  | _, [] => none
  | n, v :: vs => if v = value then some (unravel shape n) else ndFindFrom shape value (n + 1) vs

/-- utils.py lines 106-111, `nd_find(arr, value)`. -/
def ndFind {α : Type} [DecidableEq α] (arr : Arr α) (value : α) : Option (List Nat) :=
  ndFindFrom arr.shape value 0 arr.data

/-- Entry `(i, j)` of an `m × n` matrix broadcast to a larger one: the index along an axis of size 1 is 0. -/
def bcast (size i : Nat) : Nat := if size = 1 then 0 else i

/-- utils.py lines 31-32, `is_symmetric(a)` for an `m × n` matrix with entries `a i j`: `np.allclose(a, a.T)`, with the broadcasting of the
two shapes `(m, n)` and `(n, m)`; incompatible shapes raise `ValueError`. -/
def isSymmetric {K : Type} [Field K] [LinearOrder K] (rtol atol : K) (m n : Nat) (a : Nat → Nat → K) : Py Bool :=
  if m = n ∨ m = 1 ∨ n = 1 then
    let N := if m = 1 then n else m
    .ok ((List.range N).all fun i => (List.range N).all fun j =>
      decide (|a (bcast m i) (bcast n j) - a (bcast m j) (bcast n i)| ≤ atol + rtol * |a (bcast m j) (bcast n i)|))
  else .error .valueError

end Nd
end RMT
