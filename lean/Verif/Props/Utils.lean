import Verif.Model.NdArray
import Mathlib.Data.List.Forall2
import Mathlib.Tactic.Linarith
import Mathlib.Tactic.Abel

/-!
# C72, C73, C86, C87: helpers of `utils.py`
-/

set_option linter.unusedSectionVars false

namespace RMT
namespace Props
open Utils Nd

/-! ## C72 -/

section
variable {K : Type} [AddCommGroup K]

/-- The sum and the carry after feeding the updates one by one to `kahan_add`, starting from `(sum, carry)`. -/
def kahanSum (updates : List K) (start : K × K) : K × K :=
  updates.foldl (fun s u => kahanAdd s.1 u s.2) start

/-- **C72 (exact arithmetic).** From a zero carry, repeated `kahan_add` gives the plain sum, and the carry stays zero. -/
theorem C72_exact (updates : List K) (s : K) : kahanSum updates (s, 0) = (s + updates.sum, 0) := by
  induction updates generalizing s with
  | nil => simp [kahanSum]
  | cons u us ih =>
    have : kahanAdd s u (0 : K) = (s + u, 0) := by simp [kahanAdd]
    simp only [kahanSum, List.foldl_cons, this] at ih ⊢
    rw [ih, List.sum_cons, add_assoc]

/-- Sum and carry after feeding the updates one by one to `kahan_add` with rounding `fl`. -/
def kahanSumFl (fl : K → K) (updates : List K) (start : K × K) : K × K :=
  updates.foldl (fun s u => kahanAddFl fl s.1 u s.2) start

/-- The subtractions of one step are exact (in floating point: the update and carry are aligned, and the sum dominates the update, so that the two
subtractions forming the new carry are exact); only the addition to the sum is rounded. -/
def ExactCarry (fl : K → K) (s u c : K) : Prop :=
  fl (u - c) = u - c ∧ fl (fl (s + (u - c)) - s) = fl (s + (u - c)) - s ∧
  fl (fl (s + (u - c)) - s - (u - c)) = fl (s + (u - c)) - s - (u - c)

/-- Every step of the summation satisfies `ExactCarry`. -/
def AllExactCarry (fl : K → K) : List K → K × K → Prop
  | [], _ => True
  | u :: us, s => ExactCarry fl s.1 u s.2 ∧ AllExactCarry fl us (kahanAddFl fl s.1 u s.2)

/-- **C72 (the carry is the error).** When the subtractions are exact, sum minus carry is the exact sum of the updates after any number of steps,
however the additions are rounded: rounding errors do not accumulate. -/
theorem C72_error_is_carry (fl : K → K) (updates : List K) (start : K × K) (h : AllExactCarry fl updates start) :
    (kahanSumFl fl updates start).1 - (kahanSumFl fl updates start).2 = start.1 - start.2 + updates.sum := by
  induction updates generalizing start with
  | nil => simp [kahanSumFl]
  | cons u us ih =>
    obtain ⟨⟨e1, e2, e3⟩, hrest⟩ := h
    have key : (kahanAddFl fl start.1 u start.2).1 - (kahanAddFl fl start.1 u start.2).2 = start.1 - start.2 + u := by
      simp only [kahanAddFl, e1, e2, e3]; abel
    have := ih _ hrest
    simp only [kahanSumFl, List.foldl_cons] at this ⊢
    rw [this, key, List.sum_cons]; abel

end

/-- C72, concrete: rounding down to multiples of 10 of values of at least 100. Summing 100, 4, 4, 4 naively stays at 100; `kahan_add` keeps the lost
part in the carry and delivers 110 with carry -2. -/
def flTen (x : ℤ) : ℤ := if 100 ≤ x then 10 * (x / 10) else x

example : kahanSumFl flTen [100, 4, 4, 4] (0, 0) = (110, -2) := by decide
example : [100, 4, 4, 4].foldl (fun s u => flTen (s + u)) (0 : ℤ) = 100 := by decide
example : AllExactCarry flTen [100, 4, 4, 4] (0, 0) := by
  simp only [AllExactCarry, ExactCarry]; decide

/-! ## C73 -/

theorem size_append (sh : List Nat) (t : Nat) : size (sh ++ [t]) = size sh * t := by
  induction sh with
  | nil => simp [size]
  | cons s ss ih => simp only [size, List.cons_append, List.foldr_cons] at ih ⊢; rw [ih, Nat.mul_assoc]

theorem offset_append {sh idx : List Nat} (t k : Nat) (h : Valid sh idx) :
    offset (sh ++ [t]) (idx ++ [k]) = offset sh idx * t + k := by
  induction h with
  | nil => simp [offset, size]
  | @cons i s is ss _ _ ih =>
    simp only [List.cons_append, offset, ih, size_append]; ring

theorem offset_lt {sh idx : List Nat} (h : Valid sh idx) : offset sh idx < size sh := by
  induction h with
  | nil => simp [offset, size]
  | @cons i s is ss hi _ ih =>
    simp only [offset]
    have : size (s :: ss) = s * size ss := rfl
    rw [this]
    calc i * size ss + offset ss is < i * size ss + size ss := by omega
      _ = (i + 1) * size ss := by ring
      _ ≤ s * size ss := Nat.mul_le_mul_right _ hi

theorem offset_injective {sh idx idx' : List Nat} (h : Valid sh idx) (h' : Valid sh idx') (e : offset sh idx = offset sh idx') :
    idx = idx' := by
  induction h generalizing idx' with
  | nil => cases h'; rfl
  | @cons i s is ss hi hs ih =>
    cases h' with
    | @cons i' _ is' _ hi' hs' =>
      simp only [offset] at e
      have l1 := offset_lt hs
      have l2 := offset_lt hs'
      have hp : 0 < size ss := by omega
      have d1 : (i * size ss + offset ss is) / size ss = i := by
        rw [Nat.mul_comm, Nat.mul_add_div hp, Nat.div_eq_of_lt l1, Nat.add_zero]
      have d2 : (i' * size ss + offset ss is') / size ss = i' := by
        rw [Nat.mul_comm, Nat.mul_add_div hp, Nat.div_eq_of_lt l2, Nat.add_zero]
      have ei : i = i' := by rw [← d1, ← d2, e]
      subst ei
      rw [ih hs' (by omega)]

theorem unravel_spec (sh : List Nat) (n : Nat) (h : n < size sh) : Valid sh (unravel sh n) ∧ offset sh (unravel sh n) = n := by
  induction sh generalizing n with
  | nil =>
    have : n = 0 := by simpa [size] using h
    subst this
    exact ⟨List.Forall₂.nil, rfl⟩
  | cons s ss ih =>
    have e : size (s :: ss) = s * size ss := rfl
    rw [e] at h
    have hp : 0 < size ss := by
      rcases Nat.eq_zero_or_pos (size ss) with h0 | h0
      · rw [h0] at h; omega
      · exact h0
    obtain ⟨h1, h2⟩ := ih (n % size ss) (Nat.mod_lt _ hp)
    refine ⟨List.Forall₂.cons ((Nat.div_lt_iff_lt_mul hp).mpr h) h1, ?_⟩
    simp only [unravel, offset, h2]
    rw [Nat.mul_comm]; exact Nat.div_add_mod n _

/-- **C73 (any dimension).** For an array whose last axis is time, of length `t`, and with at least one more axis, `flatten_4D` succeeds, the result has
shape `(number of voxels, t)`, and the entry of voxel `idx` at time `k` is in row `offset idx`, column `k`. -/
theorem C73_flatten {α : Type} (img : Arr α) (sh : List Nat) (t : Nat) (hsh : img.shape = sh ++ [t]) (hne : sh ≠ []) :
    ∃ out, flatten4D img = .ok out ∧ out.shape = [size sh, t] ∧
      ∀ (idx : List Nat) (k : Nat), Valid sh idx → k < t → out.get [offset sh idx, k] = img.get (idx ++ [k]) := by
  have hs : size [size sh, t] = size img.shape := by
    rw [hsh, size_append]; simp [size]
  refine ⟨⟨[size sh, t], img.data, by rw [img.size_eq, hs]⟩, ?_, rfl, ?_⟩
  · simp only [flatten4D, hsh, List.getLast?_concat, List.dropLast_concat, if_neg hne]
    unfold reshape
    rw [dif_pos hs]
  · intro idx k hv hk
    simp only [Arr.get, hsh, offset_append t k hv]
    simp [offset, size]

/-- **C73 (bijection).** Distinct voxels go to distinct rows, and every row is the row of a voxel. -/
theorem C73_bijective (sh : List Nat) :
    (∀ idx, Valid sh idx → offset sh idx < size sh) ∧
    (∀ idx idx', Valid sh idx → Valid sh idx' → offset sh idx = offset sh idx' → idx = idx') ∧
    ∀ r, r < size sh → ∃ idx, Valid sh idx ∧ offset sh idx = r :=
  ⟨fun _ => offset_lt, fun _ _ => offset_injective, fun r hr => ⟨unravel sh r, unravel_spec sh r hr⟩⟩

/-- **C73.** For a 4-D array of shape `(I, J, K, T)`: voxel `(i, j, k)` is in row `(i J + j) K + k`, with its time course unchanged. -/
theorem C73_four_dim {α : Type} (img : Arr α) (I J K T : Nat) (hsh : img.shape = [I, J, K, T]) :
    ∃ out, flatten4D img = .ok out ∧ out.shape = [I * J * K, T] ∧
      ∀ i j k t, i < I → j < J → k < K → t < T → out.get [(i * J + j) * K + k, t] = img.get [i, j, k, t] := by
  obtain ⟨out, h1, h2, h3⟩ := C73_flatten img [I, J, K] T hsh (by simp)
  refine ⟨out, h1, ?_, ?_⟩
  · rw [h2]; simp [size, Nat.mul_assoc]
  · intro i j k t hi hj hk ht
    have := h3 [i, j, k] t (.cons hi (.cons hj (.cons hk .nil))) ht
    have e : offset [I, J, K] [i, j, k] = (i * J + j) * K + k := by simp [offset, size]; ring
    rwa [e] at this

/-- **C73 (no voxel axis).** A 1-D array is rejected with `TypeError`. -/
theorem C73_one_dim {α : Type} (img : Arr α) (n : Nat) (h : img.shape = [n]) : flatten4D img = .error .typeError := by
  simp [flatten4D, h]

/-- C73, concrete: a 2 × 1 × 2 image with two times. -/
example : (flatten4D (⟨[2, 1, 2, 2], [0, 1, 2, 3, 4, 5, 6, 7], rfl⟩ : Arr Nat)).map (fun a => (a.shape, a.data)) =
    .ok ([4, 2], [0, 1, 2, 3, 4, 5, 6, 7]) := by decide
example : (⟨[4, 2], [0, 1, 2, 3, 4, 5, 6, 7], rfl⟩ : Arr Nat).get [(1 * 1 + 0) * 2 + 1, 0] = some 6 := by decide

/-! ## C86 -/

theorem ndFindFrom_spec {α : Type} [DecidableEq α] (sh : List Nat) (value : α) (l : List α) (n : Nat) :
    (ndFindFrom sh value n l = none ↔ value ∉ l) ∧
    ∀ idx, ndFindFrom sh value n l = some idx →
      ∃ p, idx = unravel sh (n + p) ∧ l[p]? = some value ∧ ∀ q, q < p → l[q]? ≠ some value := by
  induction l generalizing n with
  | nil => simp [ndFindFrom]
  | cons v vs ih =>
    obtain ⟨ih1, ih2⟩ := ih (n + 1)
    simp only [ndFindFrom]
    by_cases hv : v = value
    · simp only [if_pos hv]
      constructor
      · simp [hv]
      · rintro idx ⟨⟩
        exact ⟨0, rfl, by simp [hv], fun q hq => absurd hq (Nat.not_lt_zero q)⟩
    · simp only [if_neg hv]
      constructor
      · rw [ih1, List.mem_cons, not_or]
        exact ⟨fun h => ⟨fun h' => hv h'.symm, h⟩, fun h => h.2⟩
      · intro idx hidx
        obtain ⟨p, hp1, hp2, hp3⟩ := ih2 idx hidx
        refine ⟨p + 1, by rw [hp1]; congr 1; omega, by simpa using hp2, ?_⟩
        intro q hq
        cases q with
        | zero => simpa using hv
        | succ q => simpa using hp3 q (by omega)

/-- **C86.** `nd_find` returns `None` exactly when the value does not occur; otherwise it returns a valid multi-index holding the value, the first
such in C order. -/
theorem C86_nd_find {α : Type} [DecidableEq α] (arr : Arr α) (value : α) :
    (ndFind arr value = none ↔ ∀ idx, Valid arr.shape idx → arr.get idx ≠ some value) ∧
    ∀ idx, ndFind arr value = some idx →
      Valid arr.shape idx ∧ arr.get idx = some value ∧
      ∀ idx', Valid arr.shape idx' → arr.get idx' = some value → offset arr.shape idx ≤ offset arr.shape idx' := by
  obtain ⟨h1, h2⟩ := ndFindFrom_spec arr.shape value arr.data 0
  constructor
  · simp only [ndFind, h1]
    constructor
    · intro h idx _ he
      exact h (List.mem_of_getElem? he)
    · intro h hm
      obtain ⟨p, hp, he⟩ := List.mem_iff_getElem.mp hm
      obtain ⟨hv, ho⟩ := unravel_spec arr.shape p (by rw [← arr.size_eq]; exact hp)
      apply h _ hv
      rw [Arr.get, ho, List.getElem?_eq_getElem hp, he]
  · intro idx hidx
    obtain ⟨p, hp1, hp2, hp3⟩ := h2 idx hidx
    rw [Nat.zero_add] at hp1
    have hp : p < arr.data.length := by
      by_contra hc
      rw [List.getElem?_eq_none (by omega)] at hp2; cases hp2
    obtain ⟨hv, ho⟩ := unravel_spec arr.shape p (by rw [← arr.size_eq]; exact hp)
    subst hp1
    refine ⟨hv, by rw [Arr.get, ho, hp2], ?_⟩
    intro idx' _ he
    rw [ho]
    by_contra hc
    exact hp3 _ (by omega) he

/-- C86, concrete. -/
example : ndFind (⟨[2, 3], [5, 1, 7, 7, 1, 5], rfl⟩ : Arr Nat) 7 = some [0, 2] := by decide
example : ndFind (⟨[2, 3], [5, 1, 7, 7, 1, 5], rfl⟩ : Arr Nat) 8 = none := by decide

/-! ## C87 -/

section
variable {K : Type} [Field K] [LinearOrder K] [IsStrictOrderedRing K]

/-- **C87 (square matrices).** `is_symmetric` of an `n × n` matrix is true exactly when every pair of mirrored entries agrees within the tolerance, in both
directions; with zero tolerances exactly when the matrix equals its transpose. -/
theorem C87_square (rtol atol : K) (n : Nat) (a : Nat → Nat → K) :
    ∃ r, isSymmetric rtol atol n n a = .ok r ∧
      (r = true ↔ ∀ i j, i < n → j < n → |a i j - a j i| ≤ atol + rtol * |a j i|) := by
  refine ⟨_, by simp only [isSymmetric, true_or, if_true]; rfl, ?_⟩
  by_cases h1 : n = 1
  · subst h1
    simp [bcast]
  · simp [h1, bcast]
    constructor
    · intro h i j hi hj; exact h i hi j hj
    · intro h i hi j hj; exact h i j hi hj

/-- **C87 (exactly symmetric matrices).** For non-negative tolerances a symmetric matrix is accepted; with zero tolerances nothing else is. -/
theorem C87_exact (n : Nat) (a : Nat → Nat → K) :
    (∀ rtol atol : K, 0 ≤ rtol → 0 ≤ atol → (∀ i j, i < n → j < n → a i j = a j i) → isSymmetric rtol atol n n a = .ok true) ∧
    (isSymmetric 0 0 n n a = .ok true → ∀ i j, i < n → j < n → a i j = a j i) := by
  constructor
  · intro rtol atol hr ha hs
    obtain ⟨r, h1, h2⟩ := C87_square rtol atol n a
    rw [h1, (h2.mpr ?_)]
    intro i j hi hj
    rw [hs i j hi hj, sub_self, abs_zero]
    positivity
  · intro h i j hi hj
    obtain ⟨r, h1, h2⟩ := C87_square (0 : K) 0 n a
    rw [h1] at h
    cases h
    have := h2.mp rfl i j hi hj
    rw [zero_mul, add_zero, abs_nonpos_iff, sub_eq_zero] at this
    exact this

/-- **C87 (non-square matrices).** They raise `ValueError`, unless one of the sizes is 1. -/
theorem C87_nonsquare_partial (rtol atol : K) (m n : Nat) (a : Nat → Nat → K) (h : m ≠ n) (hm : m ≠ 1) (hn : n ≠ 1) :
    isSymmetric rtol atol m n a = .error .valueError := by
  simp [isSymmetric, h, hm, hn]

/-- **C87 (a row or column is not rejected).** For a single row the transpose is broadcast, and `is_symmetric` says `True` when all entries are equal,
although the matrix is not square. -/
theorem C87_refuted (n : Nat) (c : K) : isSymmetric 0 0 1 n (fun _ _ => c) = .ok true := by
  simp [isSymmetric]

end

/-- C87, concrete. -/
example : isSymmetric (0 : ℚ) 0 2 2 (fun i j => (i : ℚ) + j) = .ok true := by decide +kernel
example : isSymmetric (0 : ℚ) 0 2 2 (fun i j => (i : ℚ) - j) = .ok false := by decide +kernel

end Props
end RMT
