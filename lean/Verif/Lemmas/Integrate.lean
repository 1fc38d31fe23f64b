import Verif.Model.Rigidity
import Verif.Lemmas.Numeric
import Verif.Spec.Integration

/-! # Lemmas on the integrators -/

namespace RMT
namespace Rigidity
open Spec

variable {K : Type} [Field K]

/-- structural form of the trapezoid rule -/
def trapzS : List K → List K → K
  | a :: b :: l, u :: v :: m => (b - a) * (u + v) / 2 + trapzS (b :: l) (v :: m)
  | _, _ => 0

theorem trapzFrom_eq (grid vals : List K) (hl : vals.length = grid.length) (i : Nat) (acc : K) :
    trapzFrom grid vals i acc = acc + trapzS (grid.drop i) (vals.drop i) := by
  fun_induction trapzFrom grid vals i acc with
  | case1 i acc hlt w h ih =>
    rw [ih]
    have e1 : grid.drop i = grid[i] :: grid[i+1] :: grid.drop (i + 2) := by
      rw [List.drop_eq_getElem_cons (by omega), List.drop_eq_getElem_cons (by omega)]
    have e2 : vals.drop i = vals[i] :: vals[i+1] :: vals.drop (i + 2) := by
      rw [List.drop_eq_getElem_cons (by omega), List.drop_eq_getElem_cons (by omega)]
    have e3 : grid.drop (i+1) = grid[i+1] :: grid.drop (i + 2) := by
      rw [List.drop_eq_getElem_cons (by omega)]
    have e4 : vals.drop (i+1) = vals[i+1] :: vals.drop (i + 2) := by
      rw [List.drop_eq_getElem_cons (by omega)]
    rw [e1, e2, trapzS, ← e3, ← e4]
    have hw : w = grid[i+1] - grid[i] := by
      show nth grid (i+1) - nth grid i = _
      rw [nth_of_eq grid (i+1) (i+1) (by push_cast; ring) (by omega), nth_nat grid i (by omega)]
    have hh : h = vals[i] + vals[i+1] := by
      show nth vals i + nth vals (i+1) = _
      rw [nth_of_eq vals (i+1) (i+1) (by push_cast; ring) (by omega), nth_nat vals i (by omega)]
    rw [hw, hh]; ring
  | case2 i acc hlt =>
    have : trapzS (grid.drop i) (vals.drop i) = 0 := by
      have h1 : (grid.drop i).length ≤ 1 := by simp; omega
      match hg : grid.drop i, h1 with
      | [], _ => simp [trapzS]
      | [a], _ => simp [trapzS]
      | a :: b :: l, h1 => simp at h1
    rw [this, add_zero]

theorem integrateFast_eq (grid vals : List K) (hl : vals.length = grid.length) :
    integrateFast grid vals = trapzS grid vals := by
  simp [integrateFast, trapzFrom_eq grid vals hl]

/-! ### Simpson -/

theorem simps_identity_aux [CharZero K] (x h k : K) (p q r : K) (h0 : h ≠ 0) (h1 : k ≠ 0)
    (h2 : k + h ≠ 0) :
    quad p q r (x + h) * (k ^ 3 + h ^ 3 + 3 * k * h * (k + h)) / (6 * k * h) +
        quad p q r x * (2 * h ^ 3 - k ^ 3 + 3 * k * h ^ 2) / (6 * h * (k + h)) +
        quad p q r (x + h + k) * (2 * k ^ 3 - h ^ 3 + 3 * h * k ^ 2) / (6 * k * (k + h)) =
      quadIntegral p q r x (x + h + k) := by
  unfold quad quadIntegral
  field_simp
  ring

theorem simps_identity [CharZero K] (x0 x1 x2 : K) (p q r : K) (h0 : x1 - x0 ≠ 0) (h1 : x2 - x1 ≠ 0)
    (h2 : (x2 - x1) + (x1 - x0) ≠ 0) :
    quad p q r x1 * ((x2 - x1) ^ 3 + (x1 - x0) ^ 3 + 3 * (x2 - x1) * (x1 - x0) * ((x2 - x1) + (x1 - x0))) /
          (6 * (x2 - x1) * (x1 - x0)) +
        quad p q r x0 * (2 * (x1 - x0) ^ 3 - (x2 - x1) ^ 3 + 3 * (x2 - x1) * (x1 - x0) ^ 2) /
          (6 * (x1 - x0) * ((x2 - x1) + (x1 - x0))) +
        quad p q r x2 * (2 * (x2 - x1) ^ 3 - (x1 - x0) ^ 3 + 3 * (x1 - x0) * (x2 - x1) ^ 2) /
          (6 * (x2 - x1) * ((x2 - x1) + (x1 - x0))) =
      quadIntegral p q r x0 x2 := by
  have := simps_identity_aux x0 (x1 - x0) (x2 - x1) p q r h0 h1 h2
  simpa only [add_sub_cancel] using this

theorem simps_correction_aux [CharZero K] (x h k : K) (p q r : K) (h0 : h ≠ 0) (h2 : h + k ≠ 0) :
    quad p q r (x + h + k) * (2 * k ^ 2 + 3 * h * k) / (6 * (h + k)) +
        quad p q r (x + h) * (k ^ 2 + 3 * k * h) / (6 * h) -
        quad p q r x * k ^ 3 / (6 * h * (h + k)) =
      quadIntegral p q r (x + h) (x + h + k) := by
  unfold quad quadIntegral
  field_simp
  ring

theorem simps_correction_identity [CharZero K] (x0 x1 x2 : K) (p q r : K) (h0 : x1 - x0 ≠ 0)
    (h2 : (x1 - x0) + (x2 - x1) ≠ 0) :
    quad p q r x2 * (2 * (x2 - x1) ^ 2 + 3 * (x1 - x0) * (x2 - x1)) / (6 * ((x1 - x0) + (x2 - x1))) +
        quad p q r x1 * ((x2 - x1) ^ 2 + 3 * (x2 - x1) * (x1 - x0)) / (6 * (x1 - x0)) -
        quad p q r x0 * (x2 - x1) ^ 3 / (6 * (x1 - x0) * ((x1 - x0) + (x2 - x1))) =
      quadIntegral p q r x1 x2 := by
  have := simps_correction_aux x0 (x1 - x0) (x2 - x1) p q r h0 h2
  simpa only [add_sub_cancel] using this

theorem nth_diff (grid : List K) (z : Int) (i : Nat) (hz : z = i) (h : i + 1 < grid.length) :
    nth (diff grid) z = grid[i + 1] - grid[i] := by
  have hl : i < (diff grid).length := by rw [length_diff]; omega
  rw [nth_of_eq _ z i hz hl, getElem_diff]

theorem nth_map_of_eq (f : K → K) (grid : List K) (z : Int) (i : Nat) (hz : z = i)
    (h : i < grid.length) : nth (grid.map f) z = f grid[i] := by
  rw [nth_of_eq _ z i hz (by simpa using h), List.getElem_map]

theorem simpsFrom_exact [CharZero K] (grid : List K) (p q r : K) (hd : LocallyDistinct grid)
    (N i : Nat) (acc : K) (hi : i % 2 = 1) (hN : i ≤ N + 1) (hg : grid.length = N + 1) :
    simpsFrom (diff grid) (grid.map (quad p q r)) N i acc =
      acc + quadIntegral p q r (grid[i - 1]'(by omega)) (grid[N / 2 * 2]'(by omega)) := by
  fun_induction simpsFrom (diff grid) (grid.map (quad p q r)) N i acc with
  | case1 i acc hlt h1 h0 hph r1 r2 r3 ih =>
    rw [ih (by omega) (by omega)]
    have E1 : h1 = grid[i+1] - grid[i] := nth_diff grid i i rfl (by omega)
    have E0 : h0 = grid[i] - grid[i-1] := by
      have := nth_diff grid ((i:Int) - 1) (i - 1) (by omega) (by omega)
      simpa only [Nat.sub_add_cancel (show 1 ≤ i by omega)] using this
    have V1 : nth (grid.map (quad p q r)) i = quad p q r grid[i] :=
      nth_map_of_eq _ grid i i rfl (by omega)
    have V0 : nth (grid.map (quad p q r)) ((i:Int) - 1) = quad p q r grid[i-1] :=
      nth_map_of_eq _ grid _ (i-1) (by omega) (by omega)
    have V2 : nth (grid.map (quad p q r)) ((i:Int) + 1) = quad p q r grid[i+1] :=
      nth_map_of_eq _ grid _ (i+1) (by omega) (by omega)
    have n0 : grid[i] - grid[i-1] ≠ 0 := by
      have := hd (i-1) i (by omega) (by omega) (by omega) (by omega)
      exact sub_ne_zero.mpr (Ne.symm this)
    have n1 : grid[i+1] - grid[i] ≠ 0 := by
      have := hd i (i+1) (by omega) (by omega) (by omega) (by omega)
      exact sub_ne_zero.mpr (Ne.symm this)
    have n2 : (grid[i+1] - grid[i]) + (grid[i] - grid[i-1]) ≠ 0 := by
      have := hd (i-1) (i+1) (by omega) (by omega) (by omega) (by omega)
      rw [sub_add_sub_cancel]
      exact sub_ne_zero.mpr (Ne.symm this)
    have key := simps_identity grid[i-1] grid[i] grid[i+1] p q r n0 n1 n2
    have R3 : r3 = acc + quadIntegral p q r grid[i-1] grid[i+1] := by
      rw [← key]
      simp only [r3, r2, r1, hph]
      rw [V1, V0, V2, E1, E0]
      ring
    rw [R3]
    have : i + 2 - 1 = i + 1 := by omega
    simp only [this]
    unfold quadIntegral
    ring
  | case2 i acc hlt =>
    have : i - 1 = N / 2 * 2 := by omega
    simp only [this]
    unfold quadIntegral
    ring

theorem intSimps_exact [CharZero K] (grid : List K) (p q r : K) (hd : LocallyDistinct grid)
    (hg : grid ≠ []) (h3 : grid.length ≠ 2) :
    intSimpsNonunif grid (grid.map (quad p q r)) =
      quadIntegral p q r (grid.head hg) (grid.getLast hg) := by
  have hpos : 0 < grid.length := List.length_pos_iff.mpr hg
  unfold intSimpsNonunif
  simp only
  obtain ⟨N, hN⟩ : ∃ N, grid.length = N + 1 := ⟨grid.length - 1, by omega⟩
  have hN' : grid.length - 1 = N := by omega
  rw [List.head_eq_getElem, List.getLast_eq_getElem]
  simp only [hN']
  rw [simpsFrom_exact grid p q r hd N 1 0 (by omega) (by omega) hN]
  split_ifs with hpar
  · have hN3 : 3 ≤ N := by omega
    have E1 : nth (diff grid) ((N:Int) - 1) = grid[N] - grid[N-1] := by
      have := nth_diff grid ((N:Int) - 1) (N - 1) (by omega) (by omega)
      simpa only [Nat.sub_add_cancel (show 1 ≤ N by omega)] using this
    have E0 : nth (diff grid) ((N:Int) - 2) = grid[N-1] - grid[N-2] := by
      have := nth_diff grid ((N:Int) - 2) (N - 2) (by omega) (by omega)
      simpa only [show N - 2 + 1 = N - 1 by omega] using this
    have V2 : nth (grid.map (quad p q r)) N = quad p q r grid[N] :=
      nth_map_of_eq _ grid N N rfl (by omega)
    have V1 : nth (grid.map (quad p q r)) ((N:Int) - 1) = quad p q r grid[N-1] :=
      nth_map_of_eq _ grid _ (N-1) (by omega) (by omega)
    have V0 : nth (grid.map (quad p q r)) ((N:Int) - 2) = quad p q r grid[N-2] :=
      nth_map_of_eq _ grid _ (N-2) (by omega) (by omega)
    have n0 : grid[N-1] - grid[N-2] ≠ 0 := by
      have := hd (N-2) (N-1) (by omega) (by omega) (by omega) (by omega)
      exact sub_ne_zero.mpr (Ne.symm this)
    have n2 : (grid[N-1] - grid[N-2]) + (grid[N] - grid[N-1]) ≠ 0 := by
      have := hd (N-2) N (by omega) (by omega) (by omega) (by omega)
      rw [add_comm, sub_add_sub_cancel]
      exact sub_ne_zero.mpr (Ne.symm this)
    have key := simps_correction_identity grid[N-2] grid[N-1] grid[N] p q r n0 n2
    rw [V2, V1, V0, E1, E0]
    have hidx : N / 2 * 2 = N - 1 := by omega
    simp only [hidx]
    have : ∀ A B C D : K, 0 + A + B + C - D = A + (B + C - D) := by intros; ring
    rw [this, key]
    unfold quadIntegral
    simp
    ring
  · have hidx : N / 2 * 2 = N := by omega
    simp only [hidx]
    simp

end Rigidity
end RMT
