import Verif.Lemmas.Integrate
import Verif.Lemmas.LeastSquares
import Verif.Lemmas.Step

/-! # Lemmas on rigidity samples: sign, shift and scale invariance -/

namespace RMT
namespace Step

section mono
variable {α β : Type} [LinearOrder α] [LinearOrder β] {φ : α → β} (hφ : StrictMono φ)
include hφ

theorem skipLoop_map (e0 : α) (x : List α) (j : Nat) :
    skipLoop (φ e0) (x.map φ) j = skipLoop e0 x j := by
  fun_induction skipLoop e0 x j with
  | case1 j hlt hx ih => rw [skipLoop]; simp [hlt, hφ.lt_iff_lt, hx, ih]
  | case2 j hlt hx => rw [skipLoop]; simp [hlt, hφ.lt_iff_lt, hx]
  | case3 j hlt => rw [skipLoop]; simp [hlt]

theorem lookAhead_map (e : α) (x : List α) (count j : Nat) (ret : List Nat) :
    lookAhead (φ e) (x.map φ) count j ret = lookAhead e x count j ret := by
  fun_induction lookAhead e x count j ret with
  | case1 j ret hlt hx ih => rw [lookAhead]; simp [hlt, hφ.lt_iff_lt, hx, ih]
  | case2 j ret hlt hx => rw [lookAhead]; simp [hlt, hφ.lt_iff_lt, hx]
  | case3 j ret hlt => rw [lookAhead]; simp [hlt]

theorem mainLoop_map (eigs x : List α) (i j count : Nat) (ret : List Nat) :
    mainLoop (eigs.map φ) (x.map φ) i j count ret = mainLoop eigs x i j count ret := by
  fun_induction mainLoop eigs x i j count ret with
  | case1 i j count ret h hle ih => rw [mainLoop]; simp [h.1, h.2, hφ.le_iff_le, hle, ih]
  | case2 i j count ret h hle ih =>
    rw [mainLoop]
    simp only [List.length_map, h, List.getElem_map, hφ.le_iff_le, hle,
      lookAhead_map hφ, ih, if_false, dif_pos, and_self]
  | case3 i j count ret h => rw [mainLoop]; simp only [List.length_map]; rw [dif_neg h]

omit [LinearOrder α] [LinearOrder β] hφ in
theorem pyGet_map (f : α → β) (l : List α) (i : Int) : pyGet (l.map f) i = (pyGet l i).map f := by
  unfold pyGet
  simp only [List.length_map]
  cases pyIdx l.length i with
  | none => rfl
  | some k =>
    simp only [List.getElem?_map]
    cases l[k]? <;> rfl

theorem stepFunctionFast_map (eigs x : List α) :
    stepFunctionFast (eigs.map φ) (x.map φ) = stepFunctionFast eigs x := by
  unfold stepFunctionFast
  simp only [pyGet_map φ, List.length_map]
  cases h1 : pyGet x (-1) <;> simp only [Except.map, bind, Except.bind]
  cases h2 : pyGet eigs 0 <;> simp only
  rename_i xl e0
  by_cases hle : xl ≤ e0
  · rw [if_pos (hφ.le_iff_le.mpr hle), if_pos hle]
  rw [if_neg (fun h => hle (hφ.le_iff_le.mp h)), if_neg hle]
  cases h3 : pyGet x 0 <;> simp only
  cases h4 : pyGet eigs (-1) <;> simp only
  simp only [gt_iff_lt, hφ.lt_iff_lt, skipLoop_map hφ, mainLoop_map hφ]

end mono
end Step

namespace Rigidity
open Step

variable {K : Type} [Field K]

/-! ### behaviour under `x ↦ s * x + t` -/

theorem mean_affine [CharZero K] (l : List K) (hl : l ≠ []) (s t : K) :
    mean (l.map fun x => s * x + t) = s * mean l + t := by
  have hn : (l.length : K) ≠ 0 := by
    have : l.length ≠ 0 := by simpa using hl
    exact_mod_cast this
  have : (l.map fun x => s * x + t).sum = s * l.sum + l.length * t := by
    clear hl hn
    induction l with
    | nil => simp
    | cons a l ih => simp only [List.map_cons, List.sum_cons, ih, List.length_cons]; push_cast; ring
  simp only [mean, this, List.length_map]
  field_simp

theorem diff_affine (l : List K) (s t : K) :
    diff (l.map fun x => s * x + t) = (diff l).map fun x => s * x := by
  induction l with
  | nil => rfl
  | cons a l ih =>
    cases l with
    | nil => rfl
    | cons b l =>
      simp only [List.map_cons, diff] at *
      rw [ih]
      congr 1
      ring

theorem nth_map_mul (l : List K) (s : K) (z : Int) : nth (l.map fun x => s * x) z = s * nth l z := by
  unfold nth
  simp only [List.length_map]
  cases pyIdx l.length z with
  | none => simp
  | some k =>
    simp only [List.getD_eq_getElem?_getD, List.getElem?_map]
    cases l[k]? <;> simp

theorem simpsFrom_scale (h vals : List K) (s : K) (hs : s ≠ 0) (N i : Nat) (acc : K) :
    simpsFrom (h.map fun x => s * x) vals N i (s * acc) = s * simpsFrom h vals N i acc := by
  fun_induction simpsFrom h vals N i acc with
  | case1 i acc hlt h1 h0 hph r1 r2 r3 ih =>
    rw [simpsFrom, if_pos hlt, ← ih]
    simp only [nth_map_mul]
    congr 1
    simp only [r3, r2, r1, hph]
    change _ = s * (acc + nth vals i * (h1 ^ 3 + h0 ^ 3 + 3 * h1 * h0 * (h1 + h0)) / (6 * h1 * h0) +
      nth vals ((i:Int) - 1) * (2 * h0 ^ 3 - h1 ^ 3 + 3 * h1 * h0 ^ 2) / (6 * h0 * (h1 + h0)) +
      nth vals ((i:Int) + 1) * (2 * h1 ^ 3 - h0 ^ 3 + 3 * h0 * h1 ^ 2) / (6 * h1 * (h1 + h0)))
    change s * acc + nth vals i * ((s * h1) ^ 3 + (s * h0) ^ 3 + 3 * (s * h1) * (s * h0) * (s * h1 + s * h0)) / (6 * (s * h1) * (s * h0)) +
      nth vals ((i:Int) - 1) * (2 * (s * h0) ^ 3 - (s * h1) ^ 3 + 3 * (s * h1) * (s * h0) ^ 2) / (6 * (s * h0) * (s * h1 + s * h0)) +
      nth vals ((i:Int) + 1) * (2 * (s * h1) ^ 3 - (s * h0) ^ 3 + 3 * (s * h0) * (s * h1) ^ 2) / (6 * (s * h1) * (s * h1 + s * h0)) = _
    have frac : ∀ v A B : K, v * (s ^ 3 * A) / (s ^ 2 * B) = s * (v * A / B) := by
      intro v A B
      by_cases hB : B = 0
      · simp [hB]
      · field_simp
    have t1 : nth vals i * ((s * h1) ^ 3 + (s * h0) ^ 3 + 3 * (s * h1) * (s * h0) * (s * h1 + s * h0)) /
        (6 * (s * h1) * (s * h0)) =
        s * (nth vals i * (h1 ^ 3 + h0 ^ 3 + 3 * h1 * h0 * (h1 + h0)) / (6 * h1 * h0)) := by
      rw [← frac]; congr 1 <;> ring
    have t2 : nth vals ((i:Int) - 1) * (2 * (s * h0) ^ 3 - (s * h1) ^ 3 + 3 * (s * h1) * (s * h0) ^ 2) /
        (6 * (s * h0) * (s * h1 + s * h0)) = s * (nth vals ((i:Int) - 1) *
          (2 * h0 ^ 3 - h1 ^ 3 + 3 * h1 * h0 ^ 2) / (6 * h0 * (h1 + h0))) := by
      rw [← frac]; congr 1 <;> ring
    have t3 : nth vals ((i:Int) + 1) * (2 * (s * h1) ^ 3 - (s * h0) ^ 3 + 3 * (s * h0) * (s * h1) ^ 2) /
        (6 * (s * h1) * (s * h1 + s * h0)) = s * (nth vals ((i:Int) + 1) *
          (2 * h1 ^ 3 - h0 ^ 3 + 3 * h0 * h1 ^ 2) / (6 * h1 * (h1 + h0))) := by
      rw [← frac]; congr 1 <;> ring
    rw [t1, t2, t3]
    ring
  | case2 i acc hlt => rw [simpsFrom, if_neg hlt]

theorem intSimps_affine (grid vals : List K) (s t : K) (hs : s ≠ 0) :
    intSimpsNonunif (grid.map fun x => s * x + t) vals = s * intSimpsNonunif grid vals := by
  unfold intSimpsNonunif
  simp only [List.length_map, diff_affine, nth_map_mul]
  have h0 := simpsFrom_scale (diff grid) vals s hs (grid.length - 1) 1 0
  rw [mul_zero] at h0
  rw [h0]
  split_ifs
  · have frac2 : ∀ v A B : K, v * (s ^ 2 * A) / (s * B) = s * (v * A / B) := by
      intro v A B
      by_cases hB : B = 0
      · simp [hB]
      · field_simp
    have frac3 : ∀ v A B : K, v * (s ^ 3 * A) / (s ^ 2 * B) = s * (v * A / B) := by
      intro v A B
      by_cases hB : B = 0
      · simp [hB]
      · field_simp
    generalize nth (diff grid) (((grid.length - 1 : Nat) : Int) - 1) = hl
    generalize nth (diff grid) (((grid.length - 1 : Nat) : Int) - 2) = hp
    generalize nth vals ((grid.length - 1 : Nat) : Int) = v2
    generalize nth vals (((grid.length - 1 : Nat) : Int) - 1) = v1
    generalize nth vals (((grid.length - 1 : Nat) : Int) - 2) = v0
    have t1 : v2 * (2 * (s * hl) ^ 2 + 3 * (s * hp) * (s * hl)) / (6 * (s * hp + s * hl)) =
        s * (v2 * (2 * hl ^ 2 + 3 * hp * hl) / (6 * (hp + hl))) := by
      rw [← frac2]; congr 1 <;> ring
    have t2 : v1 * ((s * hl) ^ 2 + 3 * (s * hl) * (s * hp)) / (6 * (s * hp)) =
        s * (v1 * (hl ^ 2 + 3 * hl * hp) / (6 * hp)) := by
      rw [← frac2]; congr 1 <;> ring
    have t3 : v0 * (s * hl) ^ 3 / (6 * (s * hp) * (s * hp + s * hl)) =
        s * (v0 * hl ^ 3 / (6 * hp * (hp + hl))) := by
      rw [← frac3]; congr 1 <;> ring
    rw [t1, t2, t3]
    ring
  · rfl

theorem trapzFrom_affine (grid vals : List K) (s t : K) (i : Nat) (acc : K) :
    trapzFrom (grid.map fun x => s * x + t) vals i (s * acc) = s * trapzFrom grid vals i acc := by
  fun_induction trapzFrom grid vals i acc with
  | case1 i acc hlt w h ih =>
    rw [trapzFrom, if_pos (by simpa using hlt), ← ih]
    simp only
    congr 1
    have e1 : w = grid[i+1] - grid[i] := by
      show nth grid (i+1) - nth grid i = _
      rw [nth_of_eq grid (i+1) (i+1) (by push_cast; ring) (by omega), nth_nat grid i (by omega)]
    have e2 : nth (grid.map fun x => s * x + t) (i+1) = s * grid[i+1] + t :=
      nth_map_of_eq (fun x => s * x + t) grid _ (i+1) (by push_cast; ring) (by omega)
    have e3 : nth (grid.map fun x => s * x + t) i = s * grid[i] + t :=
      nth_map_of_eq (fun x => s * x + t) grid _ i rfl (by omega)
    rw [e2, e3, e1]
    ring
  | case2 i acc hlt => rw [trapzFrom, if_neg (by simpa using hlt)]

theorem integrateFast_affine (grid vals : List K) (s t : K) :
    integrateFast (grid.map fun x => s * x + t) vals = s * integrateFast grid vals := by
  have := trapzFrom_affine grid vals s t 0 0
  rwa [mul_zero] at this

theorem linspace_affine (a b s t : K) (n : Nat) :
    linspace (s * a + t) (s * b + t) n = (linspace a b n).map fun x => s * x + t := by
  apply List.ext_getElem
  · simp
  · intro i h1 h2
    simp only [List.getElem_map, getElem_linspace]
    ring

variable [LinearOrder K] [IsStrictOrderedRing K]

theorem slope_affine (x y : List K) (hx : x ≠ []) (s t : K) (hs : s ≠ 0) :
    slope (x.map fun v => s * v + t) y = slope x y / s := by
  have hdev : (x.map fun v => s * v + t).map (· - mean (x.map fun v => s * v + t)) =
      (x.map (· - mean x)).map fun v => s * v := by
    rw [mean_affine x hx]
    simp only [List.map_map]
    apply List.map_congr_left
    intro v _
    simp only [Function.comp]
    ring
  unfold slope
  simp only [hdev]
  have h1 : ∀ l : List K, (List.zipWith (· * ·) ((x.map (· - mean x)).map fun v => s * v) l).sum =
      s * (List.zipWith (· * ·) (x.map (· - mean x)) l).sum := by
    intro l
    generalize x.map (· - mean x) = z
    induction z generalizing l with
    | nil => simp
    | cons a z ih =>
      cases l with
      | nil => simp
      | cons b l => simp only [List.map_cons, List.zipWith_cons_cons, List.sum_cons, ih]; ring
  have h2 : (List.zipWith (· * ·) ((x.map (· - mean x)).map fun v => s * v)
      ((x.map (· - mean x)).map fun v => s * v)).sum =
      s ^ 2 * (List.zipWith (· * ·) (x.map (· - mean x)) (x.map (· - mean x))).sum := by
    generalize x.map (· - mean x) = z
    induction z with
    | nil => simp
    | cons a z ih => simp only [List.map_cons, List.zipWith_cons_cons, List.sum_cons, ih]; ring
  rw [h2, h1]
  by_cases hv : (List.zipWith (· * ·) (x.map (· - mean x)) (x.map (· - mean x))).sum = 0
  · rw [hv, mul_zero, if_pos rfl, if_pos rfl, zero_div]
  · rw [if_neg (mul_ne_zero (pow_ne_zero 2 hs) hv), if_neg hv]
    field_simp

theorem sqLinDeviation_affine (x steps : List K) (hx : x ≠ []) (k s t : K) (hs : s ≠ 0) :
    sqLinDeviation steps (k / s) (intercept (x.map fun v => s * v + t) steps (k / s))
      (x.map fun v => s * v + t) = sqLinDeviation steps k (intercept x steps k) x := by
  have hi : intercept (x.map fun v => s * v + t) steps (k / s) = intercept x steps k - k * t / s := by
    unfold intercept
    rw [mean_affine x hx]
    field_simp
    ring
  rw [hi]
  unfold sqLinDeviation
  rw [List.zipWith_map_right]
  congr 1
  funext n g
  field_simp
  ring

theorem d3Sample_affine (unfolded : List K) (L : K) (n : Nat) (simp? : Bool) (c s t : K) (hs : 0 < s) :
    d3Sample (unfolded.map fun v => s * v + t) (s * L) n simp? (s * c + t) =
      d3Sample unfolded L n simp? c := by
  have hφ : StrictMono (fun v : K => s * v + t) := by
    intro a b hab
    have := mul_lt_mul_of_pos_left hab hs
    simpa using this
  have hgrid : linspace (s * c + t - s * L / 2) (s * c + t + s * L / 2) n =
      (linspace (c - L / 2) (c + L / 2) n).map fun v => s * v + t := by
    rw [← linspace_affine]
    congr 1 <;> ring
  unfold d3Sample
  simp only [hgrid]
  rw [stepFunctionFast_map hφ]
  cases hstep : stepFunctionFast unfolded (linspace (c - L / 2) (c + L / 2) n) with
  | error e => rfl
  | ok stepsN =>
    have hne : linspace (c - L / 2) (c + L / 2) n ≠ [] := by
      intro h
      rw [h] at hstep
      simp [stepFunctionFast, pyGet, pyIdx, bind, Except.bind] at hstep
    simp only [bind, Except.bind, pure, Except.pure]
    rw [slope_affine _ _ hne s t hs.ne', sqLinDeviation_affine _ _ hne _ s t hs.ne']
    congr 1
    cases simp?
    · simp only [integrateFast_affine, Bool.false_eq_true, if_false]
      exact mul_div_mul_left _ _ hs.ne'
    · simp only [intSimps_affine _ _ s t hs.ne', if_true]
      exact mul_div_mul_left _ _ hs.ne'

theorem npMax_map (l : List K) (s : K) (hs : 0 < s) :
    npMax (l.map fun v => s * v) = (npMax l).map fun v => s * v := by
  cases l with
  | nil => rfl
  | cons a l =>
    simp only [List.map_cons, npMax, Except.map]
    congr 1
    induction l generalizing a with
    | nil => rfl
    | cons b l ih =>
      simp only [maxOf, List.map_cons, List.foldl_cons] at ih ⊢
      rw [← ih, mul_max_of_nonneg _ _ hs.le]

theorem deltaL_affine (unfolded : List K) (L : K) (n maxI minI : Nat) (tol : K) (simp? : Bool)
    (U : Nat → K) (s t : K) (hs : 0 < s) :
    deltaL (unfolded.map fun v => s * v + t) (s * L) n maxI minI tol simp? U =
      deltaL unfolded L n maxI minI tol simp? U := by
  unfold deltaL
  simp only [pyGet_map]
  cases h1 : pyGet unfolded 0 <;> simp only [Except.map, bind, Except.bind]
  cases h2 : pyGet unfolded (-1) <;> simp only
  rename_i lo hi
  have : ∀ j, uniform (s * lo + t) (s * hi + t) (U j) = s * uniform lo hi (U j) + t := by
    intro j; unfold uniform; ring
  simp only [this, d3Sample_affine _ _ _ _ _ s t hs]

/-! ### sign -/

theorem simpsFrom_mono_uniform (h vals : List K) (δ : K) (hδ : 0 < δ) (N i : Nat) (acc : K)
    (hi : i % 2 = 1) (hh : ∀ j, j < N → nth h (j : Int) = δ)
    (hv : ∀ j, j ≤ N → 0 ≤ nth vals (j : Int)) :
    acc + (if N % 2 = 1 ∧ i + 2 ≤ N then 4 * δ / 3 * nth vals ((N : Int) - 2) else 0) ≤
      simpsFrom h vals N i acc := by
  fun_induction simpsFrom h vals N i acc with
  | case1 i acc hlt h1 h0 hph r1 r2 r3 ih =>
    have e1 : h1 = δ := hh i hlt
    have e0 : h0 = δ := by
      have := hh (i - 1) (by omega)
      rwa [show ((i - 1 : Nat) : Int) = (i : Int) - 1 by omega] at this
    have v1 := hv i (by omega)
    have v0 : 0 ≤ nth vals ((i : Int) - 1) := by
      have := hv (i - 1) (by omega)
      rwa [show ((i - 1 : Nat) : Int) = (i : Int) - 1 by omega] at this
    have v2 : 0 ≤ nth vals ((i : Int) + 1) := by
      have := hv (i + 1) (by omega)
      rwa [show ((i + 1 : Nat) : Int) = (i : Int) + 1 by omega] at this
    have hr3 : r3 = acc + nth vals i * (4 * δ / 3) + nth vals ((i : Int) - 1) * (δ / 3) +
        nth vals ((i : Int) + 1) * (δ / 3) := by
      simp only [r3, r2, r1, hph, e1, e0]
      field_simp
      ring
    have p0 : 0 ≤ nth vals ((i : Int) - 1) * (δ / 3) := by positivity
    have p1 : 0 ≤ nth vals (i : Int) * (4 * δ / 3) := by positivity
    have p2 : 0 ≤ nth vals ((i : Int) + 1) * (δ / 3) := by positivity
    have := ih (by omega)
    refine le_trans ?_ this
    rw [hr3]
    by_cases hN : N % 2 = 1 ∧ i + 2 ≤ N
    · rw [if_pos hN]
      by_cases hlast : i + 2 + 2 ≤ N
      · rw [if_pos ⟨hN.1, hlast⟩]; linarith
      · rw [if_neg (by omega)]
        have : (N : Int) - 2 = i := by omega
        rw [this]; linarith
    · rw [if_neg hN, if_neg (by omega)]
      linarith
  | case2 i acc hlt =>
    rw [if_neg (by omega), add_zero]

omit [IsStrictOrderedRing K] in
theorem nth_nonneg (l : List K) (h : ∀ v ∈ l, 0 ≤ v) (z : Int) : 0 ≤ nth l z := by
  unfold nth
  cases pyIdx l.length z with
  | none => exact le_refl _
  | some k =>
    simp only [List.getD_eq_getElem?_getD]
    cases hk : l[k]? with
    | none => simp
    | some v => simpa using h v (List.mem_of_getElem? hk)

theorem intSimps_nonneg_uniform (a δ : K) (hδ : 0 < δ) (grid vals : List K) (hg : grid ≠ [])
    (hlen : vals.length = grid.length)
    (hu : ∀ i (h : i < grid.length), grid[i] = a + i * δ) (hv : ∀ v ∈ vals, 0 ≤ v) :
    0 ≤ intSimpsNonunif grid vals := by
  obtain ⟨N, hN⟩ : ∃ N, grid.length = N + 1 :=
    ⟨grid.length - 1, by have : 0 < grid.length := List.length_pos_iff.mpr hg; omega⟩
  have hN' : grid.length - 1 = N := by omega
  have hh : ∀ j, j < N → nth (diff grid) (j : Int) = δ := by
    intro j hj
    rw [nth_diff grid j j rfl (by omega), hu, hu]
    push_cast; ring
  have key := simpsFrom_mono_uniform (diff grid) vals δ hδ N 1 0 (by omega) hh
    (fun j _ => nth_nonneg vals hv _)
  unfold intSimpsNonunif
  simp only [hN']
  split_ifs with hpar
  · have hl : nth (diff grid) ((N : Int) - 1) = δ := by
      have := hh (N - 1) (by omega)
      rwa [show ((N - 1 : Nat) : Int) = (N : Int) - 1 by omega] at this
    have v2 := nth_nonneg vals hv (N : Int)
    have v1 := nth_nonneg vals hv ((N : Int) - 1)
    have v0 := nth_nonneg vals hv ((N : Int) - 2)
    by_cases hN1 : N = 1
    · subst hN1
      have hp : nth (diff grid) (((1 : Nat) : Int) - 2) = δ := by
        have hlen : (diff grid).length = 1 := by rw [length_diff]; omega
        have hx := hh 0 (by omega)
        have hidx : ∀ (l : List K), l.length = 1 → nth l (((1 : Nat) : Int) - 2) = nth l ((0 : Nat) : Int) := by
          intro l hl
          simp [nth, pyIdx, hl]
        rw [hidx _ hlen, hx]
      have hvv : nth vals (((1 : Nat) : Int) - 2) = nth vals ((1 : Nat) : Int) := by
        have hl2 : vals.length = 2 := by omega
        simp [nth, pyIdx, hl2]
      rw [hl, hp, hvv]
      have hs : simpsFrom (diff grid) vals 1 1 0 = 0 := by rw [simpsFrom]; simp
      rw [hs]
      have e : ∀ v1 v0 : K, 0 + v1 * (2 * δ ^ 2 + 3 * δ * δ) / (6 * (δ + δ)) +
          v0 * (δ ^ 2 + 3 * δ * δ) / (6 * δ) - v1 * δ ^ 3 / (6 * δ * (δ + δ)) =
          v1 * (δ / 3) + v0 * (2 * δ / 3) := by
        intros; field_simp; ring
      rw [e]
      positivity
    · have hp : nth (diff grid) ((N : Int) - 2) = δ := by
        have := hh (N - 2) (by omega)
        rwa [show ((N - 2 : Nat) : Int) = (N : Int) - 2 by omega] at this
      rw [if_pos ⟨by omega, by omega⟩] at key
      rw [hl, hp]
      have e : ∀ R v2 v1 v0 : K, R + v2 * (2 * δ ^ 2 + 3 * δ * δ) / (6 * (δ + δ)) +
          v1 * (δ ^ 2 + 3 * δ * δ) / (6 * δ) - v0 * δ ^ 3 / (6 * δ * (δ + δ)) =
          R + v2 * (5 * δ / 12) + v1 * (2 * δ / 3) - v0 * (δ / 12) := by
        intros; field_simp; ring
      rw [e]
      have p2 : 0 ≤ nth vals (N : Int) * (5 * δ / 12) := by positivity
      have p1 : 0 ≤ nth vals ((N : Int) - 1) * (2 * δ / 3) := by positivity
      have p0 : 0 ≤ nth vals ((N : Int) - 2) * δ := by positivity
      linarith
  · split_ifs at key with h1
    · omega
    · linarith

theorem trapzFrom_nonneg (grid vals : List K) (hg : ∀ i (h : i + 1 < grid.length), grid[i] ≤ grid[i+1])
    (hv : ∀ v ∈ vals, 0 ≤ v) (i : Nat) (acc : K) (hacc : 0 ≤ acc) :
    0 ≤ trapzFrom grid vals i acc := by
  fun_induction trapzFrom grid vals i acc with
  | case1 i acc hlt w h ih =>
    apply ih
    have e1 : w = grid[i+1] - grid[i] := by
      show nth grid (i+1) - nth grid i = _
      rw [nth_of_eq grid (i+1) (i+1) (by push_cast; ring) (by omega), nth_nat grid i (by omega)]
    have hw : 0 ≤ w := by rw [e1]; exact sub_nonneg.mpr (hg i hlt)
    have hh : 0 ≤ h := add_nonneg (nth_nonneg vals hv _) (nth_nonneg vals hv _)
    positivity
  | case2 i acc hlt => exact hacc

end Rigidity

namespace Step
variable {α : Type} [LinearOrder α]

theorem length_lookAhead (e : α) (x : List α) (count j : Nat) (ret : List Nat) :
    (lookAhead e x count j ret).2.length = ret.length := by
  fun_induction lookAhead e x count j ret with
  | case1 j ret hlt hx ih => rw [ih]; simp
  | case2 => rfl
  | case3 => rfl

theorem length_mainLoop (eigs x : List α) (i j count : Nat) (ret : List Nat) :
    (mainLoop eigs x i j count ret).2.2.length = ret.length := by
  fun_induction mainLoop eigs x i j count ret with
  | case1 i j count ret h hle ih => exact ih
  | case2 i j count ret h hle ih => rw [ih, length_lookAhead]
  | case3 i j count ret h => rfl

theorem length_tailLoop (n count j : Nat) (ret : List Nat) :
    (tailLoop n count j ret).length = ret.length := by
  fun_induction tailLoop n count j ret with
  | case1 j ret hlt ih => rw [ih]; simp
  | case2 => rfl

/-- The array step function succeeds exactly on non-empty arrays and then returns one count per
query (whatever the order of the spectrum). -/
theorem stepFunctionFast_ok (eigs x : List α) (he : eigs ≠ []) (hx : x ≠ []) :
    ∃ ret, stepFunctionFast eigs x = .ok ret ∧ ret.length = x.length := by
  have hxl : 0 < x.length := List.length_pos_iff.mpr hx
  have hel : 0 < eigs.length := List.length_pos_iff.mpr he
  simp only [stepFunctionFast, pyGet_neg_one x hxl, pyGet_zero eigs hel, pyGet_zero x hxl,
    pyGet_neg_one eigs hel, bind, Except.bind, pure, Except.pure]
  split_ifs
  · exact ⟨_, rfl, by simp⟩
  · exact ⟨_, rfl, by rw [(fillLoop_spec _ _ _).1]; simp⟩
  · exact ⟨_, rfl, by rw [length_tailLoop, length_mainLoop]; simp⟩

end Step

namespace Rigidity
variable {K : Type} [Field K] [LinearOrder K] [IsStrictOrderedRing K]

/-- Every sample is defined and non-negative, for any non-empty spectrum (sorted or not). -/
theorem d3Sample_nonneg (unfolded : List K) (hu : unfolded ≠ []) (L : K) (hL : 0 < L) (n : Nat)
    (hn : 1 ≤ n) (simp? : Bool) (c : K) :
    ∃ v, d3Sample unfolded L n simp? c = .ok v ∧ 0 ≤ v := by
  set grid := linspace (c - L / 2) (c + L / 2) n with hgrid
  have hgl : grid.length = n := by simp [hgrid]
  have hne : grid ≠ [] := by
    intro h; rw [h] at hgl; simp at hgl; omega
  obtain ⟨ret, h1, h2⟩ := Step.stepFunctionFast_ok unfolded grid hu hne
  unfold d3Sample
  simp only [← hgrid, h1]
  simp only [bind, Except.bind, pure, Except.pure]
  refine ⟨_, rfl, div_nonneg ?_ hL.le⟩
  generalize hk : slope grid (ret.map fun n : Nat => (n : K)) = k
  generalize hw : intercept grid (ret.map fun n : Nat => (n : K)) k = w
  have hy : ∀ v ∈ sqLinDeviation (ret.map fun n : Nat => (n : K)) k w grid, 0 ≤ v := by
    intro v hv
    unfold sqLinDeviation at hv
    obtain ⟨i, hi, rfl⟩ := List.mem_iff_getElem.mp hv
    rw [List.getElem_zipWith]
    exact mul_self_nonneg _
  have hyl : (sqLinDeviation (ret.map fun n : Nat => (n : K)) k w grid).length = grid.length := by
    simp [sqLinDeviation, h2]
  cases simp?
  · simp only [Bool.false_eq_true, if_false]
    apply trapzFrom_nonneg _ _ _ hy _ _ (le_refl _)
    intro i hi
    simp only [hgrid, getElem_linspace]
    have h3 : (0 : K) ≤ (c + L / 2 - (c - L / 2)) / ((n : K) - 1) := by
      apply div_nonneg (by linarith)
      have : (1 : K) ≤ n := by exact_mod_cast hn
      linarith
    push_cast
    linarith
  · simp only [if_true]
    by_cases hn1 : n = 1
    · have : grid.length = 1 := by omega
      unfold intSimpsNonunif
      simp only [this]
      rw [simpsFrom]
      simp
    · apply intSimps_nonneg_uniform (c - L / 2) ((c + L / 2 - (c - L / 2)) / ((n : K) - 1)) _ grid _ hne hyl _ hy
      · apply div_pos (by linarith)
        have : (2 : K) ≤ n := by exact_mod_cast (by omega : 2 ≤ n)
        linarith
      · intro i hi
        simp only [hgrid, getElem_linspace]

/-- With an empty spectrum or grid a sample raises. -/
theorem d3Sample_error (unfolded : List K) (L : K) (n : Nat) (simp? : Bool) (c : K)
    (h : unfolded = [] ∨ n = 0) : d3Sample unfolded L n simp? c = .error .indexError := by
  have hs : Step.stepFunctionFast unfolded (linspace (c - L / 2) (c + L / 2) n) = .error .indexError := by
    rcases h with rfl | rfl
    · unfold Step.stepFunctionFast
      by_cases hx : 0 < (linspace (c - L / 2) (c + L / 2) n).length
      · simp only [pyGet_neg_one _ hx, bind, Except.bind]
        simp [pyGet, pyIdx]
      · have : linspace (c - L / 2) (c + L / 2) n = [] := List.length_eq_zero_iff.mp (by omega)
        rw [this]
        simp [pyGet, pyIdx, bind, Except.bind]
    · simp [Step.stepFunctionFast, linspace, pyGet, pyIdx, bind, Except.bind]
  unfold d3Sample
  simp only [hs, bind, Except.bind]

end Rigidity
end RMT
