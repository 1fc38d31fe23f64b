import Verif.Lemmas.LevelVar
import Verif.Lemmas.Rigidity

/-!
# Properties C19-C23: level number variance

`sigmaL unfolded L max_iters tol min_iters U` is `sigma_L`; it returns `(sigma, converged, iterations)`.
Window number `j` is centred at `uniform mn mx (U j)`, where `mn`, `mx` are the extremes of the
unfolded values.  `runVar d k` is the population variance of `d 0, …, d (k-1)`.
-/

set_option linter.unusedSectionVars false

namespace RMT
namespace Props
open LevelVar Spec Finset

variable {K : Type} [Field K] [LinearOrder K] [IsStrictOrderedRing K]

/-- The count (as a number) of unfolded values in the closed window number `j`. -/
def windowCount (unfolded : List K) (L mn mx : K) (U : Nat → K) (j : Nat) : K :=
  ((countIn unfolded (mn + (mx - mn) * U j - L / 2) (mn + (mx - mn) * U j + L / 2) : Nat) : K)

private theorem wc_eq (unfolded : List K) (L mn mx : K) (U : Nat → K) (j : Nat) :
    windowCount unfolded L mn mx U j = (nWithin unfolded L (uniform mn mx (U j)) : Nat) := by
  rw [nWithin_eq]; rfl

/-- **C19.** For every non-empty spectrum, `L`, budget, tolerance and stream of draws, `sigma_L` returns after some `k ≥ 1`
iterations the population variance of the counts in windows `1 … k` (window 0 is discarded). In particular the
value is `≥ 0`. -/
theorem C19_sigma_is_variance (unfolded : List K) (mn mx : K) (hmn : IsMin unfolded mn)
    (hmx : IsMax unfolded mx) (L : K) (maxI : Nat) (tol : K) (minI : Nat) (U : Nat → K) :
    ∃ v conv k, sigmaL unfolded L maxI tol minI U = .ok (v, conv, k) ∧ 1 ≤ k ∧
      v = runVar (fun j => windowCount unfolded L mn mx U (j + 1)) k ∧ 0 ≤ v := by
  obtain ⟨k, h1, h2, -⟩ := sigmaL_spec unfolded mn mx hmn hmx L maxI tol minI U
    (fun j => windowCount unfolded L mn mx U (j + 1)) (fun j => wc_eq unfolded L mn mx U (j + 1))
  refine ⟨_, _, k, h1, h2, rfl, ?_⟩
  unfold runVar
  exact div_nonneg (Finset.sum_nonneg fun i _ => sq_nonneg _) (Nat.cast_nonneg _)

/-- **C19 (error branch).** An empty spectrum raises `ValueError`. -/
theorem C19_sigma_empty (L : K) (maxI : Nat) (tol : K) (minI : Nat) (U : Nat → K) :
    sigmaL [] L maxI tol minI U = .error .valueError := by
  simp [sigmaL, npMin, bind, Except.bind]

/-- **C20.** `sigma_L` terminates for every stream of draws with `1 ≤ k ≤ max 1 max_iters`; it stops before the budget only at a
multiple of 500 above `min_iters` and then reports convergence; if it does not report convergence the
budget was used up. Writing `σ_j` for the variance after `j` iterations (`σ_0 = 0`), convergence is reported exactly if
any two of `σ_k, …, σ_{k-999}` differ by less than `tol` (indices below 0 read as 0). -/
theorem C20_sigma_budget (unfolded : List K) (mn mx : K) (hmn : IsMin unfolded mn)
    (hmx : IsMax unfolded mx) (L : K) (maxI : Nat) (tol : K) (minI : Nat) (U : Nat → K) :
    ∃ v conv k, sigmaL unfolded L maxI tol minI U = .ok (v, conv, k) ∧
      1 ≤ k ∧ k ≤ max 1 maxI ∧
      (k < maxI → minI < k ∧ k % 500 = 0 ∧ conv = true) ∧
      (conv = false → k = max 1 maxI) ∧
      (conv = true ↔ ∀ i < 1000, ∀ j < 1000,
        |runVar (fun j => windowCount unfolded L mn mx U (j + 1)) (k - i) -
          runVar (fun j => windowCount unfolded L mn mx U (j + 1)) (k - j)| < tol) := by
  obtain ⟨k, h1, h2, h3, h4, -⟩ := sigmaL_spec unfolded mn mx hmn hmx L maxI tol minI U
    (fun j => windowCount unfolded L mn mx U (j + 1)) (fun j => wc_eq unfolded L mn mx U (j + 1))
  refine ⟨_, _, k, h1, h2, h3, ?_, ?_, rangeBelow_swindow _ _ _⟩
  · intro hk
    rcases h4 with h | h
    · omega
    · exact h
  · intro hc
    rcases h4 with h | ⟨_, _, h⟩
    · omega
    · rw [h] at hc; cases hc

/-- **C20 (soundness of the flag).** If `sigma_L` reports convergence, the returned value is within `tol` of the
variances after each of the last 1000 iterations (and of 0 if there were fewer). -/
theorem C20_sigma_converged (unfolded : List K) (mn mx : K) (hmn : IsMin unfolded mn)
    (hmx : IsMax unfolded mx) (L : K) (maxI : Nat) (tol : K) (minI : Nat) (U : Nat → K) (v : K) (k : Nat)
    (h : sigmaL unfolded L maxI tol minI U = .ok (v, true, k)) (i : Nat) (hi : i < 1000) :
    |v - runVar (fun j => windowCount unfolded L mn mx U (j + 1)) (k - i)| < tol := by
  obtain ⟨k', h1, -⟩ := sigmaL_spec unfolded mn mx hmn hmx L maxI tol minI U
    (fun j => windowCount unfolded L mn mx U (j + 1)) (fun j => wc_eq unfolded L mn mx U (j + 1))
  rw [h] at h1
  injection h1 with h1
  rw [Prod.mk.injEq, Prod.mk.injEq] at h1
  obtain ⟨rfl, h2, rfl⟩ := h1
  exact (rangeBelow_swindow _ _ _).mp h2.symm 0 (by omega) i hi

/-- **C20 (earliest stop).** `sigma_L` stops at the first multiple of 500 above `min_iters` at which the last 1000 variances (0 before the
start) are within `tol` of each other, if one exists below the budget, and at `max 1 max_iters`
otherwise. -/
theorem C20_sigma_first_stop (unfolded : List K) (mn mx : K) (hmn : IsMin unfolded mn)
    (hmx : IsMax unfolded mx) (L : K) (maxI : Nat) (tol : K) (minI : Nat) (U : Nat → K) :
    ∃ v conv k, sigmaL unfolded L maxI tol minI U = .ok (v, conv, k) ∧
      ∀ q, 1 ≤ q → q < k → q < maxI ∧ (minI < q → q % 500 = 0 → ∃ i < 1000, ∃ j < 1000,
        tol ≤ |runVar (fun j => windowCount unfolded L mn mx U (j + 1)) (q - i) -
          runVar (fun j => windowCount unfolded L mn mx U (j + 1)) (q - j)|) := by
  obtain ⟨k, h1, h2, h3, h4, h5⟩ := sigmaL_spec unfolded mn mx hmn hmx L maxI tol minI U
    (fun j => windowCount unfolded L mn mx U (j + 1)) (fun j => wc_eq unfolded L mn mx U (j + 1))
  refine ⟨_, _, k, h1, fun q hq hqk => ?_⟩
  have := h5 q hq hqk
  unfold Stops at this
  push Not at this
  refine ⟨this.1, fun a b => ?_⟩
  have hr := this.2 a b
  rw [Ne, rangeBelow_swindow] at hr
  push Not at hr
  exact hr

private theorem perm_isMin {l l' : List K} (h : l.Perm l') {a : K} (ha : IsMin l a) : IsMin l' a :=
  ⟨h.mem_iff.mp ha.1, fun x hx => ha.2 x (h.mem_iff.mpr hx)⟩
private theorem perm_isMax {l l' : List K} (h : l.Perm l') {a : K} (ha : IsMax l a) : IsMax l' a :=
  ⟨h.mem_iff.mp ha.1, fun x hx => ha.2 x (h.mem_iff.mpr hx)⟩

/-- Two runs of `sigma_L` whose windows have equal counts give equal results. -/
private theorem sigmaL_congr (u u' : List K) (mn mx mn' mx' : K) (hmn : IsMin u mn) (hmx : IsMax u mx)
    (hmn' : IsMin u' mn') (hmx' : IsMax u' mx') (L L' : K) (maxI : Nat) (tol : K) (minI : Nat)
    (U : Nat → K)
    (h : ∀ j, nWithin u L (uniform mn mx (U j)) = nWithin u' L' (uniform mn' mx' (U j))) :
    sigmaL u L maxI tol minI U = sigmaL u' L' maxI tol minI U := by
  unfold sigmaL
  simp only [npMin_of_isMin _ _ hmn, npMax_of_isMax _ _ hmx, npMin_of_isMin _ _ hmn',
    npMax_of_isMax _ _ hmx', bind, Except.bind, h]

/-- **C21 (order of the values).** Permuting the unfolded values does not change the result of `sigma_L`. -/
theorem C21_sigma_perm (u u' : List K) (h : u.Perm u') (L : K) (maxI : Nat) (tol : K) (minI : Nat)
    (U : Nat → K) : sigmaL u L maxI tol minI U = sigmaL u' L maxI tol minI U := by
  by_cases hu : u = []
  · subst hu; rw [List.nil_perm.mp h]
  · obtain ⟨mn, hmn⟩ := exists_isMin u hu
    obtain ⟨mx, hmx⟩ := exists_isMax u hu
    refine sigmaL_congr u u' mn mx mn mx hmn hmx (perm_isMin h hmn) (perm_isMax h hmx) L L maxI tol
      minI U fun j => ?_
    unfold nWithin
    exact (h.filter _).length_eq

/-- **C21 (shift).** Adding a constant to all unfolded values does not change the result. -/
theorem C21_sigma_shift (u : List K) (t L : K) (maxI : Nat) (tol : K) (minI : Nat) (U : Nat → K) :
    sigmaL (u.map (· + t)) L maxI tol minI U = sigmaL u L maxI tol minI U := by
  by_cases hu : u = []
  · subst hu; rfl
  · obtain ⟨mn, hmn⟩ := exists_isMin u hu
    obtain ⟨mx, hmx⟩ := exists_isMax u hu
    refine sigmaL_congr _ u (mn + t) (mx + t) mn mx ⟨?_, ?_⟩ ⟨?_, ?_⟩ hmn hmx L L maxI tol
      minI U fun j => ?_
    · exact List.mem_map.mpr ⟨mn, hmn.1, rfl⟩
    · intro x hx
      obtain ⟨y, hy, rfl⟩ := List.mem_map.mp hx
      exact add_le_add_left (hmn.2 y hy) t
    · exact List.mem_map.mpr ⟨mx, hmx.1, rfl⟩
    · intro x hx
      obtain ⟨y, hy, rfl⟩ := List.mem_map.mp hx
      exact add_le_add_left (hmx.2 y hy) t
    · unfold nWithin
      rw [List.filter_map, List.length_map]
      congr 2
      funext e
      rw [Bool.eq_iff_iff]
      rw [Function.comp_apply, Bool.and_eq_true, Bool.and_eq_true, decide_eq_true_iff, decide_eq_true_iff,
        decide_eq_true_iff, decide_eq_true_iff]
      simp only [uniform]
      have e1 : e + t ≥ mn + t + (mx + t - (mn + t)) * U j - L / 2 ↔ e ≥ mn + (mx - mn) * U j - L / 2 := by
        constructor <;> intro h <;> linarith
      have e2 : e + t ≤ mn + t + (mx + t - (mn + t)) * U j + L / 2 ↔ e ≤ mn + (mx - mn) * U j + L / 2 := by
        constructor <;> intro h <;> linarith
      rw [e1, e2]

/-- **C21 (scale).** Multiplying the unfolded values and `L` by the same positive factor does not change the
result. -/
theorem C21_sigma_scale (u : List K) (a : K) (ha : 0 < a) (L : K) (maxI : Nat) (tol : K) (minI : Nat)
    (U : Nat → K) :
    sigmaL (u.map (a * ·)) (a * L) maxI tol minI U = sigmaL u L maxI tol minI U := by
  by_cases hu : u = []
  · subst hu; rfl
  · obtain ⟨mn, hmn⟩ := exists_isMin u hu
    obtain ⟨mx, hmx⟩ := exists_isMax u hu
    refine sigmaL_congr _ u (a * mn) (a * mx) mn mx ⟨?_, ?_⟩ ⟨?_, ?_⟩ hmn hmx (a * L) L maxI tol
      minI U fun j => ?_
    · exact List.mem_map.mpr ⟨mn, hmn.1, rfl⟩
    · intro x hx
      obtain ⟨y, hy, rfl⟩ := List.mem_map.mp hx
      exact mul_le_mul_of_nonneg_left (hmn.2 y hy) ha.le
    · exact List.mem_map.mpr ⟨mx, hmx.1, rfl⟩
    · intro x hx
      obtain ⟨y, hy, rfl⟩ := List.mem_map.mp hx
      exact mul_le_mul_of_nonneg_left (hmx.2 y hy) ha.le
    · unfold nWithin
      rw [List.filter_map, List.length_map]
      congr 2
      funext e
      rw [Bool.eq_iff_iff]
      rw [Function.comp_apply, Bool.and_eq_true, Bool.and_eq_true, decide_eq_true_iff, decide_eq_true_iff,
        decide_eq_true_iff, decide_eq_true_iff]
      simp only [uniform]
      have e1 : a * mn + (a * mx - a * mn) * U j - a * L / 2 = a * (mn + (mx - mn) * U j - L / 2) := by
        ring
      have e2 : a * mn + (a * mx - a * mn) * U j + a * L / 2 = a * (mn + (mx - mn) * U j + L / 2) := by
        ring
      rw [e1, e2]
      rw [ge_iff_le, mul_le_mul_iff_right₀ ha, mul_le_mul_iff_right₀ ha]

/-- **C21 (whole function).** `level_number_variance` of the shifted and rescaled spectrum (in any order) at the rescaled `L` values, with the same random draws, gives the same variances,
convergence flags, iteration counts and exceptions. -/
theorem C21_levelvar_invariant (order : List Nat) (unfolded unfolded' L : List K) (a t : K) (ha : 0 < a)
    (hp : unfolded'.Perm (unfolded.map fun v => a * v + t)) (tol : K) (maxIters : Int)
    (Up : Nat → K) (U : Nat → Nat → K) (junk : Nat) :
    levelNumberVariance order unfolded' (L.map fun v => a * v) tol maxIters Up U junk =
      (levelNumberVariance order unfolded L tol maxIters Up U junk).map fun r => (r.1.map (fun v => a * v), r.2) := by
  have hsig : ∀ (l : K) maxI minI (V : Nat → K), sigmaL unfolded' (a * l) maxI tol minI V = sigmaL unfolded l maxI tol minI V := by
    intro l maxI minI V
    rw [C21_sigma_perm _ _ hp]
    have e : (unfolded.map fun v => a * v + t) = (unfolded.map (a * ·)).map (· + t) := by
      rw [List.map_map]; rfl
    rw [e, C21_sigma_shift, C21_sigma_scale _ _ ha]
  have hpar : ∀ budget minI, sigmaParallel order unfolded' (L.map fun v => a * v) tol budget minI U junk = sigmaParallel order unfolded L tol budget minI U junk := by
    intro budget minI
    unfold sigmaParallel
    simp only [List.length_map, Rigidity.nth_map_mul, hsig]
  unfold levelNumberVariance
  simp only [hpar, Rigidity.npMax_map L a ha]
  by_cases hm : maxIters ≤ 0
  · simp only [hm, if_true]
    cases hL : npMax L with
    | error e => rfl
    | ok Lm =>
      simp only [Except.map, bind, Except.bind, hsig]
      cases hd : sigmaL unfolded Lm Rigidity.AUTO_MAX_ITERS tol (Rigidity.MIN_ITERS * 10) Up with
      | error e => rfl
      | ok r =>
        simp only
        cases r.2.1 with
        | false => rfl
        | true =>
          simp only [if_true, pure, Except.pure]
          cases sigmaParallel order unfolded L tol (r.2.2 * 2) Rigidity.MIN_ITERS U junk <;> rfl
  · simp only [hm, if_false, pure, Except.pure, bind, Except.bind]
    cases sigmaParallel order unfolded L tol maxIters.toNat Rigidity.MIN_ITERS U junk <;> rfl

-- a reflected list is a permutation of the rescaled one
example : [(7 : ℚ), 3, 5].Perm ([1, 2, 3].map fun v => 2 * v + 1) := by decide +kernel

/-- **C22.** If `L/2 ≥ max - min` then (for draws in `[0, 1]` and `tol > 0`) the level variance is exactly 0
and converged; the run stops at the first multiple of 500 above `min_iters`, or at the budget. -/
theorem C22_wide_windows (unfolded : List K) (mn mx : K) (hmn : IsMin unfolded mn)
    (hmx : IsMax unfolded mx) (L : K) (hL : mx - mn ≤ L / 2) (maxI : Nat) (tol : K) (htol : 0 < tol)
    (minI : Nat) (U : Nat → K) (hU : ∀ j, 0 ≤ U j ∧ U j ≤ 1) :
    sigmaL unfolded L maxI tol minI U =
      .ok (0, true, min (max 1 maxI) (500 * (minI / 500 + 1))) := by
  have hcount : ∀ j, windowCount unfolded L mn mx U j = (unfolded.length : K) := by
    intro j
    unfold windowCount countIn
    congr 1
    rw [List.countP_eq_length]
    intro e he
    rw [decide_eq_true_iff]
    have h1 := hmn.2 e he
    have h2 := hmx.2 e he
    have h3 : mn ≤ mx := hmn.2 _ hmx.1
    have h4 := hU j
    have h5 : (mx - mn) * U j ≤ (mx - mn) * 1 := mul_le_mul_of_nonneg_left h4.2 (by linarith)
    have h6 : 0 ≤ (mx - mn) * U j := mul_nonneg (by linarith) h4.1
    constructor <;> linarith
  have hvar : ∀ k, runVar (fun j => windowCount unfolded L mn mx U (j + 1)) k = 0 := by
    intro k
    by_cases hk : k = 0
    · subst hk; exact runVar_zero _
    · have h1 : (k : K) ≠ 0 := by exact_mod_cast hk
      have : runMean (fun j => windowCount unfolded L mn mx U (j + 1)) k = (unfolded.length : K) := by
        unfold runMean
        rw [Finset.sum_congr rfl (fun j _ => hcount (j + 1)), Finset.sum_const, Finset.card_range,
          nsmul_eq_mul]
        field_simp
      unfold runVar
      rw [this, Finset.sum_eq_zero, zero_div]
      intro j _
      simp only [hcount, sub_self]
      norm_num
  obtain ⟨k, h1, h2, h3, h4, h5⟩ := sigmaL_spec unfolded mn mx hmn hmx L maxI tol minI U
    (fun j => windowCount unfolded L mn mx U (j + 1)) (fun j => wc_eq unfolded L mn mx U (j + 1))
  have hr : ∀ k, Rigidity.rangeBelow
      (swindow (fun j => windowCount unfolded L mn mx U (j + 1)) k) tol = true := by
    intro k
    rw [rangeBelow_swindow]
    intro i _ j _
    rw [hvar, hvar]; simpa using htol
  have hk : k = min (max 1 maxI) (500 * (minI / 500 + 1)) := by
    rcases Nat.lt_trichotomy k (min (max 1 maxI) (500 * (minI / 500 + 1))) with h | h | h
    · exfalso
      rcases h4 with h6 | ⟨h6, h7, -⟩ <;> omega
    · exact h
    · exfalso
      by_cases hc : max 1 maxI ≤ 500 * (minI / 500 + 1)
      · omega
      · refine h5 (500 * (minI / 500 + 1)) (by omega) (by omega) (Or.inr ⟨by omega, by omega, hr _⟩)
  rw [h1, hvar, hr, hk]

/-- Non-vacuity for C19-C22: a spectrum with its extremes and a width that covers it. -/
example : IsMin [(3:ℚ), 1, 2] 1 ∧ IsMax [(3:ℚ), 1, 2] 3 ∧ (3:ℚ) - 1 ≤ 4 / 2 := by
  refine ⟨⟨by simp, by simp⟩, ⟨by simp, by norm_num⟩, by norm_num⟩

/-- Non-vacuity: a non-zero variance. Spectrum `0, 1, 10`, `L = 2`; the windows 1 and 2 are centred at
`0` and `5` and contain 2 and 0 values: variance 1. -/
example : (runVar (fun j => windowCount [(0:ℚ), 1, 10] 2 0 10
    (fun j => if j = 1 then 0 else 1 / 2) (j + 1)) 2) = 1 := by
  decide +kernel

/-! ### C17-C18 for the level variance, C23 -/

/-- **C20 (driver, explicit budget).** With `max_iters > 0`, `level_number_variance` never raises for a non-empty spectrum; it returns `L` and,
in the order of `L`, for every `L[i]` the result of `sigma_L` with budget `max_iters` and `min_iters = 100`, whatever the
execution order of the parallel loop and the initial contents of the output array. -/
theorem C20_levelvar_explicit (order : List Nat) (unfolded L : List K) (hu : unfolded ≠ [])
    (tol : K) (maxIters : Int) (hm : 0 < maxIters) (Up : Nat → K) (U : Nat → Nat → K) (junk : Nat)
    (ho : order.Perm (List.range L.length)) :
    ∃ vals conv iters,
      levelNumberVariance order unfolded L tol maxIters Up U junk = .ok (L, vals, conv, iters) ∧
      vals.length = L.length ∧ conv.length = L.length ∧ iters.length = L.length ∧
      ∀ i (h : i < L.length) (h1 : i < vals.length) (h2 : i < conv.length) (h3 : i < iters.length),
        sigmaL unfolded L[i] maxIters.toNat tol 100 (U i) = .ok (vals[i], conv[i], iters[i]) := by
  obtain ⟨mn, hmn⟩ := exists_isMin unfolded hu
  obtain ⟨mx, hmx⟩ := exists_isMax unfolded hu
  have hg : ∀ i : Nat, ∃ r, sigmaL unfolded (nth L i) maxIters.toNat tol 100 (U i) = .ok r := by
    intro i
    obtain ⟨v, conv, k, h, -⟩ := C19_sigma_is_variance unfolded mn mx hmn hmx (nth L i) maxIters.toNat
      tol 100 (U i)
    exact ⟨_, h⟩
  choose g hg using hg
  obtain ⟨r, h1, h2, h3⟩ := prangeWrite_ok order
    (fun i => sigmaL unfolded (nth L i) maxIters.toNat tol 100 (U i)) g
    (List.replicate L.length (0, false, junk)) (fun i _ => hg i)
  rw [List.length_replicate] at h2 h3
  have h1' : sigmaParallel order unfolded L tol maxIters.toNat Rigidity.MIN_ITERS U junk = .ok r := h1
  refine ⟨r.map (·.1), r.map (·.2.1), r.map (·.2.2), ?_, by simpa using h2, by simpa using h2,
    by simpa using h2, ?_⟩
  · unfold levelNumberVariance
    simp only [not_le.mpr hm, if_false, pure, Except.pure, bind, Except.bind, h1']
  · intro i hi _ _ _
    simp only [List.getElem_map]
    have hir : i < r.length := by omega
    have := h3 i
    rw [List.getElem?_eq_getElem hir, if_pos ⟨ho.mem_iff.mpr (by simpa using hi), hi⟩] at this
    rw [Option.some.inj this, ← nth_nat L i hi, hg i]

/-- **C20 (driver, automatic budget).** With `max_iters ≤ 0`: an empty `L` raises `ValueError`; otherwise the pilot run of `sigma_L` at the largest
`L` (budget 10⁹, `min_iters = 1000`) decides: no convergence raises `ConvergenceError`, convergence after `k` iterations
gives the result of the explicit budget `2 k`. -/
theorem C20_levelvar_auto (order : List Nat) (unfolded L : List K) (hu : unfolded ≠ []) (tol : K)
    (maxIters : Int) (hm : maxIters ≤ 0) (Up : Nat → K) (U : Nat → Nat → K) (junk : Nat) :
    (L = [] → levelNumberVariance order unfolded L tol maxIters Up U junk = .error .valueError) ∧
    (∀ Lmax, IsMax L Lmax →
      ∃ v conv k, sigmaL unfolded Lmax 1000000000 tol 1000 Up = .ok (v, conv, k) ∧
        (conv = false →
          levelNumberVariance order unfolded L tol maxIters Up U junk = .error .convergenceError) ∧
        (conv = true → levelNumberVariance order unfolded L tol maxIters Up U junk =
          levelNumberVariance order unfolded L tol ((2 * k : Nat) : Int) Up U junk)) := by
  constructor
  · rintro rfl
    unfold levelNumberVariance
    simp only [hm, if_true, npMax, bind, Except.bind]
  · intro Lmax hmax
    obtain ⟨mn, hmn⟩ := exists_isMin unfolded hu
    obtain ⟨mx, hmx⟩ := exists_isMax unfolded hu
    obtain ⟨v, conv, k, h1, h2, -⟩ := C20_sigma_budget unfolded mn mx hmn hmx Lmax 1000000000 tol 1000 Up
    have h1' : sigmaL unfolded Lmax Rigidity.AUTO_MAX_ITERS tol (Rigidity.MIN_ITERS * 10) Up =
      .ok (v, conv, k) := h1
    refine ⟨v, conv, k, h1, ?_, ?_⟩
    · rintro rfl
      unfold levelNumberVariance
      simp only [hm, if_true, npMax_of_isMax _ _ hmax, bind, Except.bind, h1']
      rfl
    · rintro rfl
      unfold levelNumberVariance
      have hneg : ¬ (((2 * k : Nat) : Int) ≤ 0) := by omega
      simp only [hm, if_true, npMax_of_isMax _ _ hmax, bind, Except.bind, h1', hneg, if_false, pure,
        Except.pure, Int.toNat_natCast, Nat.mul_comm k 2]

/-- **C18 (level variance).** The output of the level-variance computation does not depend on the execution order of the
parallel loop nor on the uninitialised memory it starts from. -/
theorem C18_levelvar_schedule (order order' : List Nat) (unfolded L : List K) (hu : unfolded ≠ [])
    (tol : K) (maxIters : Int) (Up : Nat → K) (U : Nat → Nat → K) (junk junk' : Nat)
    (ho : order.Perm (List.range L.length)) (ho' : order'.Perm (List.range L.length)) :
    levelNumberVariance order unfolded L tol maxIters Up U junk =
      levelNumberVariance order' unfolded L tol maxIters Up U junk' := by
  have main : ∀ mi : Int, 0 < mi → levelNumberVariance order unfolded L tol mi Up U junk =
      levelNumberVariance order' unfolded L tol mi Up U junk' := by
    intro mi hmi
    obtain ⟨v, c, t, h1, h2, h3, h4, h5⟩ := C20_levelvar_explicit order unfolded L hu tol mi hmi Up U junk ho
    obtain ⟨v', c', t', h1', h2', h3', h4', h5'⟩ :=
      C20_levelvar_explicit order' unfolded L hu tol mi hmi Up U junk' ho'
    rw [h1, h1']
    have key : ∀ i (h : i < L.length), v[i]'(by omega) = v'[i]'(by omega) ∧
        c[i]'(by omega) = c'[i]'(by omega) ∧ t[i]'(by omega) = t'[i]'(by omega) := by
      intro i h
      have a := h5 i h (by omega) (by omega) (by omega)
      rw [h5' i h (by omega) (by omega) (by omega)] at a
      injection a with a
      rw [Prod.mk.injEq, Prod.mk.injEq] at a
      exact ⟨a.1.symm, a.2.1.symm, a.2.2.symm⟩
    have e1 : v = v' := List.ext_getElem (by omega) fun i hi _ => (key i (by omega)).1
    have e2 : c = c' := List.ext_getElem (by omega) fun i hi _ => (key i (by omega)).2.1
    have e3 : t = t' := List.ext_getElem (by omega) fun i hi _ => (key i (by omega)).2.2
    rw [e1, e2, e3]
  by_cases hm : 0 < maxIters
  · exact main maxIters hm
  · by_cases hL : L = []
    · rw [(C20_levelvar_auto order unfolded L hu tol maxIters (by omega) Up U junk).1 hL,
        (C20_levelvar_auto order' unfolded L hu tol maxIters (by omega) Up U junk').1 hL]
    · obtain ⟨Lmax, hmax⟩ := exists_isMax L hL
      obtain ⟨v, conv, k, h1, h2, h3⟩ :=
        (C20_levelvar_auto order unfolded L hu tol maxIters (by omega) Up U junk).2 Lmax hmax
      obtain ⟨v', conv', k', h1', h2', h3'⟩ :=
        (C20_levelvar_auto order' unfolded L hu tol maxIters (by omega) Up U junk').2 Lmax hmax
      rw [h1] at h1'
      injection h1' with h1'
      rw [Prod.mk.injEq, Prod.mk.injEq] at h1'
      obtain ⟨rfl, rfl, rfl⟩ := h1'
      cases conv with
      | false => rw [h2 rfl, h2' rfl]
      | true =>
        rw [h3 rfl, h3' rfl]
        obtain ⟨mn, hmn⟩ := exists_isMin unfolded hu
        obtain ⟨mx, hmx⟩ := exists_isMax unfolded hu
        obtain ⟨_, _, k2, e1, e2, -⟩ := C20_sigma_budget unfolded mn mx hmn hmx Lmax 1000000000 tol 1000 Up
        rw [h1] at e1
        injection e1 with e1
        rw [Prod.mk.injEq, Prod.mk.injEq] at e1
        obtain ⟨-, -, rfl⟩ := e1
        exact main _ (by omega)

omit [IsStrictOrderedRing K] in
/-- **C23 (what the code does).** `Unfolded.level_variance` ignores `min_L_iters` entirely. -/
theorem C23_min_iters_ignored (order : List Nat) (unfolded L : List K) (tol : K) (maxI : Int)
    (m m' : Nat) (Up : Nat → K) (U : Nat → Nat → K) (junk : Nat) :
    levelVariance order unfolded L tol maxI m Up U junk =
      levelVariance order unfolded L tol maxI m' Up U junk := rfl

/-- **C23 (partial).** For an explicit budget `max_L_iters > 0` at least `min(500, max_L_iters)` iterations are performed for each `L`; hence the claim
holds for `min_L_iters ≤ 500`. Missing: larger values (including the default 1000), for which it is false
(`C23_refuted`). -/
theorem C23_min_iters_partial (order : List Nat) (unfolded L : List K) (hu : unfolded ≠ [])
    (tol : K) (maxI : Int) (hm : 0 < maxI) (m : Nat) (hmm : m ≤ 500) (Up : Nat → K) (U : Nat → Nat → K)
    (junk : Nat) (ho : order.Perm (List.range L.length)) :
    ∃ vals conv iters,
      levelVariance order unfolded L tol maxI m Up U junk = .ok (L, vals, conv, iters) ∧
      iters.length = L.length ∧ ∀ k ∈ iters, min m maxI.toNat ≤ k := by
  obtain ⟨v, c, t, h1, h2, h3, h4, h5⟩ := C20_levelvar_explicit order unfolded L hu tol maxI hm Up U junk ho
  refine ⟨v, c, t, h1, h4, ?_⟩
  intro k hk
  obtain ⟨i, hi, rfl⟩ := List.mem_iff_getElem.mp hk
  have := h5 i (by omega) (by omega) (by omega) hi
  obtain ⟨mn, hmn⟩ := exists_isMin unfolded hu
  obtain ⟨mx, hmx⟩ := exists_isMax unfolded hu
  obtain ⟨_, _, k2, e1, e2, e3, e4, e5, -⟩ := C20_sigma_budget unfolded mn mx hmn hmx (L[i]'(by omega))
    maxI.toNat tol 100 (U i)
  rw [this] at e1
  injection e1 with e1
  rw [Prod.mk.injEq, Prod.mk.injEq] at e1
  obtain ⟨-, -, rfl⟩ := e1
  by_cases h : t[i] < maxI.toNat
  · have := e4 h
    omega
  · omega

/-- **C23 (refutation).** `level_variance(L=[4], max_L_iters=10⁶, min_L_iters=1000)` on the spectrum `1, 2, 3` performs 500
iterations. -/
theorem C23_refuted :
    ¬ ∀ (unfolded L : List ℚ) (tol : ℚ) (maxI : Int) (m : Nat) (Up : Nat → ℚ) (U : Nat → Nat → ℚ)
        (junk : Nat) (vals : List ℚ) (conv : List Bool) (iters : List Nat),
        unfolded ≠ [] → 0 < tol → 0 < maxI → (∀ i j, 0 ≤ U i j ∧ U i j ≤ 1) →
        levelVariance (List.range L.length) unfolded L tol maxI m Up U junk = .ok (L, vals, conv, iters) →
        ∀ k ∈ iters, min m maxI.toNat ≤ k := by
  intro h
  obtain ⟨v, c, t, h1, h2, h3, h4, h5⟩ := C20_levelvar_explicit (List.range ([4] : List ℚ).length)
    [(1:ℚ), 2, 3] [4] (by simp) (1 / 100) 1000000 (by norm_num) (fun _ => 0) (fun _ _ => 0) 0
    (List.Perm.refl _)
  have := h [1, 2, 3] [4] (1 / 100) 1000000 1000 (fun _ => 0) (fun _ _ => 0) 0 v c t (by simp)
    (by norm_num) (by norm_num) (by intro _ _; norm_num) h1
  have h6 := h5 0 (by simp) (by rw [h2]; simp) (by rw [h3]; simp) (by rw [h4]; simp)
  have h7 := C22_wide_windows [(1:ℚ), 2, 3] 1 3 ⟨by simp, by simp⟩ ⟨by simp, by norm_num⟩ 4 (by norm_num)
    (1000000 : Int).toNat (1 / 100) (by norm_num) 100 (fun _ => 0) (by intro; norm_num)
  rw [List.getElem_cons_zero] at h6
  rw [h6] at h7
  injection h7 with h7
  rw [Prod.mk.injEq, Prod.mk.injEq] at h7
  have h8 := this _ (List.getElem_mem (l := t) (n := 0) (by rw [h4]; simp))
  rw [h7.2.2] at h8
  norm_num at h8

end Props
end RMT
