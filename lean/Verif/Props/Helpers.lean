import Verif.Model.Helpers
import Verif.Lemmas.TrimIter
import Verif.Props.RigiditySample
import Verif.Props.Moments
import Verif.Props.Brody
import Verif.Props.Trim
import Verif.Spec.Variance
import Mathlib.Tactic.IntervalCases

/-!
# C95-C99: helpers

Lengths of trim iterations (C95), statistics helpers (C96), `log_brody` (C97), further generators (C98), bin counts (C99).
-/

set_option linter.unusedSectionVars false

namespace RMT.Props
open EigValsM Spec Trim Helpers

/-! ## C95 -/

section
variable {α : Type} [LinearOrder α]

/-- **C95 (one iteration).** Inliers and outliers of an iteration add up to its eigenvalues; `inlier_length` is the number of eigenvalues handed to the next iteration and
positive; `proportion_kept` is that number divided by the number of input values, is in `(0, 1]`, and is one minus the `proportion_removed` of the next iteration. -/
theorem C95_lengths (hbos : List α → List Bool) (hlen : ∀ l, (hbos l).length = l.length)
    (eigenvalues : List α) (hne : eigenvalues ≠ []) (maxTrim : ℚ) (maxIters : Nat) :
    ∃ iters, trimIters hbos eigenvalues maxTrim maxIters = .ok iters ∧
      (∀ t ∈ iters, inlierLength t + outlierLength t = t.eigs.length ∧ inlierLength t = t.inliers.length ∧ 0 < inlierLength t ∧
        proportionKept t = .ok ((t.inliers.length : ℚ) / eigenvalues.length) ∧
        0 < (t.inliers.length : ℚ) / eigenvalues.length ∧ (t.inliers.length : ℚ) / eigenvalues.length ≤ 1) ∧
      ∀ i (h : i + 1 < iters.length),
        proportionKept (iters[i]'(by omega)) = .ok (1 - iters[i + 1].proportionRemoved) := by
  have hs : npSort eigenvalues ≠ [] := by
    intro h
    have := npSort_perm eigenvalues
    rw [h] at this
    exact hne (List.nil_perm.mp this)
  obtain ⟨t, h1, h2, h3, h4, h5⟩ := mkIter_ok hbos hlen (npSort eigenvalues) (npSort eigenvalues) hs
  obtain ⟨l, g1, g2, g3, g4⟩ := trimLoop_ok hbos hlen maxTrim maxIters t h5
  have hrun : trimIters hbos eigenvalues maxTrim maxIters = .ok (t :: l) := by
    simp only [trimIters, h1, g1, bind, Except.bind, pure, Except.pure]
  have hpos : 0 < eigenvalues.length := List.length_pos_iff.mpr hne
  have hpq : (0 : ℚ) < (eigenvalues.length : ℚ) := by exact_mod_cast hpos
  have hinv : ∀ i (h : i < (t :: l).length), Good hbos ((t :: l)[i]) ∧ ((t :: l)[i]).origs.length = eigenvalues.length ∧
      ((t :: l)[i]).eigs.length ≤ eigenvalues.length := by
    intro i
    induction i with
    | zero =>
      intro _
      refine ⟨h5, ?_, ?_⟩
      · rw [List.getElem_cons_zero, h3]; exact (npSort_perm _).length_eq
      · rw [List.getElem_cons_zero, h4]; exact (npSort_perm _).length_eq.le
    | succ i ih =>
      intro h
      obtain ⟨hn, -, -⟩ := g3 i h
      obtain ⟨i1, i2, i3⟩ := ih (by omega)
      refine ⟨hn.good, by rw [hn.origs]; exact i2, ?_⟩
      obtain ⟨lo, keep, hi, -, -, hsum, hin, -⟩ := inliers_block hbos hlen _ i1
      rw [hn.eigs, hin, List.length_take]
      omega
  have hone : ∀ i (h : i < (t :: l).length), inlierLength ((t :: l)[i]) + outlierLength ((t :: l)[i]) = ((t :: l)[i]).eigs.length ∧
      inlierLength ((t :: l)[i]) = ((t :: l)[i]).inliers.length ∧ 0 < inlierLength ((t :: l)[i]) ∧
      proportionKept ((t :: l)[i]) = .ok ((((t :: l)[i]).inliers.length : ℚ) / eigenvalues.length) ∧
      ((t :: l)[i]).inliers.length ≤ eigenvalues.length := by
    intro i h
    obtain ⟨i1, i2, i3⟩ := hinv i h
    generalize (t :: l)[i] = u at *
    obtain ⟨lo, keep, hi, hk, -, hsum, hin, hcl⟩ := inliers_block hbos hlen _ i1
    have e1 : inlierLength u = keep := by simp [inlierLength, hcl]
    have e2 : outlierLength u = lo + hi := by simp [outlierLength, hcl]
    have e3 : u.inliers.length = keep := by rw [hin, List.length_take, List.length_drop]; omega
    refine ⟨by rw [e1, e2]; omega, by rw [e1, e3], by omega, ?_, by omega⟩
    rw [proportionKept, if_neg (by omega), e1, e3, i2]
  refine ⟨t :: l, hrun, ?_, ?_⟩
  · intro u hu
    obtain ⟨i, hi, rfl⟩ := List.mem_iff_getElem.mp hu
    obtain ⟨a1, a2, a3, a4, a5⟩ := hone i hi
    refine ⟨a1, a2, a3, a4, ?_, ?_⟩
    · have : (0 : ℚ) < (((t :: l)[i]).inliers.length : ℚ) := by rw [← a2]; exact_mod_cast a3
      positivity
    · rw [div_le_one hpq]; exact_mod_cast a5
  · intro i h
    obtain ⟨hn, -, -⟩ := g3 i h
    obtain ⟨-, -, -, a4, -⟩ := hone i (by omega)
    rw [a4, Iter.proportionRemoved, hn.eigs, (hinv (i + 1) h).2.1, sub_sub_cancel]

end

/-- **C95 (no outliers).** An iteration has only inliers exactly if its outlier length is 0. -/
theorem C95_all_inliers {α : Type} (t : Iter α) : t.isAllInliers = true ↔ outlierLength t = 0 := by
  simp only [Iter.isAllInliers, outlierLength, List.length_eq_zero_iff, List.filter_eq_nil_iff, List.all_eq_true]
  constructor
  · intro h b hb hb'
    have := h b hb
    simp_all
  · intro h b hb
    have := h b hb
    simp_all

-- C95: a detector that flags the values of every array from the third on
example : ∃ t, mkIter (fun l : List ℤ => (List.range l.length).map fun (i : Nat) => decide (2 ≤ i)) [1, 2, 9] [1, 2, 9] = .ok t ∧
    inlierLength t = 2 ∧ outlierLength t = 1 ∧ proportionKept t = .ok (2 / 3) := by
  have b : outlierLabels [false, false, true] = .ok [false, false, true] := by
    obtain ⟨r, h1, h2, -, -, -, h3⟩ := C24_labels [false, false, true] (by simp)
    rw [h1]
    congr 1
    have h4 := h3 rfl rfl
    have hl : r.length = 3 := h2
    apply List.ext_getElem hl
    intro i hi hi'
    have hi3 : i < 3 := hi'
    rw [Bool.eq_iff_iff, h4 i hi]
    interval_cases i <;> simp
  refine ⟨⟨0, [1, 2, 9], [1, 2, 9], [false, false, true]⟩, ?_, rfl, rfl, by simp [proportionKept, inlierLength]⟩
  have e : (fun l : List ℤ => (List.range l.length).map fun (i : Nat) => decide (2 ≤ i)) [1, 2, 9] = [false, false, true] := by decide
  simp only [mkIter, e, b, bind, Except.bind, pure, Except.pure]

/-! ## C96 -/

section
variable {K : Type} [Field K] [LinearOrder K] [IsStrictOrderedRing K]

/-- The sum of the squared deviations from the mean of all entries. -/
def sumSqDev (l : List K) : K := (l.map fun v => (v - l.sum / l.length) ^ 2).sum

/-- **C96 (variance).** `variance(arr)` is the unbiased sample variance of two or more values and raises `ZeroDivisionError` for one. -/
theorem C96_variance (arr : List K) :
    (2 ≤ arr.length → variance arr = .ok (sumSqDev arr / ((arr.length : K) - 1))) ∧
    (arr.length = 1 → variance arr = .error .zeroDivisionError) := by
  constructor
  · intro h
    rw [variance, if_neg (by omega)]
    simp only [sumSqDev, RMT.mean, List.map_map, Function.comp_def]
    congr 1
    rw [one_div, mul_comm]
    simp only [div_eq_mul_inv]
  · intro h
    rw [variance, if_pos h]

/-- **C96 (least squares).** `slope` and `intercept` are the same functions as the private ones of the rigidity code; the line `slope · x + intercept` has
the least sum of squared residuals among all lines, and is the only such line if the abscissae are not all equal. -/
theorem C96_least_squares (x y : List K) (hx : x ≠ []) (hl : x.length = y.length) (a b : K) :
    sse x y (Helpers.slope x y) (Helpers.intercept x y (Helpers.slope x y)) ≤ sse x y a b ∧
    (¬ AllEqual x → (a, b) ≠ (Helpers.slope x y, Helpers.intercept x y (Helpers.slope x y)) →
      sse x y (Helpers.slope x y) (Helpers.intercept x y (Helpers.slope x y)) < sse x y a b) :=
  ⟨C07_line_optimal x y hx hl a b, fun hne hab => C07_line_unique x y hl hne a b hab⟩

end

example : variance [(1 : ℚ), 2, 6] = .ok 7 ∧ Helpers.slope [(0:ℚ), 1, 3] [1, 3, 7] = 2 := by decide +kernel

/-! ## C97 -/

open Ensembles in
/-- **C97 (refuted: log of the Brody density).** On positive spacings every entry of `log_brody(s, beta)` is the logarithm of the Brody density *plus* `2 α s^(β+1)`: the exponential
enters with the wrong sign. -/
theorem C97_log_refuted (s : List ℝ) (beta : ℝ) (hb : 0 ≤ beta) (hs : ∀ x ∈ s, 0 < x) :
    logBrody s beta = s.map (fun x => Real.log (brodyDist x beta) + 2 * brodyAlpha beta * x ^ (beta + 1)) ∧
    (s ≠ [] → logBrody s beta ≠ s.map fun x => Real.log (brodyDist x beta)) := by
  have ha : 0 < brodyAlpha beta := by
    unfold brodyAlpha
    exact Real.rpow_pos_of_pos (Real.Gamma_pos_of_pos (by positivity)) _
  have e : logBrody s beta = s.map (fun x => Real.log (brodyDist x beta) + 2 * brodyAlpha beta * x ^ (beta + 1)) := by
    have hf : (s.filter fun x => 0 < x) = s := List.filter_eq_self.mpr fun x hx => by simpa using hs x hx
    simp only [logBrody, hf]
    refine List.map_congr_left fun x hx => ?_
    have hx0 := hs x hx
    have hxb : 0 < x ^ beta := Real.rpow_pos_of_pos hx0 _
    have hb1 : 0 < beta + 1 := by linarith
    have hd : brodyDist x beta = (beta + 1) * brodyAlpha beta * x ^ beta * Real.exp (-brodyAlpha beta * x ^ (beta + 1)) := rfl
    rw [hd, Real.log_mul (by positivity) (Real.exp_ne_zero _), Real.log_exp, Real.log_mul (by positivity) hxb.ne', Real.log_rpow hx0]
    have : Real.Gamma ((beta + 2) / (beta + 1)) ^ (beta + 1) = brodyAlpha beta := rfl
    rw [this]
    ring
  refine ⟨e, fun hne h => ?_⟩
  rw [e] at h
  obtain ⟨x, l, rfl⟩ := List.exists_cons_of_ne_nil hne
  simp only [List.map_cons, List.cons.injEq] at h
  have hx0 := hs x (by simp)
  have : 0 < 2 * brodyAlpha beta * x ^ (beta + 1) := by
    have := Real.rpow_pos_of_pos hx0 (beta + 1)
    positivity
  linarith [h.1]

/-- **C97 (partial: non-positive spacings are dropped).** Spacings that are zero or negative do not influence `log_brody`. -/
theorem C97_filter_partial (s : List ℝ) (beta : ℝ) : logBrody s beta = logBrody (s.filter fun x => 0 < x) beta := by
  simp [logBrody]

-- C97: the hypotheses hold for two spacings and `β = 1`
example : logBrody [1, 2] 1 ≠ [1, 2].map fun x => Real.log (Ensembles.brodyDist x 1) :=
  (C97_log_refuted [1, 2] 1 (by norm_num) (by simp)).2 (by simp)

/-! ## C98 -/

open Gen EigM MeasureTheory

/-- The matrix of the direct generator is the tridiagonal matrix for doubled chi-square draws. -/
theorem directMatrix_eq (n : Nat) (c z : List ℝ) :
    directMatrix n c z = tridiagonalOf n (c.map (2 * ·)) z := by
  have hk : ∀ k : Nat, √((c.map (2 * ·)).getD k 0) / √2 = √(c.getD k 0) := by
    intro k
    have : (c.map (2 * ·)).getD k 0 = 2 * c.getD k 0 := by
      simp only [List.getD_eq_getElem?_getD, List.getElem?_map]
      cases c[k]? <;> simp
    rw [this, Real.sqrt_mul (by norm_num)]
    have : √(2 : ℝ) ≠ 0 := by positivity
    field_simp
  ext i j
  simp only [directMatrix, tridiagonalOf, hk]

/-- **C98 (direct generator, shape).** With an exact eigenvalue solver the direct tridiagonal generator returns, in ascending order, `n` values: all but one smallest and one largest of the
`n + 2` eigenvalues of its matrix. -/
theorem C98_direct_shape {σ : Type} (R : Rng σ) (eigvalsh : EigSolver)
    (hlen : ∀ k M, (eigvalsh k M).length = k) (n : Nat) (seed : Option Nat) (s : σ) :
    let r := (generateDirect R eigvalsh n seed s).1
    r.length = n ∧ Ascending r ∧ ∃ (c z : List ℝ) (lo hi : ℝ),
      (eigvalsh (n + 2) (directMatrix (n + 2) c z)).Perm (lo :: r ++ [hi]) ∧ (∀ v ∈ r, lo ≤ v ∧ v ≤ hi) ∧ lo ≤ hi := by
  intro r
  set c := (chisquares R (chiRange (n + 2)) (seedIfGiven R seed s)) with hc
  set d := normals R (n + 2) c.2 with hd
  set e := npSort (eigvalsh (n + 2) (directMatrix (n + 2) c.1 d.1)) with he
  have hr : r = (e.drop 1).take n := rfl
  have hel : e.length = n + 2 := by rw [he, (npSort_perm _).length_eq, hlen]
  obtain ⟨lo, e1, hcons⟩ : ∃ lo e1, e = lo :: e1 := List.exists_cons_of_length_pos (by omega)
  have he1 : e1.length = n + 1 := by rw [hcons] at hel; simpa using hel
  have hsplit : e1 = e1.take n ++ [e1[n]] := by
    conv_lhs => rw [← List.take_append_drop n e1]
    rw [List.drop_eq_getElem_cons (by omega), List.drop_of_length_le (by omega)]
  have hr' : r = e1.take n := by rw [hr, hcons]; rfl
  have hasc : Ascending (lo :: e1) := by rw [← hcons]; exact npSort_ascending _
  have hasc1 : Ascending (lo :: (r ++ [e1[n]])) := by rw [hr', ← hsplit]; exact hasc
  refine ⟨by rw [hr', List.length_take]; omega, ?_, c.1, d.1, lo, e1[n], ?_, ?_, ?_⟩
  · exact (List.pairwise_append.mp (List.pairwise_cons.mp hasc1).2).1
  · have : e.Perm (eigvalsh (n + 2) (directMatrix (n + 2) c.1 d.1)) := npSort_perm _
    refine this.symm.trans ?_
    rw [hcons, List.cons_append, hr', ← hsplit]
  · intro v hv
    exact ⟨(List.pairwise_cons.mp hasc1).1 v (by simp [hv]),
      (List.pairwise_append.mp (List.pairwise_cons.mp hasc1).2).2.2 v hv _ (by simp)⟩
  · exact (List.pairwise_cons.mp hasc1).1 _ (by simp)

/-- **C98 (refuted: scale of the direct generator).** The expected sum of squared eigenvalues of the `m × m` matrix of the direct generator is `m²`, not the `(m² + m)/2` of the tridiagonal generator documented by the same reference
(C50_tridiagonal_moment): for `m > 1` they differ. -/
theorem C98_direct_refuted {Ω : Type} [MeasurableSpace Ω] (P : Measure Ω) (m : Nat) (hm : 1 < m)
    (chi2 z : Nat → Ω → ℝ) (hc : ∀ k ω, 0 ≤ chi2 k ω) (hci : ∀ k, Integrable (chi2 k) P)
    (hcm : ∀ k, k < m - 1 → ∫ ω, chi2 k ω ∂P = ((chiRange m).getD k 0 : ℝ))
    (hzi : ∀ k, Integrable (fun ω => z k ω ^ 2) P) (hz : ∀ k, k < m → ∫ ω, z k ω ^ 2 ∂P = 1) :
    let direct := ∫ ω, (directMatrix m ((List.range (m - 1)).map fun (k : Nat) => chi2 k ω) ((List.range m).map fun (k : Nat) => z k ω) *
      directMatrix m ((List.range (m - 1)).map fun (k : Nat) => chi2 k ω) ((List.range m).map fun (k : Nat) => z k ω)).trace ∂P
    let tri := ∫ ω, (tridiagonalOf m ((List.range (m - 1)).map fun (k : Nat) => chi2 k ω) ((List.range m).map fun (k : Nat) => z k ω) *
      tridiagonalOf m ((List.range (m - 1)).map fun (k : Nat) => chi2 k ω) ((List.range m).map fun (k : Nat) => z k ω)).trace ∂P
    direct = (m : ℝ) ^ 2 ∧ direct ≠ tri := by
  intro direct tri
  have ht : tri = ((m : ℝ) ^ 2 + m) / 2 := C50_tridiagonal_moment P m chi2 z hc hci hcm hzi hz
  have e : ∀ ω, (directMatrix m ((List.range (m - 1)).map fun (k : Nat) => chi2 k ω) ((List.range m).map fun (k : Nat) => z k ω) *
      directMatrix m ((List.range (m - 1)).map fun (k : Nat) => chi2 k ω) ((List.range m).map fun (k : Nat) => z k ω)).trace =
      (tridiagonalOf m ((List.range (m - 1)).map fun (k : Nat) => chi2 k ω) ((List.range m).map fun (k : Nat) => z k ω) *
      tridiagonalOf m ((List.range (m - 1)).map fun (k : Nat) => chi2 k ω) ((List.range m).map fun (k : Nat) => z k ω)).trace +
      ∑ k ∈ Finset.range (m - 1), chi2 k ω := by
    intro ω
    rw [directMatrix_eq, List.map_map]
    have h2 := trace_tridiagonalOf m (fun k => 2 * chi2 k ω) (fun k => z k ω) (fun k => by have := hc k ω; positivity)
    have h1 := trace_tridiagonalOf m (fun k => chi2 k ω) (fun k => z k ω) (fun k => hc k ω)
    rw [h1]
    refine Eq.trans h2 ?_
    rw [← Finset.mul_sum]
    ring
  have hsum : ∫ ω, ∑ k ∈ Finset.range (m - 1), chi2 k ω ∂P = ((m : ℝ) ^ 2 - m) / 2 := by
    rw [integral_finsetSum _ (fun i _ => hci i), Finset.sum_congr rfl (fun i hi => hcm i (Finset.mem_range.mp hi))]
    have h3 : ∑ k ∈ Finset.range (m - 1), (((chiRange m).getD k 0 : Nat) : ℝ) = ∑ k ∈ Finset.range (m - 1), ((k + 1 : Nat) : ℝ) := by
      rw [← Finset.sum_range_reflect (fun k => ((k + 1 : Nat) : ℝ))]
      refine Finset.sum_congr rfl fun k hk => ?_
      have := Finset.mem_range.mp hk
      have : (chiRange m).getD k 0 = m - 1 - 1 - k + 1 := by
        simp only [chiRange, List.getD_eq_getElem?_getD, List.getElem?_map, List.getElem?_range this, Option.map_some, Option.getD_some]
        omega
      rw [this]
    rw [h3]
    obtain ⟨q, rfl⟩ : ∃ q, m = q + 1 := ⟨m - 1, by omega⟩
    rw [Nat.add_sub_cancel]
    have : ∀ q : Nat, ∑ k ∈ Finset.range q, ((k + 1 : Nat) : ℝ) = (((q : ℝ) + 1) ^ 2 - (q + 1)) / 2 := by
      intro q
      induction q with
      | zero => simp
      | succ q ih => rw [Finset.sum_range_succ, ih]; push_cast; ring
    rw [this]; push_cast; ring
  have hd : direct = (m : ℝ) ^ 2 := by
    have h4 : direct = tri + ((m : ℝ) ^ 2 - m) / 2 := by
      rw [← hsum]
      simp only [direct, tri, e]
      refine integral_add ?_ (integrable_finsetSum _ fun i _ => hci i)
      have : ∀ ω, (tridiagonalOf m ((List.range (m - 1)).map fun (k : Nat) => chi2 k ω) ((List.range m).map fun (k : Nat) => z k ω) *
        tridiagonalOf m ((List.range (m - 1)).map fun (k : Nat) => chi2 k ω) ((List.range m).map fun (k : Nat) => z k ω)).trace =
        ∑ i ∈ Finset.range m, z i ω ^ 2 + ∑ k ∈ Finset.range (m - 1), chi2 k ω :=
        fun ω => trace_tridiagonalOf m (fun k => chi2 k ω) (fun k => z k ω) (fun k => hc k ω)
      simp only [this]
      exact (integrable_finsetSum _ fun i _ => hzi i).add (integrable_finsetSum _ fun i _ => hci i)
    rw [h4, ht]; ring
  refine ⟨hd, ?_⟩
  rw [hd, ht]
  have : (1 : ℝ) < m := by exact_mod_cast hm
  intro h
  nlinarith

/-- **C98 (Poisson).** The diagonal matrix of `_generate_poisson` has the `n` draws as eigenvalues. -/
theorem C98_poisson {σ : Type} (R : Rng σ) (n : Nat) (seed : Option Nat) (s : σ) :
    (generatePoisson R n seed s).1.charpoly.roots = ((normals R n (seedIfGiven R seed s)).1 : Multiset ℝ) := by
  have hl := normals_length R n (seedIfGiven R seed s)
  simp only [generatePoisson]
  rw [Matrix.charpoly_diagonal, Polynomial.roots_prod _ _ (Finset.prod_ne_zero_iff.mpr fun i _ => Polynomial.X_sub_C_ne_zero _)]
  simp only [Polynomial.roots_X_sub_C, Multiset.bind_singleton]
  generalize (normals R n (seedIfGiven R seed s)).1 = l at *
  subst hl
  rw [Fin.univ_val_map]
  congr 1
  apply List.ext_getElem
  · simp
  · intro i h1 h2
    simp

/-- **C98 (time_series_eigs).** For two or more series none of which is constant, `time_series_eigs` returns the eigenvalues of the matrix of Pearson correlations of its draws; they add up to the number of series and are not
negative. Any `dist` other than `"normal"` raises `UnboundLocalError`. -/
theorem C98_time_series {σ : Type} (R : Rng σ) (eigvalsh : EigSolver) (hs : ExactSolver eigvalsh) (n t : Nat) (dist : String) (s : σ) (hn : n ≠ 1) :
    (dist ≠ "normal" → (timeSeriesEigs R eigvalsh n t dist s).1 = .error .unboundLocalError) ∧
    (dist = "normal" → 2 ≤ t →
      let X : Matrix (Fin n) (Fin t) ℝ := fun i j => (normals R (n * t) s).1.getD (i.val * t + j.val) 0
      (∀ i, NonConstant (X i)) → ∃ e, (timeSeriesEigs R eigvalsh n t dist s).1 = .ok e ∧
        (e : Multiset ℝ) = (corrMatrix X).charpoly.roots ∧ e.sum = n ∧ ∀ v ∈ e, 0 ≤ v) := by
  constructor
  · intro h; rw [timeSeriesEigs, if_neg h]
  · intro h ht X hX
    refine ⟨eigvalsh n (correlateFast X 0), ?_, ?_⟩
    · rw [timeSeriesEigs, if_pos h]
      simp only [if_neg hn]
      rfl
    · rw [correlateFast_eq X 0 (by omega)]
      have hr := hs n _ (corrMatrix_isSymm X)
      have hw : wantedMatrix X false = corrMatrix X := by simp [wantedMatrix]
      refine ⟨hr, ?_, ?_⟩
      · have h1 := trace_wanted X false ht (fun _ => hX)
        have h2 := Moments.sum_roots _ (wantedMatrix_isSymm X false)
        rw [hw] at h1 h2
        rw [← hr] at h2
        simp only [Multiset.sum_coe] at h2
        rw [h2, h1]; simp
      · intro v hv
        have := C45_nonneg X false ht (fun _ => hX) v
        rw [hw, ← hr] at this
        exact this (by simpa using hv)

-- C98: the hypothesis on the draws holds for some draws
example : ∀ i, NonConstant ((fun i j => ([1, 2, 3, 5] : List ℝ).getD (i.val * 2 + j.val) 0 : Matrix (Fin 2) (Fin 2) ℝ) i) := by
  intro i
  refine ⟨0, 1, ?_⟩
  fin_cases i <;> simp

/-! ## C99 -/

section
variable {K : Type} [Field K] [LinearOrder K] [IsStrictOrderedRing K]

/-- **C99 (refuted: histograms).** The histogram helper of `Compare` with one bin always raises (it announces this as impossible), and its counts do not add up to the number of
values. -/
theorem C99_histograms_refuted :
    (∀ (curve1 curve2 : List K), curve1 ≠ [] → curve2 ≠ [] → (∀ v ∈ curve2, ∃ u ∈ curve1, u ≤ v) → histograms curve1 curve2 1 = .error .runtimeError) ∧
    ∃ e c1 c2, histograms [(0 : ℚ), 1] [0, 1] 3 = .ok (e, c1, c2) ∧ c1.sum = 3 := by
  constructor
  · intro c1 c2 h1 h2 hle
    have s1 : npSort c1 ≠ [] := fun h => h1 (List.nil_perm.mp (h ▸ npSort_perm c1))
    have s2 : npSort c2 ≠ [] := fun h => h2 (List.nil_perm.mp (h ▸ npSort_perm c2))
    obtain ⟨a1, l1, e1⟩ := List.exists_cons_of_ne_nil s1
    obtain ⟨a2, l2, e2⟩ := List.exists_cons_of_ne_nil s2
    have hle' : a1 ≤ a2 := by
      have hm : a2 ∈ c2 := (npSort_perm c2).mem_iff.mp (by rw [e2]; simp)
      obtain ⟨u, hu, hu'⟩ := hle a2 hm
      have : u ∈ a1 :: l1 := by rw [← e1]; exact (npSort_perm c1).mem_iff.mpr hu
      have hasc : Ascending (a1 :: l1) := by rw [← e1]; exact npSort_ascending c1
      rcases List.mem_cons.mp this with rfl | h
      · exact hu'
      · exact ((List.pairwise_cons.mp hasc).1 u h).trans hu'
    have g : ∀ (a : K) (l : List K), ∃ b, pyGet (a :: l) (-1) = .ok b := by
      intro a l
      simp only [pyGet, pyIdx, List.length_cons]
      rw [if_neg (by omega), if_pos (by omega)]
      exact ⟨(a :: l)[l.length], by simp⟩
    obtain ⟨b1, hb1⟩ := g a1 l1
    obtain ⟨b2, hb2⟩ := g a2 l2
    have hz : ∀ (a : K) (l : List K), pyGet (a :: l) 0 = .ok a := by
      intro a l
      simp [pyGet, pyIdx]
    simp only [histograms, e1, e2, hb1, hb2, hz, bind, Except.bind]
    simp [histLoop, linspace, min_eq_left hle']
  · refine ⟨[0, 1/3, 2/3, 1], [0, 1, 2], [0, 1, 2], ?_, by decide⟩
    have : npSort [(0 : ℚ), 1] = [0, 1] := npSort_of_ascending _ (by simp)
    simp only [histograms, this]
    decide +kernel

/-- The number of values below `e`. -/
private theorem filter_lt_len (l : List K) (a b : K) (h : a ≤ b) :
    (((l.filter fun v => decide (v < b)).length : Nat) : Int) - ((l.filter fun v => decide (v < a)).length : Nat) =
      ((l.countP fun v => decide (a ≤ v ∧ v < b) : Nat) : Int) := by
  rw [← List.countP_eq_length_filter, ← List.countP_eq_length_filter]
  induction l with
  | nil => simp
  | cons v l ih =>
    simp only [List.countP_cons, decide_eq_true_eq]
    by_cases h1 : v < a
    · have h2 : v < b := lt_of_lt_of_le h1 h
      have h3 : ¬ (a ≤ v ∧ v < b) := fun h => absurd h1 (not_lt.mpr h.1)
      rw [if_pos h1, if_pos h2, if_neg h3]; push_cast; omega
    · by_cases h2 : v < b
      · rw [if_neg h1, if_pos h2, if_pos ⟨not_lt.mp h1, h2⟩]; push_cast; omega
      · rw [if_neg h1, if_neg h2, if_neg (fun h => h2 h.2)]; push_cast; omega

/-- Specification of the bin counts: number of values from the previous end point (if any) up to, not including, the end point. -/
def binCountSpec (l : List K) : Option K → List K → List Int
  | _, [] => []
  | none, e :: es => ((l.countP fun v => decide (v < e) : Nat) : Int) :: binCountSpec l (some e) es
  | some p, e :: es => ((l.countP fun v => decide (p ≤ v ∧ v < e) : Nat) : Int) :: binCountSpec l (some e) es

private theorem binCountsFrom_eq (l : List K) (ends : List K) : ∀ (counts : List Int) (p : K), Ascending (p :: ends) → counts ≠ [] →
    counts.sum = ((l.filter fun v => decide (v < p)).length : Nat) →
    binCountsFrom l counts ends = counts ++ binCountSpec l (some p) ends := by
  induction ends with
  | nil => intro counts p _ _ _; simp [binCountsFrom, binCountSpec]
  | cons e es ih =>
    intro counts p hasc hne hsum
    have hpe : p ≤ e := (List.pairwise_cons.mp hasc).1 e (by simp)
    have hc : counts.length ≠ 0 := fun h => hne (List.length_eq_zero_iff.mp h)
    simp only [binCountsFrom, if_neg hc]
    have hc' : ((l.filter fun v => decide (v < e)).length : Int) - counts.sum = ((l.countP fun v => decide (p ≤ v ∧ v < e) : Nat) : Int) := by
      rw [hsum]; exact filter_lt_len l p e hpe
    rw [ih _ e (List.pairwise_cons.mp hasc).2 (by simp)]
    · simp only [binCountSpec, hc', List.append_assoc, List.singleton_append]
    · simp [List.sum_append]

/-- **C99 (bins).** For a non-empty array and two or more `bins` the check of the bin sizes counts, for `bins - 1` (not `bins`) equal intervals between the least and the greatest value, the values in each interval with its left and without its right end point (so the greatest
value is never counted), and warns exactly if one interval holds more than 40% of the values. -/
theorem C99_bins (vals : List K) (lo hi : K) (hlo : Spec.IsMin vals lo) (hhi : Spec.IsMax vals hi) (bins : Nat) (hb : 2 ≤ bins) :
    let ends := (List.range (bins - 1)).map fun (i : Nat) => lo + ((i : K) + 1) * ((hi - lo) / ((bins : K) - 1))
    ∃ counts warn, validateBinSizes vals bins = .ok (counts, warn) ∧ counts.length = bins - 1 ∧ counts = binCountSpec vals none ends ∧
      (warn = true ↔ ∃ c ∈ counts, (4 : ℚ) / 10 * vals.length < c) := by
  intro ends
  have hne : npSort vals ≠ [] := fun h => by
    have := (npSort_perm vals).mem_iff.mpr hlo.1
    rw [h] at this; simp at this
  have hnv : vals ≠ [] := List.ne_nil_of_mem hlo.1
  have hperm := npSort_perm vals
  obtain ⟨a, l, e1⟩ := List.exists_cons_of_ne_nil hne
  have hasc : Ascending (a :: l) := by rw [← e1]; exact npSort_ascending vals
  have ha : a = lo := by
    have h1 : lo ∈ a :: l := by rw [← e1]; exact hperm.mem_iff.mpr hlo.1
    have h2 : a ∈ vals := hperm.mem_iff.mp (by rw [e1]; simp)
    refine le_antisymm ?_ (hlo.2 a h2)
    rcases List.mem_cons.mp h1 with h | h
    · exact h.ge
    · exact (List.pairwise_cons.mp hasc).1 lo h
  have hget0 : pyGet (npSort vals) 0 = .ok lo := by rw [e1, ha]; simp [pyGet, pyIdx]
  have hget1 : pyGet (npSort vals) (-1) = .ok hi := by
    rw [e1]
    have hl : pyGet (a :: l) (-1) = .ok ((a :: l)[l.length]) := by
      simp only [pyGet, pyIdx, List.length_cons]
      rw [if_neg (by omega), if_pos (by omega)]
      simp
    rw [hl]
    congr 1
    refine le_antisymm (hhi.2 _ (hperm.mem_iff.mp (by rw [e1]; exact List.getElem_mem _))) ?_
    have h1 : hi ∈ a :: l := by rw [← e1]; exact hperm.mem_iff.mpr hhi.1
    obtain ⟨i, hi', hh⟩ := List.mem_iff_getElem.mp h1
    rw [← hh]
    rcases Nat.lt_or_ge i l.length with h | h
    · exact List.pairwise_iff_getElem.mp hasc i l.length hi' (by simp) h
    · have : i = l.length := by simp at hi'; omega
      subst this; rfl
  have hends : (linspace lo hi bins).drop 1 = ends := by
    apply List.ext_getElem
    · simp [linspace, ends]
    · intro i h1 h2
      simp only [linspace, ends, List.getElem_drop, List.getElem_map, List.getElem_range]
      push_cast; ring
  have hlohi : lo ≤ hi := hlo.2 hi hhi.1
  have hbK : (0 : K) < (bins : K) - 1 := by
    have : (2 : K) ≤ bins := by exact_mod_cast hb
    linarith
  have hstep : (0 : K) ≤ (hi - lo) / ((bins : K) - 1) := div_nonneg (by linarith) hbK.le
  have hea : Ascending ends := by
    rw [Ascending, List.pairwise_map]
    refine List.pairwise_lt_range.imp fun {i j} h => ?_
    have : (i : K) ≤ j := by exact_mod_cast h.le
    nlinarith
  have hcounts : ∀ l' : List K, binCountsFrom l' [] ends = binCountSpec l' none ends := by
    intro l'
    obtain ⟨e, es, he⟩ : ∃ e es, ends = e :: es := List.exists_cons_of_length_pos (by simp [ends]; omega)
    rw [he] at hea ⊢
    simp only [binCountsFrom, List.length_nil, if_true, List.nil_append]
    rw [binCountsFrom_eq l' es _ e hea (by simp) (by simp)]
    simp [binCountSpec, List.countP_eq_length_filter]
  have hpc : ∀ (o : Option K) (es : List K), binCountSpec (npSort vals) o es = binCountSpec vals o es := by
    intro o es
    induction es generalizing o with
    | nil => cases o <;> rfl
    | cons e es ih => cases o <;> simp only [binCountSpec, ih, hperm.countP_eq]
  have hlenspec : ∀ (o : Option K) (es : List K), (binCountSpec vals o es).length = es.length := by
    intro o es
    induction es generalizing o with
    | nil => cases o <;> rfl
    | cons e es ih => cases o <;> simp only [binCountSpec, ih, List.length_cons]
  have hLpos : (0 : ℚ) < (vals.length : ℚ) := by exact_mod_cast List.length_pos_iff.mpr hnv
  refine ⟨binCountSpec vals none ends, (binCountSpec vals none ends).any fun c => decide ((4 : ℚ) / 10 < (c : ℚ) / (vals.length : ℚ)), ?_, ?_, rfl, ?_⟩
  · simp only [validateBinSizes, hget0, hget1, bind, Except.bind, hends, hcounts, hpc, hperm.length_eq]
  · rw [hlenspec]; simp [ends]
  · simp only [List.any_eq_true, decide_eq_true_eq, lt_div_iff₀ hLpos]

end

-- C99: the greatest value is not counted
example : binCountSpec [(0 : ℚ), 1, 1, 4] none [2, 4] = [3, 0] ∧ Spec.IsMin [(0 : ℚ), 1, 1, 4] 0 ∧ Spec.IsMax [(0 : ℚ), 1, 1, 4] 4 := by
  refine ⟨by decide +kernel, ⟨by simp, by decide +kernel⟩, ⟨by simp, by decide +kernel⟩⟩

end RMT.Props
