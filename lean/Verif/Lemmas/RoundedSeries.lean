import Verif.Model.RoundedSeries
import Verif.Lemmas.RoundedSample
import Verif.Props.Stability

/-! # Limits of covariance and correlation matrices in rounded arithmetic -/

namespace RMT
namespace Rounded
open EigM Spec Filter Topology Props Weyl EigValsM

variable {N T : ℕ}

/-- The evaluation rounds with relative error at most `ε`, and adds up every entry once. -/
structure Accurate (E : Evaluation) (ε : ℝ) : Prop where
  rel : RelRounding E.fl ε
  mean : ∀ i b, b ≠ [] → (E.mean i b).leaves.Perm b
  std : ∀ i b, b ≠ [] → (E.std i b).leaves.Perm b
  dot : ∀ i j b, b ≠ [] → (E.dot i j b).leaves.Perm b

/-- All evaluations, with their precision. -/
def Evals : Type := {p : ℝ × Evaluation // 0 ≤ p.1 ∧ Accurate p.2 p.1}

/-- Precision tending to exactness. -/
def precise : Filter Evals := comap (fun p : Evals => p.1.1) (𝓝 0)

theorem evals_precise : Precise precise (fun p => p.1.2.fl) (fun p => p.1.1) := ⟨fun p => p.2.1, tendsto_comap, fun p => p.2.2.rel⟩

theorem ofFn_lim {m : ℕ} {x : Evals → Fin m → ℝ} {a : Fin m → ℝ} (h : ∀ t, Tendsto (fun p => x p t) precise (𝓝 (a t))) : TL precise (fun p => List.ofFn (x p)) (List.ofFn a) := by
  refine ⟨fun p => by simp, fun k => ?_⟩
  by_cases hk : k < m
  · simpa [List.getD_eq_getElem?_getD, hk] using h ⟨k, hk⟩
  · simpa [List.getD_eq_getElem?_getD, hk] using tendsto_const_nhds

theorem rowMean_lim (X : Matrix (Fin N) (Fin T) ℝ) (i : Fin N) : Tendsto (fun p : Evals => rowMeanFl p.1.2 X i) precise (𝓝 (rowMean X i)) := by
  have h := (TL.const (F := precise) (List.ofFn (X i))).sumFl evals_precise (assoc := fun p => p.1.2.mean i) (fun p => p.2.2.mean i)
  rw [List.sum_ofFn] at h
  exact evals_precise.rnd (h.div_const _)

theorem center_lim (X : Matrix (Fin N) (Fin T) ℝ) (i : Fin N) (t : Fin T) : Tendsto (fun p : Evals => centerFl p.1.2 X i t) precise (𝓝 (center X i t)) :=
  evals_precise.rnd (tendsto_const_nhds.sub (rowMean_lim X i))

theorem dot_lim {m : ℕ} (i j : ℕ) {x y : Evals → Fin m → ℝ} {a b : Fin m → ℝ} (hx : ∀ t, Tendsto (fun p => x p t) precise (𝓝 (a t))) (hy : ∀ t, Tendsto (fun p => y p t) precise (𝓝 (b t))) :
    Tendsto (fun p : Evals => dotFl p.1.2 i j (x p) (y p)) precise (𝓝 (∑ t, a t * b t)) := by
  have h1 : ∀ t : Fin m, Tendsto (fun p : Evals => if p.1.2.fused i j t then x p t * y p t else p.1.2.fl (x p t * y p t)) precise (𝓝 (a t * b t)) := fun t => by
    have e1 := (hx t).mul (hy t)
    have e2 := evals_precise.rnd e1
    refine tendsto_of_tendsto_of_dist e1 ?_
    have e3 : Tendsto (fun p : Evals => dist (x p t * y p t) (p.1.2.fl (x p t * y p t))) precise (𝓝 0) := by
      have := e1.dist e2
      rwa [dist_self] at this
    refine squeeze_zero (fun _ => dist_nonneg) (fun p => ?_) e3
    split_ifs
    · rw [dist_self]; exact dist_nonneg
    · exact le_rfl
  have h := (ofFn_lim h1).sumFl evals_precise (assoc := fun p => p.1.2.dot i j) (fun p => p.2.2.dot i j)
  rw [List.sum_ofFn] at h
  exact h

theorem cov_lim (X : Matrix (Fin N) (Fin T) ℝ) (i j : Fin N) : Tendsto (fun p : Evals => npCovFl p.1.2 X 1 i j) precise (𝓝 (npCov X 1 i j)) :=
  evals_precise.rnd ((dot_lim i j (center_lim X i) (center_lim X j)).mul (evals_precise.rnd tendsto_const_nhds))

theorem nonconstant_pos (X : Matrix (Fin N) (Fin T) ℝ) (i : Fin N) (h : NonConstant (X i)) : 0 < ∑ t, center X i t * center X i t := by
  refine lt_of_le_of_ne (Finset.sum_nonneg fun _ _ => mul_self_nonneg _) fun h0 => ?_
  obtain ⟨s, t, hst⟩ := h
  have hz := (Finset.sum_eq_zero_iff_of_nonneg fun t _ => mul_self_nonneg (center X i t)).mp h0.symm
  have h1 := mul_self_eq_zero.mp (hz s (Finset.mem_univ _))
  have h2 := mul_self_eq_zero.mp (hz t (Finset.mem_univ _))
  simp only [center] at h1 h2
  exact hst (by linarith)

theorem npCov_pos (X : Matrix (Fin N) (Fin T) ℝ) (i : Fin N) (h : NonConstant (X i)) (hT : 2 ≤ T) : 0 < npCov X 1 i i := by
  have : (2 : ℝ) ≤ T := by exact_mod_cast hT
  exact mul_pos (nonconstant_pos X i h) (one_div_pos.mpr (by push_cast; linarith))

theorem corr_lim (X : Matrix (Fin N) (Fin T) ℝ) (hc : ∀ i, NonConstant (X i)) (hT : 2 ≤ T) (i j : Fin N) : Tendsto (fun p : Evals => correlateFastFl p.1.2 X 1 i j) precise (𝓝 (correlateFast X 1 i j)) := by
  have hsd : ∀ i : Fin N, Tendsto (fun p : Evals => p.1.2.fl (Real.sqrt (npCovFl p.1.2 X 1 i i))) precise (𝓝 (Real.sqrt (npCov X 1 i i))) := fun i =>
    evals_precise.rnd ((cov_lim X i i).sqrt)
  have hne : ∀ i, Real.sqrt (npCov X 1 i i) ≠ 0 := fun i => (Real.sqrt_pos.mpr (npCov_pos X i (hc i) hT)).ne'
  exact tendsto_const_nhds.min (tendsto_const_nhds.max (evals_precise.rnd ((evals_precise.rnd ((cov_lim X i j).div (hsd i) (hne i))).div (hsd j) (hne j))))

theorem std_lim (X : Matrix (Fin N) (Fin T) ℝ) (i : Fin N) : Tendsto (fun p : Evals => rowStdFl p.1.2 X i) precise (𝓝 (rowStd X i)) := by
  have h1 := (ofFn_lim fun t => evals_precise.rnd ((center_lim X i t).mul (center_lim X i t))).sumFl evals_precise (assoc := fun p => p.1.2.std i) (fun p => p.2.2.std i)
  rw [List.sum_ofFn] at h1
  have e : ∑ t, center X i t * center X i t = ∑ t, center X i t ^ 2 := Finset.sum_congr rfl fun t _ => (sq _).symm
  rw [e] at h1
  exact evals_precise.rnd (evals_precise.rnd (h1.div_const _)).sqrt

theorem std_pos (X : Matrix (Fin N) (Fin T) ℝ) (i : Fin N) (h : NonConstant (X i)) (hT : 2 ≤ T) : 0 < rowStd X i := by
  have h2 : (2 : ℝ) ≤ T := by exact_mod_cast hT
  have := nonconstant_pos X i h
  simp only [← sq] at this
  exact Real.sqrt_pos.mpr (div_pos this (by linarith))

theorem transposed_lim (X : Matrix (Fin N) (Fin T) ℝ) (cov : Bool) (hc : cov = false → ∀ i, NonConstant (X i)) (hT : 2 ≤ T) (s t : Fin T) :
    Tendsto (fun p : Evals => transposedMatrixFl p.1.2 X cov s t) precise (𝓝 (transposedMatrix X cov s t)) := by
  have hZ : ∀ (i : Fin N) (t : Fin T), Tendsto (fun p : Evals => if cov then centerFl p.1.2 X i t else p.1.2.fl (centerFl p.1.2 X i t / rowStdFl p.1.2 X i)) precise
      (𝓝 (if cov then center X i t else center X i t / rowStd X i)) := fun i t => by
    cases cov
    · exact evals_precise.rnd ((center_lim X i t).div (std_lim X i) (std_pos X i (hc rfl i) hT).ne')
    · exact center_lim X i t
  exact dot_lim s t (fun i => hZ i s) fun i => evals_precise.rnd ((evals_precise.rnd tendsto_const_nhds).mul (hZ i t))

theorem lower_symm {n : ℕ} (M : Matrix (Fin n) (Fin n) ℝ) : (lowerSymm M).IsSymm := by
  ext i j
  simp only [Matrix.transpose_apply, lowerSymm]
  rcases lt_trichotomy i j with h | rfl | h
  · rw [if_pos h.le, if_neg (not_le.mpr h)]
  · rfl
  · rw [if_neg (not_le.mpr h), if_pos h.le]

theorem lower_close {n : ℕ} {A B : Matrix (Fin n) (Fin n) ℝ} {η : ℝ} (hB : B.IsSymm) (h : ∀ i j, |A i j - B i j| ≤ η) (i j : Fin n) : |(lowerSymm A - B) i j| ≤ η := by
  simp only [Matrix.sub_apply, lowerSymm]
  split_ifs
  · exact h i j
  · rw [← hB.apply i j]; exact h j i

/-- From a limit to a precision. -/
theorem of_eventually {P : Evaluation → Prop} (h : ∀ᶠ p in precise, P p.1.2) : ∃ ε > 0, ∀ E, Accurate E ε → P E := by
  rw [precise, Filter.eventually_comap, Metric.eventually_nhds_iff] at h
  obtain ⟨δ, hδ, h⟩ := h
  refine ⟨δ / 2, half_pos hδ, fun E hE => ?_⟩
  exact h (y := δ / 2) (by rw [Real.dist_eq, sub_zero, abs_of_pos (half_pos hδ)]; linarith) ⟨(δ / 2, E), (half_pos hδ).le, hE⟩ rfl

theorem entries_eventually {m n : ℕ} {f : Evaluation → Matrix (Fin m) (Fin n) ℝ} {A : Matrix (Fin m) (Fin n) ℝ} (h : ∀ i j, Tendsto (fun p : Evals => f p.1.2 i j) precise (𝓝 (A i j))) {η : ℝ} (hη : 0 < η) :
    ∀ᶠ p : Evals in precise, ∀ i j, |f p.1.2 i j - A i j| ≤ η :=
  eventually_all.mpr fun i => eventually_all.mpr fun j => by
    filter_upwards [(h i j).eventually (Metric.closedBall_mem_nhds _ hη)] with p hp
    exact hp

end Rounded
end RMT
