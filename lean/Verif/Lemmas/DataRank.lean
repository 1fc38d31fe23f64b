import Verif.Props.SignalModes
import Verif.Lemmas.DistinctEigenvalues

/-! # Ranks and repeated eigenvalues of covariance and correlation matrices -/

namespace RMT.Props
open Spec Matrix Inertia Semi MvPolynomial Gauss EigM Gen

variable {N T : ℕ}

/-- The series with their averages over time subtracted. -/
noncomputable def centred (X : Matrix (Fin N) (Fin T) ℝ) : Matrix (Fin N) (Fin T) ℝ := fun i t => X i t - (∑ u, X i u) / T

theorem cov_centred (X : Matrix (Fin N) (Fin T) ℝ) (hT : 2 ≤ T) : ((T : ℝ) - 1) • covMatrix X = centred X * (centred X)ᵀ := by
  have hT' : (2 : ℝ) ≤ T := by exact_mod_cast hT
  have h1 : (T : ℝ) - 1 ≠ 0 := by linarith
  have h0 : (T : ℝ) ≠ 0 := by linarith
  ext i j
  simp only [Matrix.smul_apply, covMatrix, sampleCov, smul_eq_mul, Matrix.mul_apply, Matrix.transpose_apply, centred]
  rw [mul_div_cancel₀ _ h1]
  have : ∀ t, (X i t - (∑ u, X i u) / T) * (X j t - (∑ u, X j u) / T) = X i t * X j t - X i t * ((∑ u, X j u) / T) - (∑ u, X i u) / T * X j t + (∑ u, X i u) / T * ((∑ u, X j u) / T) := fun t => by ring
  simp only [this, Finset.sum_add_distrib, Finset.sum_sub_distrib, Finset.sum_const, Finset.card_univ, Fintype.card_fin, nsmul_eq_mul, ← Finset.sum_mul, ← Finset.mul_sum]
  field_simp
  ring

/-- Scaling the series. -/
theorem centred_scale (X : Matrix (Fin N) (Fin T) ℝ) (c : Fin N → ℝ) : centred (fun i t => c i * X i t) = fun i t => c i * centred X i t := by
  funext i t
  simp only [centred, ← Finset.mul_sum]
  ring

/-- The number of independent series after subtracting the averages. -/
noncomputable def independentSeries (X : Matrix (Fin N) (Fin T) ℝ) : ℕ := Module.finrank ℝ (Submodule.span ℝ (Set.range fun i => fun t => X i t - (∑ u, X i u) / T))

theorem independent_rank (X : Matrix (Fin N) (Fin T) ℝ) : independentSeries X = (centred X).rank := by
  rw [rank_eq_finrank_span_row]
  rfl

/-- The covariances or correlations as a multiple of a product. -/
theorem wanted_scaled (X : Matrix (Fin N) (Fin T) ℝ) (cov : Bool) (hT : 2 ≤ T) (hc : cov = false → ∀ i, NonConstant (X i)) :
    ∃ (c : ℝ) (w : Fin N → ℝ), 0 < c ∧ (∀ i, 0 < w i) ∧ (w = if cov then fun _ => 1 else fun i => ∏ j ∈ Finset.univ.erase i, ∑ t, centred X j t ^ 2) ∧
      c • wantedMatrix X cov = (Matrix.diagonal (fun i => √(w i)) * centred X) * (Matrix.diagonal (fun i => √(w i)) * centred X)ᵀ := by
  have hT' : (2 : ℝ) ≤ T := by exact_mod_cast hT
  have hcc := cov_centred X hT
  cases cov
  · have hd : ∀ i, 0 < ∑ t, centred X i t ^ 2 := fun i => by
      have h := congrFun (congrFun hcc i) i
      simp only [Matrix.smul_apply, covMatrix, smul_eq_mul, Matrix.mul_apply, Matrix.transpose_apply, ← sq] at h
      rw [← h]
      exact mul_pos (by linarith) (sampleCov_pos (X i) hT (hc rfl i))
    have hw : ∀ i, 0 < ∏ j ∈ Finset.univ.erase i, ∑ t, centred X j t ^ 2 := fun i => Finset.prod_pos fun j _ => hd j
    have hp : 0 < ∏ j, ∑ t, centred X j t ^ 2 := Finset.prod_pos fun j _ => hd j
    refine ⟨_, _, hp, hw, by simp, ?_⟩
    rw [Matrix.transpose_mul, ← Matrix.mul_assoc, Matrix.mul_assoc _ (centred X), ← hcc, Matrix.diagonal_transpose]
    ext i j
    rw [Matrix.mul_diagonal, Matrix.diagonal_mul]
    simp only [Matrix.smul_apply, smul_eq_mul, wantedMatrix, Bool.false_eq_true, if_false]
    have hpos : ∀ i, 0 < covMatrix X i i := fun i => sampleCov_pos (X i) hT (hc rfl i)
    have hdi : ∀ i, ∑ t, centred X i t ^ 2 = ((T : ℝ) - 1) * covMatrix X i i := fun i => by
      have h := congrFun (congrFun hcc i) i
      simp only [Matrix.smul_apply, smul_eq_mul, Matrix.mul_apply, Matrix.transpose_apply, ← sq] at h
      exact h.symm
    have h1 := cov_corr X hT hpos i j
    have he : ∀ i, √(∏ j ∈ Finset.univ.erase i, ∑ t, centred X j t ^ 2) * √(((T : ℝ) - 1) * covMatrix X i i) = √(∏ j, ∑ t, centred X j t ^ 2) := fun i => by
      rw [← hdi i, ← Real.sqrt_mul (hw i).le, Finset.prod_erase_mul _ _ (Finset.mem_univ i)]
    rw [h1]
    have hs : ∀ i, √(((T : ℝ) - 1) * covMatrix X i i) = √((T : ℝ) - 1) * √(covMatrix X i i) := fun i => Real.sqrt_mul (by linarith) _
    have hss : √((T : ℝ) - 1) * √((T : ℝ) - 1) = (T : ℝ) - 1 := Real.mul_self_sqrt (by linarith)
    have hpp := Real.mul_self_sqrt hp.le
    have e1 := he i
    have e2 := he j
    rw [hs] at e1 e2
    rw [← hpp]
    nth_rewrite 1 [← e1]
    rw [← e2]
    generalize √((T : ℝ) - 1) = a at hss
    rw [← hss]
    ring
  · refine ⟨(T : ℝ) - 1, fun _ => 1, by linarith, fun _ => one_pos, by simp, ?_⟩
    simp only [wantedMatrix, if_true, Real.sqrt_one]
    rw [hcc, Matrix.diagonal_one, Matrix.one_mul]

theorem card_pos_rank (M : Matrix (Fin N) (Fin N) ℝ) (hM : M.PosSemidef) : cnt M 0 = M.rank := by
  rw [cnt_eq M hM.1, hM.1.rank_eq_card_non_zero_eigs]
  refine Fintype.card_congr (Equiv.subtypeEquivRight fun i => ?_)
  exact ⟨fun h => h.ne', fun h => lt_of_le_of_ne (hM.eigenvalues_nonneg i) (Ne.symm h)⟩

theorem scaled_rank (X : Matrix (Fin N) (Fin T) ℝ) (w : Fin N → ℝ) (hw : ∀ i, 0 < w i) : (Matrix.diagonal (fun i => √(w i)) * centred X).rank = (centred X).rank := by
  apply rank_mul_eq_right_of_isUnit_det
  rw [det_diagonal]
  exact (Finset.prod_pos fun i _ => Real.sqrt_pos.mpr (hw i)).ne'.isUnit

theorem wanted_psd (X : Matrix (Fin N) (Fin T) ℝ) (cov : Bool) (hT : 2 ≤ T) (hc : cov = false → ∀ i, NonConstant (X i)) : (wantedMatrix X cov).PosSemidef := by
  cases cov
  · simpa [wantedMatrix] using corrMatrix_posSemidef X hT (hc rfl)
  · simpa [wantedMatrix] using covMatrix_posSemidef X hT

theorem rank_scaled (M : Matrix (Fin N) (Fin N) ℝ) (c : ℝ) (hc : c ≠ 0) : (c • M).rank = M.rank := by
  have : c • M = Matrix.diagonal (fun _ => c) * M := by
    ext i j
    rw [Matrix.diagonal_mul]
    rfl
  rw [this]
  apply rank_mul_eq_right_of_isUnit_det
  rw [det_diagonal]
  exact (Finset.prod_ne_zero_iff.mpr fun i _ => hc).isUnit

theorem cnt_independent (X : Matrix (Fin N) (Fin T) ℝ) (cov : Bool) (hT : 2 ≤ T) (hc : cov = false → ∀ i, NonConstant (X i)) : cnt (wantedMatrix X cov) 0 = independentSeries X := by
  obtain ⟨c, w, hc0, hw, -, h⟩ := wanted_scaled X cov hT hc
  rw [card_pos_rank _ (wanted_psd X cov hT hc), independent_rank, ← scaled_rank X w hw, ← rank_self_mul_transpose (Matrix.diagonal (fun i => √(w i)) * centred X), ← h, rank_scaled _ c hc0.ne']

theorem independent_le (X : Matrix (Fin N) (Fin T) ℝ) (hT : 1 ≤ T) : independentSeries X ≤ min N (T - 1) := by
  rw [independent_rank]
  refine le_min ((rank_le_card_height _).trans_eq (Fintype.card_fin N)) ?_
  have h0 : (T : ℝ) ≠ 0 := by
    have : (1 : ℝ) ≤ T := by exact_mod_cast hT
    linarith
  have h1 : centred X *ᵥ (fun _ => 1) = 0 := by
    funext i
    simp only [mulVec, dotProduct, centred, mul_one, Finset.sum_sub_distrib, Finset.sum_const, Finset.card_univ, Fintype.card_fin, nsmul_eq_mul, Pi.zero_apply]
    field_simp
    ring
  have h2 := LinearMap.finrank_range_add_finrank_ker (centred X).mulVecLin
  rw [Module.finrank_fintype_fun_eq_card, Fintype.card_fin] at h2
  have h3 : 0 < Module.finrank ℝ (LinearMap.ker (centred X).mulVecLin) := by
    rw [Module.finrank_pos_iff_exists_ne_zero]
    refine ⟨⟨fun _ => 1, by simpa using h1⟩, fun h => ?_⟩
    have := congrFun (congrArg Subtype.val h) (⟨0, hT⟩ : Fin T)
    simp at this
  rw [rank]
  omega


/-! ## Repeated eigenvalues -/

theorem trace_pow_comm {n : ℕ} (A B : Matrix (Fin n) (Fin n) ℝ) (k : ℕ) : ((A * B) ^ k).trace = ((B * A) ^ k).trace := by
  cases k with
  | zero => simp
  | succ k =>
    rw [pow_succ, ← Matrix.mul_assoc, mul_pow_mul, Matrix.mul_assoc, Matrix.trace_mul_comm, Matrix.mul_assoc, pow_succ]

/-- If real matrices have polynomials in different normal draws as entries, and at some real point the traces of powers are those of different numbers, then almost surely they are traces of powers of different numbers only. -/
theorem ae_traces {Ω ι : Type} [MeasurableSpace Ω] [Fintype ι] (P : MeasureTheory.Measure Ω) [MeasureTheory.IsProbabilityMeasure P] (Z : ℕ → Ω → ℝ) (hZ : NormalDraws P Z) (f : ι → ℕ) (hf : Function.Injective f) {n : ℕ}
    (M : Matrix (Fin n) (Fin n) (MvPolynomial ι ℂ)) (R : (ι → ℝ) → Matrix (Fin n) (Fin n) ℝ) (hM : ∀ x : ι → ℝ, M.map (eval fun i => (x i : ℂ)) = (R x).map Complex.ofRealHom)
    (x0 : ι → ℝ) (v0 : Fin n → ℝ) (hv0 : Function.Injective v0) (h0 : ∀ k, (R x0 ^ k).trace = ∑ i, v0 i ^ k) :
    ∀ᵐ ω ∂P, ∀ v : Fin n → ℝ, (∀ k, (R (fun i => Z (f i) ω) ^ k).trace = ∑ i, v i ^ k) → Function.Injective v := by
  have hrev : ∀ x : ι → ℝ, rev x (hankel M).det = (((hankel (R x)).det : ℝ) : ℂ) := fun x => by
    have h1 := hankel_map (eval fun i => (x i : ℂ)) M
    rw [hM x, ← hankel_map] at h1
    exact h1
  have hne : (hankel M).det ≠ 0 := by
    intro h
    have h1 := hrev x0
    rw [h, hankel_vandermonde _ v0 h0] at h1
    simp only [rev, map_zero] at h1
    have h2 : (vandermonde v0).det ^ 2 = 0 := by exact_mod_cast h1.symm
    exact (det_vandermonde_ne_zero_iff.mpr hv0) (pow_eq_zero_iff two_ne_zero |>.mp h2)
  filter_upwards [ae_poly_ne_zero P Z hZ f hf _ hne] with ω hω v hv
  rw [hrev, hankel_vandermonde _ v hv] at hω
  exact det_vandermonde_ne_zero_iff.mp fun h => hω (by rw [h]; simp)

/-- The weights that turn products of centred series into multiples of covariances or correlations. -/
noncomputable def weights (X : Matrix (Fin N) (Fin T) ℝ) (cov : Bool) : Fin N → ℝ := if cov then fun _ => 1 else fun i => ∏ j ∈ Finset.univ.erase i, ∑ t, centred X j t ^ 2

/-- The centred series as polynomials in the data. -/
noncomputable def centredP (N T : ℕ) : Matrix (Fin N) (Fin T) (MvPolynomial (Fin N × Fin T) ℂ) := fun i t => MvPolynomial.X (i, t) - MvPolynomial.C (1 / (T : ℂ)) * ∑ u, MvPolynomial.X (i, u)

/-- The weights as polynomials in the data. -/
noncomputable def weightsP (N T : ℕ) (cov : Bool) : Fin N → MvPolynomial (Fin N × Fin T) ℂ := if cov then fun _ => 1 else fun i => ∏ j ∈ Finset.univ.erase i, ∑ t, centredP N T j t ^ 2

theorem eval_centred (x : Fin N × Fin T → ℝ) : (centredP N T).map (eval fun p => (x p : ℂ)) = (centred fun i t => x (i, t)).map Complex.ofRealHom := by
  ext i t
  simp [centredP, centred, Matrix.map_apply]
  ring

theorem eval_weights (x : Fin N × Fin T → ℝ) (cov : Bool) (i : Fin N) : eval (fun p => (x p : ℂ)) (weightsP N T cov i) = ((weights (fun i t => x (i, t)) cov i : ℝ) : ℂ) := by
  cases cov
  · simp only [weightsP, weights, Bool.false_eq_true, if_false, map_prod, map_sum, map_pow, Complex.ofReal_prod, Complex.ofReal_sum, Complex.ofReal_pow]
    refine Finset.prod_congr rfl fun j _ => Finset.sum_congr rfl fun t _ => ?_
    have := congrFun (congrFun (eval_centred x) j) t
    simp only [Matrix.map_apply] at this
    rw [this]
    rfl
  · simp [weightsP, weights]

theorem eval_diagonal (x : Fin N × Fin T → ℝ) (cov : Bool) : (Matrix.diagonal (weightsP N T cov)).map (eval fun p => (x p : ℂ)) = (Matrix.diagonal (weights (fun i t => x (i, t)) cov)).map Complex.ofRealHom := by
  rw [Matrix.diagonal_map (map_zero _), Matrix.diagonal_map (map_zero _)]
  congr 1
  funext i
  exact eval_weights x cov i

/-! ### A case without repeated eigenvalues -/

/-- Rows with 1, -1 next to each other. -/
noncomputable def path (N T : ℕ) : Matrix (Fin N) (Fin T) ℝ := fun i t =>
  let a := if i.val + 1 < T then i.val else 0
  (if t.val = a then 1 else 0) - (if t.val = a + 1 then 1 else 0)

theorem path_sum (hT : 2 ≤ T) (i : Fin N) : ∑ t, path N T i t = 0 ∧ ∑ t, path N T i t ^ 2 = 2 := by
  unfold path
  set a := if i.val + 1 < T then i.val else 0 with ha
  have h1 : a + 1 < T := by rw [ha]; split_ifs <;> omega
  have e1 : ∀ t : Fin T, (t.val = a) ↔ t = ⟨a, by omega⟩ := fun t => by rw [Fin.ext_iff]
  have e2 : ∀ t : Fin T, (t.val = a + 1) ↔ t = ⟨a + 1, by omega⟩ := fun t => by rw [Fin.ext_iff]
  have hne : ∀ t : Fin T, ((if t.val = a then 1 else 0) - (if t.val = a + 1 then 1 else 0) : ℝ) ^ 2 = (if t.val = a then 1 else 0) + (if t.val = a + 1 then 1 else 0) := fun t => by
    by_cases h : t.val = a
    · rw [if_pos h, if_neg (by omega)]; norm_num
    · by_cases h' : t.val = a + 1
      · rw [if_neg h, if_pos h']; norm_num
      · rw [if_neg h, if_neg h']; norm_num
  constructor
  · simp only [Finset.sum_sub_distrib, e1, e2, Finset.sum_ite_eq', Finset.mem_univ, if_true, sub_self]
  · simp only [hne]
    simp only [Finset.sum_add_distrib, e1, e2, Finset.sum_ite_eq', Finset.mem_univ, if_true]
    norm_num

theorem path_centred (hT : 2 ≤ T) : centred (path N T) = path N T := by
  funext i t
  simp [centred, (path_sum hT i).1]

theorem path_weights (hT : 2 ≤ T) (cov : Bool) : ∃ κ > 0, weights (path N T) cov = fun _ => κ := by
  cases cov
  · refine ⟨2 ^ (N - 1), by positivity, ?_⟩
    funext i
    simp [weights, path_centred hT, (path_sum hT _).2]
  · exact ⟨1, one_pos, by simp [weights]⟩

/-- With at most `T - 1` series. -/
theorem path_rows (hT : 2 ≤ T) (hN : N ≤ T - 1) (κ : ℝ) (hκ : 0 < κ) (hs : (κ • (path N T * (path N T)ᵀ)).IsHermitian) : Function.Injective hs.eigenvalues := by
  have hpath : ∀ (i : Fin N) (t : Fin T), path N T i t = (if t.val = i.val then 1 else 0) - (if t.val = i.val + 1 then 1 else 0) := fun i t => by
    have := i.2
    have hlt : i.val + 1 < T := by omega
    simp only [path, if_pos hlt]
  refine jacobi_injective _ hs (fun i j hij => ?_) fun i j hij => ?_
  · simp only [Matrix.smul_apply, Matrix.mul_apply, Matrix.transpose_apply, smul_eq_mul]
    rw [Finset.sum_eq_zero, mul_zero]
    intro t _
    rw [hpath, hpath]
    by_cases h1 : t.val = i.val
    · rw [if_neg (by omega : ¬ t.val = j.val), if_neg (by omega : ¬ t.val = j.val + 1)]; simp
    · by_cases h2 : t.val = i.val + 1
      · rw [if_neg (by omega : ¬ t.val = j.val), if_neg (by omega : ¬ t.val = j.val + 1)]; simp
      · rw [if_neg h1, if_neg h2]; simp
  · simp only [Matrix.smul_apply, Matrix.mul_apply, Matrix.transpose_apply, smul_eq_mul]
    have := j.2
    rw [Finset.sum_eq_single (⟨j.val, by omega⟩ : Fin T)]
    · rw [hpath, hpath]
      simp only
      rw [if_neg (by omega : ¬ j.val = i.val), if_pos hij.symm, if_neg (by omega : ¬ j.val = j.val + 1)]
      have := hκ.ne'
      simpa using this
    · intro t _ ht
      have ht' : t.val ≠ j.val := fun h => ht (Fin.ext h)
      rw [hpath, hpath, if_neg (by omega : ¬ t.val = i.val + 1), if_neg ht']
      by_cases h1 : t.val = i.val
      · rw [if_neg (by omega : ¬ t.val = j.val + 1)]; simp
      · rw [if_neg h1]; simp
    · simp

/-- With at least `T - 1` series. -/
theorem path_columns (hT : 2 ≤ T) (hN : T - 1 ≤ N) (κ : ℝ) (hκ : 0 < κ) (hs : (κ • ((path N T)ᵀ * path N T)).IsHermitian) : Function.Injective hs.eigenvalues := by
  refine jacobi_injective _ hs (fun s t hst => ?_) fun s t hst => ?_
  · simp only [Matrix.smul_apply, Matrix.mul_apply, Matrix.transpose_apply, smul_eq_mul]
    rw [Finset.sum_eq_zero, mul_zero]
    intro i _
    unfold path
    set a := if i.val + 1 < T then i.val else 0
    simp only
    by_cases h1 : s.val = a
    · rw [if_neg (by omega : ¬ t.val = a), if_neg (by omega : ¬ t.val = a + 1)]; simp
    · by_cases h2 : s.val = a + 1
      · rw [if_neg (by omega : ¬ t.val = a), if_neg (by omega : ¬ t.val = a + 1)]; simp
      · rw [if_neg h1, if_neg h2]; simp
  · simp only [Matrix.smul_apply, Matrix.mul_apply, Matrix.transpose_apply, smul_eq_mul]
    have hterm : ∀ i : Fin N, path N T i s * path N T i t ≤ 0 := fun i => by
      unfold path
      set a := if i.val + 1 < T then i.val else 0
      simp only
      by_cases h1 : s.val = a
      · rw [if_pos h1, if_neg (by omega : ¬ s.val = a + 1), if_neg (by omega : ¬ t.val = a), if_pos (by omega : t.val = a + 1)]; norm_num
      · by_cases h2 : s.val = a + 1
        · rw [if_neg (by omega : ¬ t.val = a), if_neg (by omega : ¬ t.val = a + 1)]; simp
        · rw [if_neg h1, if_neg h2]; simp
    have := t.2
    have hlt : ∑ i, path N T i s * path N T i t < 0 := by
      rw [← Finset.sum_const_zero (s := (Finset.univ : Finset (Fin N)))]
      refine Finset.sum_lt_sum (fun i _ => hterm i) ⟨⟨s.val, by omega⟩, Finset.mem_univ _, ?_⟩
      unfold path
      simp only
      rw [if_pos (by omega : s.val + 1 < T), if_pos rfl, if_neg (by omega), if_neg (by omega), if_pos hst.symm]
      norm_num
    exact mul_ne_zero hκ.ne' hlt.ne


/-! ### Almost surely no repeated positive eigenvalue -/

theorem weights_path_trace_rows (hT : 2 ≤ T) (hN : N ≤ T - 1) (cov : Bool) : ∃ v0 : Fin N → ℝ, Function.Injective v0 ∧
    ∀ k, ((Matrix.diagonal (weights (path N T) cov) * (centred (path N T) * (centred (path N T))ᵀ)) ^ k).trace = ∑ i, v0 i ^ k := by
  obtain ⟨κ, hκ, hw⟩ := path_weights (N := N) hT cov
  have e : Matrix.diagonal (weights (path N T) cov) * (centred (path N T) * (centred (path N T))ᵀ) = κ • (path N T * (path N T)ᵀ) := by
    rw [hw, path_centred hT]
    ext i j
    rw [Matrix.diagonal_mul]
    rfl
  have hs : (κ • (path N T * (path N T)ᵀ)).IsHermitian := by
    rw [Matrix.IsHermitian, conjTranspose_eq_transpose_of_trivial, Matrix.transpose_smul, Matrix.transpose_mul, Matrix.transpose_transpose]
  exact ⟨_, path_rows hT hN κ hκ hs, fun k => by rw [e]; simpa using SpectrumM.trace_pow _ hs k⟩

theorem weights_path_trace_columns (hT : 2 ≤ T) (hN : T - 1 ≤ N) (cov : Bool) : ∃ v0 : Fin T → ℝ, Function.Injective v0 ∧
    ∀ k, (((centred (path N T))ᵀ * (Matrix.diagonal (weights (path N T) cov) * centred (path N T))) ^ k).trace = ∑ i, v0 i ^ k := by
  obtain ⟨κ, hκ, hw⟩ := path_weights (N := N) hT cov
  have e : (centred (path N T))ᵀ * (Matrix.diagonal (weights (path N T) cov) * centred (path N T)) = κ • ((path N T)ᵀ * path N T) := by
    rw [hw, path_centred hT, ← Matrix.mul_smul]
    congr 1
    ext i j
    rw [Matrix.diagonal_mul]
    rfl
  have hs : (κ • ((path N T)ᵀ * path N T)).IsHermitian := by
    rw [Matrix.IsHermitian, conjTranspose_eq_transpose_of_trivial, Matrix.transpose_smul, Matrix.transpose_mul, Matrix.transpose_transpose]
  exact ⟨_, path_columns hT hN κ hκ hs, fun k => by rw [e]; simpa using SpectrumM.trace_pow _ hs k⟩

theorem scale_pow {n : ℕ} (M : Matrix (Fin n) (Fin n) ℝ) (hM : M.IsHermitian) (c : ℝ) (k : ℕ) : ((c • M) ^ k).trace = ∑ i, (c * hM.eigenvalues i) ^ k := by
  have h := SpectrumM.trace_pow M hM k
  rw [smul_pow, Matrix.trace_smul, h, smul_eq_mul]
  simp only [mul_pow, ← Finset.mul_sum]
  rfl

/-- The positive eigenvalues of `A Aᵀ` and of `Aᵀ A` are the same. -/
theorem positive_swap (A : Matrix (Fin N) (Fin T) ℝ) : (A * Aᵀ).charpoly.roots.filter (0 < ·) = (Aᵀ * A).charpoly.roots.filter (0 < ·) := by
  have h := charpoly_mul_comm' A Aᵀ
  simp only [Fintype.card_fin] at h
  have h1 := congrArg Polynomial.roots h
  have hX : ∀ k : ℕ, (Polynomial.X ^ k : Polynomial ℝ) ≠ 0 := fun k => pow_ne_zero k Polynomial.X_ne_zero
  rw [Polynomial.roots_mul (mul_ne_zero (hX _) (charpoly_monic _).ne_zero), Polynomial.roots_mul (mul_ne_zero (hX _) (charpoly_monic _).ne_zero), Polynomial.roots_X_pow, Polynomial.roots_X_pow] at h1
  have h2 := congrArg (Multiset.filter (0 < ·)) h1
  have hz : ∀ k : ℕ, Multiset.filter (fun x : ℝ => 0 < x) (k • {0}) = 0 := fun k => by
    rw [Multiset.filter_eq_nil]
    intro a ha
    have := Multiset.mem_of_mem_nsmul ha
    rw [Multiset.mem_singleton] at this
    rw [this]
    exact lt_irrefl _
  simpa only [Multiset.filter_add, hz, zero_add] using h2

theorem herm_mul_transpose (A : Matrix (Fin N) (Fin T) ℝ) : (A * Aᵀ).IsHermitian := by
  rw [Matrix.IsHermitian, conjTranspose_eq_transpose_of_trivial, Matrix.transpose_mul, Matrix.transpose_transpose]

theorem roots_nodup {n : ℕ} (M : Matrix (Fin n) (Fin n) ℝ) (hM : M.IsHermitian) (c : ℝ) (h : Function.Injective fun i => c * hM.eigenvalues i) : M.charpoly.roots.Nodup := by
  rw [hM.roots_charpoly_eq_eigenvalues]
  refine Multiset.Nodup.map (fun i j hij => h ?_) Finset.univ.nodup
  have : hM.eigenvalues i = hM.eigenvalues j := by simpa using hij
  simp only [this]

variable {Ω : Type} [MeasurableSpace Ω]

theorem noise_inj : Function.Injective fun p : Fin N × Fin T => p.1.val * T + p.2.val := by
  rintro ⟨i, s⟩ ⟨j, t⟩ h
  by_cases hij : i = j
  · subst hij
    exact congrArg (Prod.mk i) (row_inj i h)
  · exact absurd h (row_ne hij s t)

/-- Almost surely no positive eigenvalue is repeated. -/
theorem ae_positive_distinct (P : MeasureTheory.Measure Ω) [MeasureTheory.IsProbabilityMeasure P] (Z : ℕ → Ω → ℝ) (hZ : NormalDraws P Z) (hT : 2 ≤ T) (cov : Bool) :
    ∀ᵐ ω ∂P, ((wantedMatrix (noise Z N T ω) cov).charpoly.roots.filter (0 < ·)).Nodup := by
  -- factors of the matrix
  have factor : ∀ X : Matrix (Fin N) (Fin T) ℝ, (cov = false → ∀ i, NonConstant (X i)) → ∃ (c : ℝ) (A : Matrix (Fin N) (Fin T) ℝ), wantedMatrix X cov = A * Aᵀ ∧
      (∀ k, ((Matrix.diagonal (weights X cov) * (centred X * (centred X)ᵀ)) ^ k).trace = ((c • (A * Aᵀ)) ^ k).trace) ∧
      (centred X)ᵀ * (Matrix.diagonal (weights X cov) * centred X) = c • (Aᵀ * A) := by
    intro X hc
    obtain ⟨c, w, hc0, hw, hwe, h⟩ := wanted_scaled X cov hT hc
    have hwe' : weights X cov = w := hwe.symm
    set S := Matrix.diagonal (fun i => √(w i)) with hS
    have hSS : S * S = Matrix.diagonal w := by
      rw [hS, Matrix.diagonal_mul_diagonal]
      congr 1
      funext i
      exact Real.mul_self_sqrt (hw i).le
    have hSt : Sᵀ = S := Matrix.diagonal_transpose _
    have hc2 : (√c)⁻¹ * (√c)⁻¹ = c⁻¹ := by rw [← mul_inv, Real.mul_self_sqrt hc0.le]
    refine ⟨c, (√c)⁻¹ • (S * centred X), ?_, fun k => ?_, ?_⟩
    · rw [Matrix.transpose_smul, Matrix.smul_mul, Matrix.mul_smul, smul_smul, hc2, ← h, smul_smul, inv_mul_cancel₀ hc0.ne', one_smul]
    · rw [Matrix.transpose_smul, Matrix.smul_mul, Matrix.mul_smul, smul_smul ((√c)⁻¹), hc2, smul_smul, mul_inv_cancel₀ hc0.ne', one_smul, hwe', ← hSS, Matrix.transpose_mul, hSt]
      rw [Matrix.mul_assoc S S, trace_pow_comm]
      congr 2
      simp only [Matrix.mul_assoc]
    · rw [Matrix.transpose_smul, Matrix.smul_mul, Matrix.mul_smul, smul_smul ((√c)⁻¹), hc2, smul_smul, mul_inv_cancel₀ hc0.ne', one_smul, hwe', ← hSS, Matrix.transpose_mul, hSt]
      simp only [Matrix.mul_assoc]
  rcases le_total N (T - 1) with hN | hN
  · obtain ⟨v0, hv0, h0⟩ := weights_path_trace_rows hT hN cov
    have hev : ∀ x : Fin N × Fin T → ℝ, (Matrix.diagonal (weightsP N T cov) * (centredP N T * (centredP N T)ᵀ)).map (eval fun i => (x i : ℂ)) =
        ((fun x : Fin N × Fin T → ℝ => Matrix.diagonal (weights (fun i t => x (i, t)) cov) * (centred (fun i t => x (i, t)) * (centred fun i t => x (i, t))ᵀ)) x).map Complex.ofRealHom := fun x => by
      simp only
      rw [Matrix.map_mul, Matrix.map_mul, Matrix.map_mul, Matrix.map_mul, eval_diagonal, Matrix.transpose_map, eval_centred, ← Matrix.transpose_map]
    have := ae_traces P Z hZ (fun p : Fin N × Fin T => p.1.val * T + p.2.val) noise_inj _ (fun x => Matrix.diagonal (weights (fun i t => x (i, t)) cov) * (centred (fun i t => x (i, t)) * (centred fun i t => x (i, t))ᵀ)) hev (fun p => path N T p.1 p.2) v0 hv0 h0
    filter_upwards [this, noise_nonconstant (N := N) P Z hZ hT] with ω hω hnc
    obtain ⟨c, A, h1, h2, -⟩ := factor (noise Z N T ω) fun _ => hnc
    rw [h1]
    refine Multiset.Nodup.filter _ (roots_nodup _ (herm_mul_transpose A) c (hω _ fun k => ?_))
    rw [← scale_pow _ (herm_mul_transpose A), ← h2 k]
    rfl
  · obtain ⟨v0, hv0, h0⟩ := weights_path_trace_columns hT hN cov
    have hev : ∀ x : Fin N × Fin T → ℝ, ((centredP N T)ᵀ * (Matrix.diagonal (weightsP N T cov) * centredP N T)).map (eval fun i => (x i : ℂ)) =
        ((fun x : Fin N × Fin T → ℝ => (centred fun i t => x (i, t))ᵀ * (Matrix.diagonal (weights (fun i t => x (i, t)) cov) * centred (fun i t => x (i, t)))) x).map Complex.ofRealHom := fun x => by
      simp only
      rw [Matrix.map_mul, Matrix.map_mul, Matrix.map_mul, Matrix.map_mul, eval_diagonal, Matrix.transpose_map, eval_centred, ← Matrix.transpose_map]
    have := ae_traces P Z hZ (fun p : Fin N × Fin T => p.1.val * T + p.2.val) noise_inj _ (fun x => (centred fun i t => x (i, t))ᵀ * (Matrix.diagonal (weights (fun i t => x (i, t)) cov) * centred (fun i t => x (i, t)))) hev (fun p => path N T p.1 p.2) v0 hv0 h0
    filter_upwards [this, noise_nonconstant (N := N) P Z hZ hT] with ω hω hnc
    obtain ⟨c, A, h1, -, h2⟩ := factor (noise Z N T ω) fun _ => hnc
    have hA : (Aᵀ * A).IsHermitian := by simpa using herm_mul_transpose Aᵀ
    rw [h1, positive_swap]
    refine Multiset.Nodup.filter _ (roots_nodup _ hA c (hω _ fun k => ?_))
    rw [← scale_pow _ hA, ← h2]
    rfl

/-- The differences to one time point. -/
def differences {r : ℕ} (X : Matrix (Fin N) (Fin T) ℝ) (a : Fin r → Fin N) (b : Fin r → Fin T) (l : Fin T) : Matrix (Fin r) (Fin r) ℝ := Matrix.of fun i t => X (a i) (b t) - X (a i) l

theorem rank_differences {r : ℕ} (X : Matrix (Fin N) (Fin T) ℝ) (a : Fin r → Fin N) (b : Fin r → Fin T) (l : Fin T) (h : (differences X a b l).det ≠ 0) : r ≤ (centred X).rank := by
  have hprod : differences X a b l =
      (centred X).submatrix a id * (Matrix.of fun (s : Fin T) (t : Fin r) => (if s = b t then 1 else 0) - (if s = l then 1 else 0) : Matrix (Fin T) (Fin r) ℝ) := by
    ext i t
    simp only [differences, Matrix.of_apply, Matrix.mul_apply, Matrix.submatrix_apply, id, mul_sub, mul_ite, mul_one, mul_zero, Finset.sum_sub_distrib, Finset.sum_ite_eq', Finset.mem_univ, if_true, centred]
    ring
  have h1 := rank_of_isUnit _ ((Matrix.isUnit_iff_isUnit_det _).mpr h.isUnit)
  rw [Fintype.card_fin, hprod] at h1
  calc r = _ := h1.symm
    _ ≤ _ := rank_mul_le_left _ _
    _ ≤ _ := rank_submatrix_le (centred X) a id

/-- The same, as polynomials. -/
noncomputable def differencesP {r : ℕ} (a : Fin r → Fin N) (b : Fin r → Fin T) (l : Fin T) : Matrix (Fin r) (Fin r) (MvPolynomial (Fin N × Fin T) ℂ) := Matrix.of fun i t => MvPolynomial.X (a i, b t) - MvPolynomial.X (a i, l)

theorem rev_differences {r : ℕ} (a : Fin r → Fin N) (b : Fin r → Fin T) (l : Fin T) (x : Fin N × Fin T → ℝ) : rev x (differencesP a b l).det = (((differences (fun i t => x (i, t)) a b l).det : ℝ) : ℂ) := by
  have hev : (differencesP a b l).map (eval fun i => (x i : ℂ)) = (differences (fun i t => x (i, t)) a b l).map Complex.ofRealHom := by
    ext i t
    simp [differencesP, differences, Matrix.map_apply]
  have h1 := RingHom.map_det (eval fun i => (x i : ℂ)) (differencesP a b l)
  have h2 := RingHom.map_det Complex.ofRealHom (differences (fun i t => x (i, t)) a b l)
  rw [RingHom.mapMatrix_apply, hev] at h1
  rw [RingHom.mapMatrix_apply, ← h1] at h2
  exact h2.symm

theorem ae_independent (P : MeasureTheory.Measure Ω) [MeasureTheory.IsProbabilityMeasure P] (Z : ℕ → Ω → ℝ) (hZ : NormalDraws P Z) (hT : 2 ≤ T) :
    ∀ᵐ ω ∂P, independentSeries (noise Z N T ω) = min N (T - 1) := by
  obtain ⟨r, hr⟩ : ∃ r, r = min N (T - 1) := ⟨_, rfl⟩
  let a : Fin r → Fin N := fun i => ⟨i.val, by have := i.2; omega⟩
  let b : Fin r → Fin T := fun i => ⟨i.val, by have := i.2; omega⟩
  let l : Fin T := ⟨T - 1, by omega⟩
  have hne : (differencesP a b l).det ≠ 0 := by
    intro h
    have h1 := rev_differences a b l fun p => if p.1.val = p.2.val ∧ p.2.val < r then 1 else 0
    have e : differences (fun i t => if i.val = t.val ∧ t.val < r then 1 else 0) a b l = (1 : Matrix (Fin r) (Fin r) ℝ) := by
      ext i t
      have ht := t.2
      have hl : ¬ (i.val = T - 1 ∧ T - 1 < r) := by omega
      simp only [differences, Matrix.of_apply, a, b, l, if_neg hl, Matrix.one_apply, Fin.ext_iff, ht, and_true, sub_zero]
    rw [e, Matrix.det_one, h] at h1
    simp [rev] at h1
  filter_upwards [ae_poly_ne_zero P Z hZ (fun p : Fin N × Fin T => p.1.val * T + p.2.val) noise_inj _ hne] with ω hω
  refine le_antisymm (independent_le _ (by omega)) ?_
  rw [rev_differences] at hω
  rw [independent_rank, ← hr]
  exact rank_differences _ a b l fun h => hω (by rw [Complex.ofReal_eq_zero]; exact h)

end RMT.Props
