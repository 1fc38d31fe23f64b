import Mathlib.Analysis.Matrix.Spectrum
import Mathlib.LinearAlgebra.Dimension.Finrank
import Mathlib.LinearAlgebra.FiniteDimensional.Lemmas

/-! # Numbers of eigenvalues above a bound, compared under a change of variables -/

namespace RMT.Inertia
open Matrix

variable {N : ℕ}

/-- The number of eigenvalues above `a`, with multiplicity. -/
noncomputable def cnt (M : Matrix (Fin N) (Fin N) ℝ) (a : ℝ) : ℕ := M.charpoly.roots.countP (a < ·)

theorem cnt_eq (M : Matrix (Fin N) (Fin N) ℝ) (hM : M.IsHermitian) (a : ℝ) : cnt M a = Fintype.card {i // a < hM.eigenvalues i} := by
  rw [cnt, hM.roots_charpoly_eq_eigenvalues, Multiset.countP_map, Fintype.card_subtype]
  rfl

/-- Diagonalisation in coordinates. -/
theorem diagonal_form (M : Matrix (Fin N) (Fin N) ℝ) (hM : M.IsHermitian) : ∃ U : Matrix (Fin N) (Fin N) ℝ, Uᵀ * U = 1 ∧ U * Uᵀ = 1 ∧
    ∀ c : Fin N → ℝ, (U *ᵥ c) ⬝ᵥ (M *ᵥ (U *ᵥ c)) = ∑ i, hM.eigenvalues i * c i ^ 2 := by
  set U : Matrix (Fin N) (Fin N) ℝ := hM.eigenvectorUnitary.1 with hU
  have h1 : Uᵀ * U = 1 := by
    have := (Matrix.mem_unitaryGroup_iff'.mp hM.eigenvectorUnitary.2)
    rwa [star_eq_conjTranspose, conjTranspose_eq_transpose_of_trivial] at this
  have h2 : U * Uᵀ = 1 := mul_eq_one_comm.mp h1
  refine ⟨U, h1, h2, fun c => ?_⟩
  have hcol : M * U = U * diagonal hM.eigenvalues := by
    ext i j
    have h := congrFun (hM.mulVec_eigenvectorBasis j) i
    rw [mul_diagonal, mul_apply]
    simp only [mulVec, dotProduct, Pi.smul_apply, smul_eq_mul] at h
    rw [mul_comm (U i j)]
    simpa [hU, IsHermitian.eigenvectorUnitary_apply] using h
  rw [mulVec_mulVec, hcol, ← mulVec_mulVec, dotProduct_mulVec, ← mulVec_transpose, mulVec_mulVec, h1, one_mulVec]
  simp only [dotProduct, mulVec_diagonal]
  exact Finset.sum_congr rfl fun i _ => by ring

/-- If `E` maps the vectors on which the form `A` is above `a` to vectors on which the form `B` is above `b`, then `A` has at most as many eigenvalues above `a` as `B` has above `b`. -/
theorem cnt_le (A B E : Matrix (Fin N) (Fin N) ℝ) (hA : A.IsHermitian) (hB : B.IsHermitian) (a b : ℝ)
    (h : ∀ v : Fin N → ℝ, a * (v ⬝ᵥ v) < v ⬝ᵥ (A *ᵥ v) → b * ((E *ᵥ v) ⬝ᵥ (E *ᵥ v)) < (E *ᵥ v) ⬝ᵥ (B *ᵥ (E *ᵥ v))) : cnt A a ≤ cnt B b := by
  rw [cnt_eq A hA, cnt_eq B hB]
  by_contra hlt
  rw [not_le] at hlt
  obtain ⟨U, hU, -, hUA⟩ := diagonal_form A hA
  obtain ⟨W, -, hW, hWB⟩ := diagonal_form B hB
  let Ψ : (Fin N → ℝ) →ₗ[ℝ] ({i // ¬ a < hA.eigenvalues i} → ℝ) × ({j // b < hB.eigenvalues j} → ℝ) :=
    (LinearMap.funLeft ℝ ℝ Subtype.val).prod ((LinearMap.funLeft ℝ ℝ Subtype.val).comp (Matrix.mulVecLin (Wᵀ * E * U)))
  have hker : LinearMap.ker Ψ ≠ ⊥ := by
    apply LinearMap.ker_ne_bot_of_finrank_lt
    rw [Module.finrank_prod, Module.finrank_fintype_fun_eq_card, Module.finrank_fintype_fun_eq_card, Module.finrank_fintype_fun_eq_card, Fintype.card_subtype_compl]
    have := Fintype.card_subtype_le (fun i => a < hA.eigenvalues i)
    omega
  obtain ⟨c, hc, hc0⟩ := (Submodule.ne_bot_iff _).mp hker
  rw [LinearMap.mem_ker] at hc
  have hc1 : ∀ i, ¬ a < hA.eigenvalues i → c i = 0 := fun i hi => congrFun (congrArg Prod.fst hc) ⟨i, hi⟩
  have hc2 : ∀ j, b < hB.eigenvalues j → ((Wᵀ * E * U) *ᵥ c) j = 0 := fun j hj => congrFun (congrArg Prod.snd hc) ⟨j, hj⟩
  set d := (Wᵀ * E * U) *ᵥ c with hd
  have hEv : E *ᵥ (U *ᵥ c) = W *ᵥ d := by
    rw [hd, mulVec_mulVec, mulVec_mulVec, ← Matrix.mul_assoc, ← Matrix.mul_assoc, hW, one_mul]
  have hWt : Wᵀ * W = 1 := mul_eq_one_comm.mp hW
  have norm : ∀ (V : Matrix (Fin N) (Fin N) ℝ) (x : Fin N → ℝ), Vᵀ * V = 1 → (V *ᵥ x) ⬝ᵥ (V *ᵥ x) = ∑ i, x i ^ 2 := by
    intro V x hV
    rw [dotProduct_mulVec, ← mulVec_transpose, mulVec_mulVec, hV, one_mulVec]
    simp only [dotProduct, sq]
  have h1 := h (U *ᵥ c) (by
    rw [hUA, norm U c hU, Finset.mul_sum]
    obtain ⟨i, hi⟩ := Function.ne_iff.mp hc0
    refine Finset.sum_lt_sum (fun i _ => ?_) ⟨i, Finset.mem_univ _, ?_⟩
    · by_cases hi : a < hA.eigenvalues i
      · exact mul_le_mul_of_nonneg_right hi.le (sq_nonneg _)
      · rw [hc1 i hi]; simp
    · have : a < hA.eigenvalues i := by
        by_contra hn
        exact hi (hc1 i hn)
      exact mul_lt_mul_of_pos_right this (sq_pos_of_ne_zero hi))
  rw [hEv, hWB, norm W d hWt, Finset.mul_sum] at h1
  refine absurd h1 (not_lt.mpr (Finset.sum_le_sum fun j _ => ?_))
  by_cases hj : b < hB.eigenvalues j
  · rw [hc2 j hj]; simp
  · exact mul_le_mul_of_nonneg_right (not_lt.mp hj) (sq_nonneg _)

/-- A matrix `C` and `R` with `C i j = √d i · R i j · √d j`, all `d i` between `l` and `u`. -/
theorem cnt_scaled (C R : Matrix (Fin N) (Fin N) ℝ) (hC : C.IsHermitian) (hR : R.IsHermitian) (s : Fin N → ℝ) (hs : ∀ i, 0 < s i) (h : ∀ i j, C i j = s i * R i j * s j)
    (l u : ℝ) (hl : 0 < l) (hlu : ∀ i, l ≤ s i ^ 2 ∧ s i ^ 2 ≤ u) (x : ℝ) (hx : 0 < x) : cnt C (x * u) ≤ cnt R x ∧ cnt R x ≤ cnt C (x * l) := by
  have form : ∀ v : Fin N → ℝ, v ⬝ᵥ (C *ᵥ v) = (diagonal s *ᵥ v) ⬝ᵥ (R *ᵥ (diagonal s *ᵥ v)) := by
    intro v
    have hv : diagonal s *ᵥ v = fun i => s i * v i := funext fun i => mulVec_diagonal _ _ _
    rw [hv]
    simp only [dotProduct, mulVec, h, Finset.mul_sum]
    refine Finset.sum_congr rfl fun i _ => ?_
    exact Finset.sum_congr rfl fun j _ => by ring
  constructor
  · refine cnt_le C R (diagonal s) hC hR _ _ fun v hv => ?_
    rw [← form]
    refine lt_of_le_of_lt ?_ hv
    rw [mul_assoc]
    refine mul_le_mul_of_nonneg_left ?_ hx.le
    simp only [dotProduct, mulVec_diagonal, Finset.mul_sum]
    refine Finset.sum_le_sum fun i _ => ?_
    nlinarith [(hlu i).2, mul_self_nonneg (v i)]
  · refine cnt_le R C (diagonal fun i => (s i)⁻¹) hR hC _ _ fun v hv => ?_
    have : diagonal s *ᵥ ((diagonal fun i => (s i)⁻¹) *ᵥ v) = v := by
      ext i
      simp only [mulVec_diagonal]
      exact mul_inv_cancel_left₀ (hs i).ne' _
    rw [form, this]
    refine lt_of_le_of_lt ?_ hv
    rw [mul_assoc]
    refine mul_le_mul_of_nonneg_left ?_ hx.le
    simp only [dotProduct, mulVec_diagonal, Finset.mul_sum]
    refine Finset.sum_le_sum fun i _ => ?_
    have h1 := (hlu i).1
    have h2 := hs i
    rw [show l * ((s i)⁻¹ * v i * ((s i)⁻¹ * v i)) = l / s i ^ 2 * (v i * v i) by field_simp]
    have h3 : l / s i ^ 2 ≤ 1 := by rw [div_le_one (by positivity)]; exact h1
    nlinarith [mul_self_nonneg (v i)]

end RMT.Inertia
