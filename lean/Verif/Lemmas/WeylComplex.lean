import Verif.Lemmas.Weyl

/-! # Weyl's inequality for complex Hermitian matrices -/

namespace RMT.Weyl
open Matrix Spec

variable {n : ℕ}

/-- The roots of the characteristic polynomial of a Hermitian matrix, as real numbers. -/
theorem levels_eq {M : Matrix (Fin n) (Fin n) ℂ} (hM : M.IsHermitian) (l : List ℝ) (hl : ((l : Multiset ℝ).map fun (x : ℝ) => (x : ℂ)) = M.charpoly.roots) :
    (l : Multiset ℝ) = Finset.univ.val.map hM.eigenvalues := by
  rw [hM.roots_charpoly_eq_eigenvalues] at hl
  have : (Finset.univ.val.map ((RCLike.ofReal : ℝ → ℂ) ∘ hM.eigenvalues)) = (Finset.univ.val.map hM.eigenvalues).map fun (x : ℝ) => (x : ℂ) := by
    rw [Multiset.map_map]; rfl
  rw [this] at hl
  exact Multiset.map_injective Complex.ofReal_injective hl

theorem formsC_symm {δ : ℝ} {A B : Matrix (Fin n) (Fin n) ℂ} (h : FormsWithinC δ A B) : FormsWithinC δ B A := fun v => by
  rw [abs_sub_comm]; exact h v

theorem formsC_trans {δ δ' : ℝ} {A B C : Matrix (Fin n) (Fin n) ℂ} (h : FormsWithinC δ A B) (h' : FormsWithinC δ' B C) : FormsWithinC (δ + δ') A C := fun v => by
  have := abs_sub_le (star v ⬝ᵥ (A *ᵥ v)).re (star v ⬝ᵥ (B *ᵥ v)).re (star v ⬝ᵥ (C *ᵥ v)).re
  have := h v
  have := h' v
  linarith

/-- Diagonalisation in coordinates. -/
theorem diagonal_formC (M : Matrix (Fin n) (Fin n) ℂ) (hM : M.IsHermitian) : ∃ U : Matrix (Fin n) (Fin n) ℂ, Uᴴ * U = 1 ∧ U * Uᴴ = 1 ∧
    ∀ c : Fin n → ℂ, (star (U *ᵥ c) ⬝ᵥ (M *ᵥ (U *ᵥ c))).re = ∑ i, hM.eigenvalues i * ‖c i‖ ^ 2 := by
  set U : Matrix (Fin n) (Fin n) ℂ := hM.eigenvectorUnitary.1 with hU
  have h1 : Uᴴ * U = 1 := by
    have := (Matrix.mem_unitaryGroup_iff'.mp hM.eigenvectorUnitary.2)
    rwa [star_eq_conjTranspose] at this
  have h2 : U * Uᴴ = 1 := mul_eq_one_comm.mp h1
  refine ⟨U, h1, h2, fun c => ?_⟩
  have hcol : M * U = U * diagonal fun i => (hM.eigenvalues i : ℂ) := by
    ext i j
    have h := congrFun (hM.mulVec_eigenvectorBasis j) i
    rw [mul_diagonal, mul_apply]
    simp only [mulVec, dotProduct, Pi.smul_apply] at h
    rw [mul_comm (U i j)]
    simpa [hU, IsHermitian.eigenvectorUnitary_apply] using h
  have e : star (U *ᵥ c) ⬝ᵥ (M *ᵥ (U *ᵥ c)) = ∑ i, (hM.eigenvalues i : ℂ) * (‖c i‖ ^ 2 : ℝ) := by
    rw [mulVec_mulVec, hcol, ← mulVec_mulVec, star_mulVec, ← dotProduct_mulVec, mulVec_mulVec, h1, one_mulVec]
    simp only [dotProduct, mulVec_diagonal, Pi.star_apply]
    refine Finset.sum_congr rfl fun i _ => ?_
    rw [← Complex.normSq_eq_norm_sq, Complex.normSq_eq_conj_mul_self]
    simp only [RCLike.star_def]
    ring
  rw [e, Complex.re_sum]
  exact Finset.sum_congr rfl fun i _ => by rw [← Complex.ofReal_mul, Complex.ofReal_re]

theorem normC (V : Matrix (Fin n) (Fin n) ℂ) (x : Fin n → ℂ) (hV : Vᴴ * V = 1) : ∑ i, ‖(V *ᵥ x) i‖ ^ 2 = ∑ i, ‖x i‖ ^ 2 := by
  have key : ∀ y : Fin n → ℂ, ((∑ i, ‖y i‖ ^ 2 : ℝ) : ℂ) = star y ⬝ᵥ y := by
    intro y
    rw [Complex.ofReal_sum]
    simp only [dotProduct, Pi.star_apply]
    refine Finset.sum_congr rfl fun i _ => ?_
    rw [← Complex.normSq_eq_norm_sq, Complex.normSq_eq_conj_mul_self]
    rfl
  apply Complex.ofReal_injective
  rw [key, key, star_mulVec, ← dotProduct_mulVec, mulVec_mulVec, hV, one_mulVec]

theorem cntC_le (A B : Matrix (Fin n) (Fin n) ℂ) (hA : A.IsHermitian) (hB : B.IsHermitian) (a b : ℝ)
    (h : ∀ v : Fin n → ℂ, a * ∑ i, ‖v i‖ ^ 2 < (star v ⬝ᵥ (A *ᵥ v)).re → b * ∑ i, ‖v i‖ ^ 2 < (star v ⬝ᵥ (B *ᵥ v)).re) :
    Fintype.card {i // a < hA.eigenvalues i} ≤ Fintype.card {i // b < hB.eigenvalues i} := by
  by_contra hlt
  rw [not_le] at hlt
  obtain ⟨U, hU, -, hUA⟩ := diagonal_formC A hA
  obtain ⟨W, hWt, hW, hWB⟩ := diagonal_formC B hB
  let Ψ : (Fin n → ℂ) →ₗ[ℂ] ({i // ¬ a < hA.eigenvalues i} → ℂ) × ({j // b < hB.eigenvalues j} → ℂ) :=
    (LinearMap.funLeft ℂ ℂ Subtype.val).prod ((LinearMap.funLeft ℂ ℂ Subtype.val).comp (Matrix.mulVecLin (Wᴴ * U)))
  have hker : LinearMap.ker Ψ ≠ ⊥ := by
    apply LinearMap.ker_ne_bot_of_finrank_lt
    rw [Module.finrank_prod, Module.finrank_fintype_fun_eq_card, Module.finrank_fintype_fun_eq_card, Module.finrank_fintype_fun_eq_card, Fintype.card_subtype_compl]
    have := Fintype.card_subtype_le (fun i => a < hA.eigenvalues i)
    omega
  obtain ⟨c, hc, hc0⟩ := (Submodule.ne_bot_iff _).mp hker
  rw [LinearMap.mem_ker] at hc
  have hc1 : ∀ i, ¬ a < hA.eigenvalues i → c i = 0 := fun i hi => congrFun (congrArg Prod.fst hc) ⟨i, hi⟩
  have hc2 : ∀ j, b < hB.eigenvalues j → ((Wᴴ * U) *ᵥ c) j = 0 := fun j hj => congrFun (congrArg Prod.snd hc) ⟨j, hj⟩
  set d := (Wᴴ * U) *ᵥ c with hd
  have hEv : U *ᵥ c = W *ᵥ d := by
    rw [hd, mulVec_mulVec, ← Matrix.mul_assoc, hW, one_mul]
  have h1 := h (U *ᵥ c) (by
    rw [hUA, normC U c hU, Finset.mul_sum]
    obtain ⟨i, hi⟩ := Function.ne_iff.mp hc0
    refine Finset.sum_lt_sum (fun i _ => ?_) ⟨i, Finset.mem_univ _, ?_⟩
    · by_cases hi : a < hA.eigenvalues i
      · exact mul_le_mul_of_nonneg_right hi.le (sq_nonneg _)
      · rw [hc1 i hi]; simp
    · have : a < hA.eigenvalues i := by
        by_contra hn
        exact hi (hc1 i hn)
      exact mul_lt_mul_of_pos_right this (pow_pos (norm_pos_iff.mpr hi) 2))
  rw [hEv, hWB, normC W d hWt, Finset.mul_sum] at h1
  refine absurd h1 (not_lt.mpr (Finset.sum_le_sum fun j _ => ?_))
  by_cases hj : b < hB.eigenvalues j
  · rw [hc2 j hj]; simp
  · exact mul_le_mul_of_nonneg_right (not_lt.mp hj) (sq_nonneg _)

theorem countLE_cntC {A : Matrix (Fin n) (Fin n) ℂ} (hA : A.IsHermitian) (l : List ℝ) (hl : ((l : Multiset ℝ).map fun (x : ℝ) => (x : ℂ)) = A.charpoly.roots) (a : ℝ) :
    l.length = n ∧ countLE l a + Fintype.card {i // a < hA.eigenvalues i} = n := by
  have e := levels_eq hA l hl
  have h1 : l.length = n := by
    have := congrArg Multiset.card e
    simpa using this
  have h2 : Fintype.card {i // a < hA.eigenvalues i} = l.countP (fun x => decide (a < x)) := by
    rw [← Multiset.coe_countP, e, Multiset.countP_map, Fintype.card_subtype]
    rfl
  refine ⟨h1, ?_⟩
  rw [h2, countLE]
  conv_rhs => rw [← h1, List.length_eq_countP_add_countP (fun e => decide (e ≤ a)) (l := l)]
  congr 1
  refine List.countP_congr fun x _ => ?_
  simp

/-- The counting functions of the two spectra, one shifted by `δ`. -/
theorem countsC_shift {δ : ℝ} {A B : Matrix (Fin n) (Fin n) ℂ} (hA : A.IsHermitian) (hB : B.IsHermitian) (h : FormsWithinC δ A B) (l l' : List ℝ)
    (hl : ((l : Multiset ℝ).map fun (x : ℝ) => (x : ℂ)) = A.charpoly.roots) (hl' : ((l' : Multiset ℝ).map fun (x : ℝ) => (x : ℂ)) = B.charpoly.roots) (a : ℝ) : countLE l' a ≤ countLE l (a + δ) := by
  have h1 := (countLE_cntC hA l hl (a + δ)).2
  have h2 := (countLE_cntC hB l' hl' a).2
  have h3 := cntC_le A B hA hB (a + δ) a fun v hv => by
    have := (abs_le.mp (h v)).2
    linarith
  omega

/-- Weyl's inequality for the ascending lists of eigenvalues. -/
theorem weylC {δ : ℝ} {A B : Matrix (Fin n) (Fin n) ℂ} (hA : A.IsHermitian) (hB : B.IsHermitian) (h : FormsWithinC δ A B) (l l' : List ℝ)
    (hl : ((l : Multiset ℝ).map fun (x : ℝ) => (x : ℂ)) = A.charpoly.roots) (hl' : ((l' : Multiset ℝ).map fun (x : ℝ) => (x : ℂ)) = B.charpoly.roots)
    (ha : Ascending l) (ha' : Ascending l') : EntriesWithin δ l l' := by
  rw [EntriesWithin, List.forall₂_iff_get]
  refine ⟨by rw [(countLE_cntC hA l hl 0).1, (countLE_cntC hB l' hl' 0).1], fun k h1 h2 => ?_⟩
  simp only [List.get_eq_getElem]
  rw [abs_le]
  constructor
  · have := (lt_countLE_iff ha k h1 l[k]).mpr le_rfl
    have := this.trans_le (countsC_shift hB hA (formsC_symm h) l' l hl' hl _)
    have := (lt_countLE_iff ha' k h2 _).mp this
    linarith
  · have := (lt_countLE_iff ha' k h2 l'[k]).mpr le_rfl
    have := this.trans_le (countsC_shift hA hB h l l' hl hl' _)
    have := (lt_countLE_iff ha k h1 _).mp this
    linarith

end RMT.Weyl
