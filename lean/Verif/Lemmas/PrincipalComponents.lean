import Verif.Lemmas.Inertia

/-! # Numbers of eigenvalues above a bound as the largest dimension of a subspace; matching lists of eigenvalues with eigenvectors -/

namespace RMT.Inertia
open Matrix

variable {N : ℕ}

theorem orth_norm (V : Matrix (Fin N) (Fin N) ℝ) (x : Fin N → ℝ) (hV : Vᵀ * V = 1) : (V *ᵥ x) ⬝ᵥ (V *ᵥ x) = ∑ i, x i ^ 2 := by
  rw [dotProduct_mulVec, ← mulVec_transpose, mulVec_mulVec, hV, one_mulVec]
  simp only [dotProduct, sq]

/-- The number of eigenvalues above `a` is the largest dimension of a subspace on which the form is above `a` times the square of the norm. -/
theorem cnt_greatest (M : Matrix (Fin N) (Fin N) ℝ) (hM : M.IsHermitian) (a : ℝ) :
    IsGreatest {k | ∃ W : Submodule ℝ (Fin N → ℝ), Module.finrank ℝ W = k ∧ ∀ w ∈ W, w ≠ 0 → a * (w ⬝ᵥ w) < w ⬝ᵥ (M *ᵥ w)} (cnt M a) := by
  obtain ⟨U, hU, hU', hUM⟩ := diagonal_form M hM
  rw [cnt_eq M hM]
  constructor
  · let ι : ({i // a < hM.eigenvalues i} → ℝ) →ₗ[ℝ] (Fin N → ℝ) :=
      { toFun := fun c i => if h : a < hM.eigenvalues i then c ⟨i, h⟩ else 0
        map_add' := fun c d => by
          funext i
          simp only [Pi.add_apply]
          split_ifs <;> simp
        map_smul' := fun r c => by
          funext i
          simp only [Pi.smul_apply, smul_eq_mul, RingHom.id_apply]
          split_ifs <;> simp }
    let φ : ({i // a < hM.eigenvalues i} → ℝ) →ₗ[ℝ] (Fin N → ℝ) := (Matrix.mulVecLin U).comp ι
    have hφ : ∀ c, φ c = U *ᵥ fun i => if h : a < hM.eigenvalues i then c ⟨i, h⟩ else 0 := fun c => rfl
    have hinj : Function.Injective φ := by
      rw [← LinearMap.ker_eq_bot, Submodule.eq_bot_iff]
      intro c hc
      rw [LinearMap.mem_ker, hφ] at hc
      have : Uᵀ *ᵥ (U *ᵥ fun i => if h : a < hM.eigenvalues i then c ⟨i, h⟩ else 0) = 0 := by rw [hc, mulVec_zero]
      rw [mulVec_mulVec, hU, one_mulVec] at this
      funext ⟨i, hi⟩
      have := congrFun this i
      simpa [hi] using this
    refine ⟨LinearMap.range φ, ?_, ?_⟩
    · rw [LinearMap.finrank_range_of_inj hinj, Module.finrank_fintype_fun_eq_card]
    · rintro w ⟨c, rfl⟩ hw
      have hc0 : c ≠ 0 := by
        rintro rfl
        exact hw (map_zero _)
      rw [hφ, hUM, orth_norm _ _ hU, Finset.mul_sum]
      obtain ⟨⟨i, hi⟩, hci⟩ := Function.ne_iff.mp hc0
      refine Finset.sum_lt_sum (fun i _ => ?_) ⟨i, Finset.mem_univ _, ?_⟩
      · by_cases hi : a < hM.eigenvalues i
        · exact mul_le_mul_of_nonneg_right hi.le (sq_nonneg _)
        · simp [hi]
      · rw [dif_pos hi]
        exact mul_lt_mul_of_pos_right hi (sq_pos_of_ne_zero hci)
  · rintro k ⟨W, rfl, hW⟩
    by_contra hlt
    rw [not_le] at hlt
    let ψ : W →ₗ[ℝ] ({i // a < hM.eigenvalues i} → ℝ) := (LinearMap.funLeft ℝ ℝ Subtype.val).comp ((Matrix.mulVecLin Uᵀ).comp W.subtype)
    have hker : LinearMap.ker ψ ≠ ⊥ := by
      apply LinearMap.ker_ne_bot_of_finrank_lt
      rwa [Module.finrank_fintype_fun_eq_card]
    obtain ⟨⟨w, hwW⟩, hw, hw0⟩ := (Submodule.ne_bot_iff _).mp hker
    rw [LinearMap.mem_ker] at hw
    have hc : ∀ i, a < hM.eigenvalues i → (Uᵀ *ᵥ w) i = 0 := fun i hi => congrFun hw ⟨i, hi⟩
    have hw' : w = U *ᵥ (Uᵀ *ᵥ w) := by rw [mulVec_mulVec, hU', one_mulVec]
    have h1 := hW w hwW (fun h => hw0 (by simpa using h))
    rw [hw', hUM, orth_norm _ _ hU, Finset.mul_sum] at h1
    refine absurd h1 (not_lt.mpr (Finset.sum_le_sum fun j _ => ?_))
    by_cases hj : a < hM.eigenvalues j
    · rw [hc j hj]; simp
    · exact mul_le_mul_of_nonneg_right (not_lt.mp hj) (sq_nonneg _)

theorem perm_map {α β : Type} (f : α → β) {l1 l2 : List β} (h : l1.Perm l2) : ∀ m : List α, m.map f = l2 → ∃ m' : List α, m'.Perm m ∧ m'.map f = l1 := by
  induction h with
  | nil => exact fun m hm => ⟨m, List.Perm.refl _, hm⟩
  | cons x _ ih =>
    intro m hm
    obtain ⟨y, m0, rfl, hy, hm0⟩ := List.map_eq_cons_iff.mp hm
    obtain ⟨m', h1, h2⟩ := ih m0 hm0
    exact ⟨y :: m', h1.cons y, by simp [hy, h2]⟩
  | swap x y l =>
    intro m hm
    obtain ⟨a, m0, rfl, ha, hm0⟩ := List.map_eq_cons_iff.mp hm
    obtain ⟨b, m1, rfl, hb, hm1⟩ := List.map_eq_cons_iff.mp hm0
    exact ⟨b :: a :: m1, List.Perm.swap _ _ _, by simp [ha, hb, hm1]⟩
  | trans _ _ ih1 ih2 =>
    intro m hm
    obtain ⟨m1, h1, h2⟩ := ih2 m hm
    obtain ⟨m2, h3, h4⟩ := ih1 m1 h2
    exact ⟨m2, h3.trans h1, h4⟩

/-- Eigenvectors for a list of those eigenvalues that satisfy `p`: orthonormal, and the form is diagonal with the listed values. -/
theorem eigenvectors (M : Matrix (Fin N) (Fin N) ℝ) (hM : M.IsHermitian) (p : ℝ → Prop) [DecidablePred p] (l : List ℝ) (hl : (l : Multiset ℝ) = M.charpoly.roots.filter p) :
    ∃ w : Fin l.length → Fin N → ℝ, (∀ a b, w a ⬝ᵥ w b = if a = b then 1 else 0) ∧ ∀ a b, w a ⬝ᵥ (M *ᵥ w b) = if a = b then l[a] else 0 := by
  have hroots := hM.roots_charpoly_eq_eigenvalues
  obtain ⟨m, hm, hml⟩ : ∃ m : List (Fin N), m.Nodup ∧ m.map hM.eigenvalues = l := by
    have h1 : l.Perm (((List.finRange N).filter fun i => decide (p (hM.eigenvalues i))).map hM.eigenvalues) := by
      rw [← Multiset.coe_eq_coe, hl, hroots, Multiset.filter_map, ← Multiset.map_coe]
      congr 1
    obtain ⟨m', h2, h3⟩ := perm_map hM.eigenvalues h1 _ rfl
    exact ⟨m', h2.nodup_iff.mpr ((List.nodup_finRange N).filter _), h3⟩
  subst hml
  have hlen : (m.map hM.eigenvalues).length = m.length := List.length_map _
  refine ⟨fun a => ⇑(hM.eigenvectorBasis (m[a.1]'(by have := a.2; simpa using this))), ?_, ?_⟩
  · intro a b
    have h := orthonormal_iff_ite.mp hM.eigenvectorBasis.orthonormal (m[a.1]'(by have := a.2; simpa using this)) (m[b.1]'(by have := b.2; simpa using this))
    rw [EuclideanSpace.inner_eq_star_dotProduct] at h
    simp only [star_trivial] at h
    rw [dotProduct_comm]
    refine h.trans ?_
    simp only [hm.getElem_inj_iff, Fin.ext_iff]
  · intro a b
    have h := orthonormal_iff_ite.mp hM.eigenvectorBasis.orthonormal (m[a.1]'(by have := a.2; simpa using this)) (m[b.1]'(by have := b.2; simpa using this))
    rw [EuclideanSpace.inner_eq_star_dotProduct] at h
    simp only [star_trivial] at h
    rw [hM.mulVec_eigenvectorBasis, dotProduct_smul, dotProduct_comm, h]
    simp only [hm.getElem_inj_iff, Fin.ext_iff, smul_eq_mul, mul_ite, mul_one, mul_zero]
    by_cases hab : a.1 = b.1
    · simp [hab]
    · simp [hab]

end RMT.Inertia
