import Verif.Spec.Perturbation
import Verif.Lemmas.Inertia
import Mathlib.Algebra.Order.Chebyshev

/-! # Weyl's inequality: eigenvalues move by at most the size of the perturbation -/

namespace RMT.Weyl
open Matrix Spec Inertia

variable {n : ℕ}

theorem hermitian_of_symm {M : Matrix (Fin n) (Fin n) ℝ} (h : M.IsSymm) : M.IsHermitian := by
  rw [IsHermitian, conjTranspose_eq_transpose_of_trivial]; exact h

theorem forms_symm {δ : ℝ} {A B : Matrix (Fin n) (Fin n) ℝ} (h : FormsWithin δ A B) : FormsWithin δ B A := fun v => by
  rw [abs_sub_comm]; exact h v

theorem cnt_shift {δ : ℝ} {A B : Matrix (Fin n) (Fin n) ℝ} (hA : A.IsSymm) (hB : B.IsSymm) (h : FormsWithin δ A B) (a : ℝ) : cnt A (a + δ) ≤ cnt B a := by
  refine cnt_le A B 1 (hermitian_of_symm hA) (hermitian_of_symm hB) _ _ fun v hv => ?_
  rw [one_mulVec]
  have := (abs_le.mp (h v)).2
  linarith

theorem countLE_cnt (A : Matrix (Fin n) (Fin n) ℝ) (hA : A.IsSymm) (l : List ℝ) (hl : (l : Multiset ℝ) = A.charpoly.roots) (a : ℝ) : countLE l a + cnt A a = n := by
  have h1 : l.length = n := by
    have : Multiset.card (l : Multiset ℝ) = n := by
      rw [hl, (hermitian_of_symm hA).roots_charpoly_eq_eigenvalues]; simp
    simpa using this
  rw [cnt, ← hl, Multiset.coe_countP, countLE]
  conv_rhs => rw [← h1, List.length_eq_countP_add_countP (fun e => decide (e ≤ a)) (l := l)]
  congr 1
  refine List.countP_congr fun x _ => ?_
  simp

/-- The counting functions of the two spectra, one shifted by `δ`. -/
theorem counts_shift {δ : ℝ} {A B : Matrix (Fin n) (Fin n) ℝ} (hA : A.IsSymm) (hB : B.IsSymm) (h : FormsWithin δ A B) (l l' : List ℝ)
    (hl : (l : Multiset ℝ) = A.charpoly.roots) (hl' : (l' : Multiset ℝ) = B.charpoly.roots) (a : ℝ) : countLE l' a ≤ countLE l (a + δ) := by
  have h1 := countLE_cnt A hA l hl (a + δ)
  have h2 := countLE_cnt B hB l' hl' a
  have h3 := cnt_shift hA hB h a
  omega

theorem lt_countLE_iff {l : List ℝ} (hl : Ascending l) (k : ℕ) (hk : k < l.length) (a : ℝ) : k < countLE l a ↔ l[k] ≤ a := by
  constructor
  · intro h
    by_contra hc
    rw [not_le] at hc
    have : countLE l a ≤ k := by
      rw [countLE, ← List.take_append_drop k l, List.countP_append]
      have h2 : (l.drop k).countP (fun e => decide (e ≤ a)) = 0 := by
        rw [List.countP_eq_zero]
        intro x hx
        obtain ⟨i, hi, rfl⟩ := List.getElem_of_mem hx
        rw [List.getElem_drop]
        have : l[k] ≤ l[k + i]'(by rw [List.length_drop] at hi; omega) := by
          rcases Nat.eq_zero_or_pos i with rfl | hi0
          · simp
          · exact List.pairwise_iff_getElem.mp hl _ _ _ _ (by omega)
        simp only [decide_eq_true_eq, not_le]
        linarith
      rw [h2, add_zero]
      exact List.countP_le_length.trans (by rw [List.length_take]; omega)
    omega
  · intro h
    rw [countLE, ← List.take_append_drop (k + 1) l, List.countP_append]
    have h2 : (l.take (k + 1)).countP (fun e => decide (e ≤ a)) = (l.take (k + 1)).length := by
      rw [List.countP_eq_length]
      intro x hx
      obtain ⟨i, hi, rfl⟩ := List.getElem_of_mem hx
      rw [List.length_take] at hi
      rw [List.getElem_take]
      have : l[i]'(by omega) ≤ l[k] := by
        rcases Nat.lt_or_ge i k with hik | hik
        · exact List.pairwise_iff_getElem.mp hl _ _ _ _ hik
        · have : i = k := by omega
          subst this; exact le_rfl
      simpa using this.trans h
    rw [h2, List.length_take]
    omega

/-- Weyl's inequality for the ascending lists of eigenvalues. -/
theorem weyl {δ : ℝ} {A B : Matrix (Fin n) (Fin n) ℝ} (hA : A.IsSymm) (hB : B.IsSymm) (h : FormsWithin δ A B) (l l' : List ℝ)
    (hl : (l : Multiset ℝ) = A.charpoly.roots) (hl' : (l' : Multiset ℝ) = B.charpoly.roots) (ha : Ascending l) (ha' : Ascending l') : EntriesWithin δ l l' := by
  have card : ∀ {M : Matrix (Fin n) (Fin n) ℝ} (_ : M.IsSymm) (m : List ℝ), (m : Multiset ℝ) = M.charpoly.roots → m.length = n := by
    intro M hM m hm
    have : Multiset.card (m : Multiset ℝ) = n := by
      rw [hm, (hermitian_of_symm hM).roots_charpoly_eq_eigenvalues]; simp
    simpa using this
  have e1 := card hA l hl
  have e2 := card hB l' hl'
  rw [EntriesWithin, List.forall₂_iff_get]
  refine ⟨by rw [e1, e2], fun k h1 h2 => ?_⟩
  simp only [List.get_eq_getElem]
  rw [abs_le]
  constructor
  · have := (lt_countLE_iff ha k h1 l[k]).mpr le_rfl
    have := this.trans_le (counts_shift hB hA (forms_symm h) l' l hl' hl _)
    have := (lt_countLE_iff ha' k h2 _).mp this
    linarith
  · have := (lt_countLE_iff ha' k h2 l'[k]).mpr le_rfl
    have := this.trans_le (counts_shift hA hB h l l' hl hl' _)
    have := (lt_countLE_iff ha k h1 _).mp this
    linarith

theorem forms_frobenius (A B : Matrix (Fin n) (Fin n) ℝ) : FormsWithin (frobenius (A - B)) A B := fun v => by
  have e : v ⬝ᵥ (A *ᵥ v) - v ⬝ᵥ (B *ᵥ v) = ∑ p : Fin n × Fin n, (A - B) p.1 p.2 * (v p.1 * v p.2) := by
    rw [← dotProduct_sub, ← sub_mulVec, Fintype.sum_prod_type]
    simp only [dotProduct, mulVec, Finset.mul_sum]
    exact Finset.sum_congr rfl fun i _ => Finset.sum_congr rfl fun j _ => by ring
  have e2 : ∑ p : Fin n × Fin n, (v p.1 * v p.2) ^ 2 = (v ⬝ᵥ v) ^ 2 := by
    rw [Fintype.sum_prod_type, sq, dotProduct, Finset.sum_mul_sum]
    exact Finset.sum_congr rfl fun i _ => Finset.sum_congr rfl fun j _ => by ring
  have e3 : ∑ p : Fin n × Fin n, (A - B) p.1 p.2 ^ 2 = ∑ i, ∑ j, (A - B) i j ^ 2 := Fintype.sum_prod_type _
  have hv : 0 ≤ v ⬝ᵥ v := Finset.sum_nonneg fun i _ => mul_self_nonneg _
  have cs := Finset.sum_mul_sq_le_sq_mul_sq Finset.univ (fun p : Fin n × Fin n => (A - B) p.1 p.2) fun p => v p.1 * v p.2
  rw [e, e2, e3] at *
  rw [← Real.sqrt_sq_eq_abs]
  refine (Real.sqrt_le_sqrt cs).trans ?_
  have hnn : 0 ≤ ∑ i, ∑ j, (A - B) i j ^ 2 := Finset.sum_nonneg fun i _ => Finset.sum_nonneg fun j _ => sq_nonneg _
  have h2 := Real.sqrt_mul hnn ((v ⬝ᵥ v) ^ 2)
  rw [Real.sqrt_sq hv] at h2
  exact h2.le

theorem frobenius_le (A : Matrix (Fin n) (Fin n) ℝ) (ε : ℝ) (h0 : 0 ≤ ε) (h : ∀ i j, |A i j| ≤ ε) : frobenius A ≤ n * ε := by
  refine Real.sqrt_le_iff.mpr ⟨by positivity, ?_⟩
  calc ∑ i, ∑ j, A i j ^ 2 ≤ ∑ _i : Fin n, ∑ _j : Fin n, ε ^ 2 := Finset.sum_le_sum fun i _ => Finset.sum_le_sum fun j _ => by
        rw [← sq_abs]; exact pow_le_pow_left₀ (abs_nonneg _) (h i j) 2
    _ = (n * ε) ^ 2 := by simp; ring

theorem forms_mono {δ δ' : ℝ} {A B : Matrix (Fin n) (Fin n) ℝ} (h : FormsWithin δ A B) (hd : δ ≤ δ') : FormsWithin δ' A B := fun v =>
  (h v).trans (mul_le_mul_of_nonneg_right hd (Finset.sum_nonneg fun _ _ => mul_self_nonneg _))

theorem forms_trans {δ δ' : ℝ} {A B C : Matrix (Fin n) (Fin n) ℝ} (h : FormsWithin δ A B) (h' : FormsWithin δ' B C) : FormsWithin (δ + δ') A C := fun v => by
  have := abs_sub_le (v ⬝ᵥ (A *ᵥ v)) (v ⬝ᵥ (B *ᵥ v)) (v ⬝ᵥ (C *ᵥ v))
  have := h v
  have := h' v
  linarith

end RMT.Weyl
