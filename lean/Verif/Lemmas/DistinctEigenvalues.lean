import Verif.Lemmas.PolynomialZeros

/-! # Random matrices almost surely have no repeated eigenvalue -/

namespace RMT.Gauss
open MeasureTheory ProbabilityTheory Real MvPolynomial Spec Matrix

/-- The matrix of power sums, from the traces of powers. -/
noncomputable def hankel {R : Type} [CommRing R] {n : ℕ} (M : Matrix (Fin n) (Fin n) R) : Matrix (Fin n) (Fin n) R := Matrix.of fun i j => (M ^ (i.val + j.val)).trace

theorem hankel_map {R S : Type} [CommRing R] [CommRing S] (f : R →+* S) {n : ℕ} (M : Matrix (Fin n) (Fin n) R) : f (hankel M).det = (hankel (M.map f)).det := by
  rw [RingHom.map_det]
  congr 1
  ext i j
  simp only [RingHom.mapMatrix_apply, Matrix.map_apply, hankel, Matrix.of_apply]
  rw [AddMonoidHom.map_trace]
  congr 1
  exact map_pow f.mapMatrix M _

/-- With power sums of `v` on the antidiagonals, the determinant is the square of the Vandermonde determinant. -/
theorem hankel_vandermonde {R : Type} [CommRing R] {n : ℕ} (M : Matrix (Fin n) (Fin n) R) (v : Fin n → R) (h : ∀ k, (M ^ k).trace = ∑ i, v i ^ k) :
    (hankel M).det = (vandermonde v).det ^ 2 := by
  have : hankel M = (vandermonde v)ᵀ * vandermonde v := by
    ext i j
    rw [hankel, Matrix.of_apply, h]
    simp only [Matrix.mul_apply, Matrix.transpose_apply, vandermonde_apply, pow_add]
  rw [this, Matrix.det_mul, Matrix.det_transpose, sq]

variable {Ω : Type} [MeasurableSpace Ω]

/-- If the entries of Hermitian matrices are polynomials in different normal draws, and some real point gives the diagonal matrix with entries 0, …, n - 1, then almost surely no eigenvalue is repeated. -/
theorem ae_distinct {ι : Type} [Fintype ι] (P : Measure Ω) [IsProbabilityMeasure P] (X : ℕ → Ω → ℝ) (hX : NormalDraws P X) (f : ι → ℕ) (hf : Function.Injective f) {n : ℕ}
    (M : Matrix (Fin n) (Fin n) (MvPolynomial ι ℂ)) (H : Ω → Matrix (Fin n) (Fin n) ℂ) (hH : ∀ ω, (H ω).IsHermitian)
    (hM : ∀ ω, H ω = M.map (eval fun i => (X (f i) ω : ℂ))) (x0 : ι → ℂ) (h0 : M.map (eval x0) = Matrix.diagonal fun i => (i.val : ℂ))
    (vals : Ω → List ℝ) (hs : ∀ ω, Ascending (vals ω)) (hv : ∀ ω, ((vals ω : Multiset ℝ).map fun (x : ℝ) => (x : ℂ)) = (H ω).charpoly.roots) :
    ∀ᵐ ω ∂P, (vals ω).Pairwise (· < ·) := by
  have hne : (hankel M).det ≠ 0 := by
    intro h
    have h1 := hankel_map (eval x0) M
    rw [h, map_zero, h0, hankel_vandermonde _ (fun i => (i.val : ℂ)) (fun k => by rw [Matrix.diagonal_pow, Matrix.trace_diagonal]; rfl)] at h1
    have h2 : (vandermonde fun i : Fin n => (i.val : ℂ)).det ≠ 0 := by
      rw [det_vandermonde_ne_zero_iff]
      intro i j hij
      simp only at hij
      exact Fin.ext (by exact_mod_cast hij)
    exact h2 (pow_eq_zero_iff (two_ne_zero) |>.mp h1.symm)
  filter_upwards [ae_poly_ne_zero P X hX f hf _ hne] with ω hω
  have h1 : rev (fun i => X (f i) ω) (hankel M).det = (hankel (H ω)).det := by
    rw [hM ω]; exact hankel_map _ M
  have h2 := hankel_vandermonde (H ω) (fun i => ((hH ω).eigenvalues i : ℂ)) (fun k => by
    have := SpectrumM.trace_pow (H ω) (hH ω) k
    simpa using this)
  rw [h1, h2] at hω
  have hinj : Function.Injective fun i => ((hH ω).eigenvalues i : ℂ) := det_vandermonde_ne_zero_iff.mp (fun h => hω (by rw [h]; simp))
  have hnd : (vals ω).Nodup := by
    have h3 : (vals ω : Multiset ℝ) = Finset.univ.val.map (hH ω).eigenvalues := by
      apply Multiset.map_injective (f := fun (x : ℝ) => (x : ℂ)) (fun x y hxy => by simpa using hxy)
      rw [hv, (hH ω).roots_charpoly_eq_eigenvalues, Multiset.map_map]
      rfl
    rw [← Multiset.coe_nodup, h3]
    refine Multiset.Nodup.map (fun i j hij => hinj (by simp only; rw [hij])) Finset.univ.nodup
  exact (hs ω).and hnd |>.imp fun h => lt_of_le_of_ne h.1 h.2

/-- Different draws almost surely have different values. -/
theorem ae_draws_distinct (P : Measure Ω) [IsProbabilityMeasure P] (X : ℕ → Ω → ℝ) (hX : NormalDraws P X) (n : ℕ) : ∀ᵐ ω ∂P, ((List.range n).map fun k => X k ω).Nodup := by
  have hne : (vandermonde fun i : Fin n => (MvPolynomial.X i : MvPolynomial (Fin n) ℂ)).det ≠ 0 := by
    rw [det_vandermonde_ne_zero_iff]
    exact MvPolynomial.X_injective
  filter_upwards [ae_poly_ne_zero P X hX (fun i : Fin n => i.val) Fin.val_injective _ hne] with ω hω
  have h1 : rev (fun i : Fin n => X i.val ω) (vandermonde fun i : Fin n => (MvPolynomial.X i : MvPolynomial (Fin n) ℂ)).det = (vandermonde fun i : Fin n => (X i.val ω : ℂ)).det := by
    rw [rev, RingHom.map_det]
    congr 1
    ext i j
    simp [vandermonde_apply]
  rw [h1, det_vandermonde_ne_zero_iff] at hω
  refine List.Nodup.map_on (fun a ha b hb hab => ?_) List.nodup_range
  rw [List.mem_range] at ha hb
  have := @hω ⟨a, ha⟩ ⟨b, hb⟩ (by simp only; rw [hab])
  exact congrArg Fin.val this

/-! ## Tridiagonal matrices -/

/-- A vector whose first entry is 0 and which a tridiagonal matrix with nonzero off-diagonal entries maps to a multiple of itself is 0. -/
theorem jacobi_zero {n : ℕ} (T : Matrix (Fin n) (Fin n) ℝ) (hT : ∀ i j : Fin n, i.val + 1 < j.val → T i j = 0) (hoff : ∀ i j : Fin n, i.val + 1 = j.val → T i j ≠ 0)
    (c : ℝ) (v : Fin n → ℝ) (hv : T.mulVec v = c • v) (h0 : ∀ i : Fin n, i.val = 0 → v i = 0) : v = 0 := by
  have h : ∀ m : ℕ, ∀ i : Fin n, i.val ≤ m → v i = 0 := by
    intro m
    induction m with
    | zero => intro i hi; exact h0 i (by omega)
    | succ m ih =>
      intro i hi
      rcases Nat.lt_or_ge i.val (m + 1) with h | h
      · exact ih i (by omega)
      · have him : i.val = m + 1 := by omega
        set k : Fin n := ⟨m, by omega⟩ with hk
        have h1 := congrFun hv k
        rw [Pi.smul_apply, ih k le_rfl, smul_zero, Matrix.mulVec, dotProduct, Finset.sum_eq_single i] at h1
        · rcases mul_eq_zero.mp h1 with h2 | h2
          · exact absurd h2 (hoff k i (by simp [hk, him]))
          · exact h2
        · intro j _ hji
          by_cases hj : j.val ≤ m
          · rw [ih j hj, mul_zero]
          · have : j.val ≠ i.val := fun h => hji (Fin.ext h)
            rw [hT k j (by simp only [hk]; omega), zero_mul]
        · simp
  funext i
  exact h i.val i le_rfl

/-- A symmetric tridiagonal matrix with nonzero off-diagonal entries has no repeated eigenvalue. -/
theorem jacobi_injective {n : ℕ} (T : Matrix (Fin n) (Fin n) ℝ) (hs : T.IsHermitian) (hT : ∀ i j : Fin n, i.val + 1 < j.val → T i j = 0) (hoff : ∀ i j : Fin n, i.val + 1 = j.val → T i j ≠ 0) :
    Function.Injective hs.eigenvalues := by
  intro i j hij
  by_contra hne
  set u := hs.eigenvectorBasis i with hu
  set w := hs.eigenvectorBasis j with hw
  have hn : 0 < n := i.pos
  set z : Fin n := ⟨0, hn⟩
  have e1 : T.mulVec u = hs.eigenvalues i • (u : Fin n → ℝ) := hs.mulVec_eigenvectorBasis i
  have e2 : T.mulVec w = hs.eigenvalues i • (w : Fin n → ℝ) := by rw [hij]; exact hs.mulVec_eigenvectorBasis j
  have hz : (w z • (u : Fin n → ℝ) - u z • (w : Fin n → ℝ)) = 0 := by
    refine jacobi_zero T hT hoff (hs.eigenvalues i) _ ?_ fun k hk => ?_
    · rw [Matrix.mulVec_sub, Matrix.mulVec_smul, Matrix.mulVec_smul, e1, e2]
      module
    · have : k = z := Fin.ext hk
      subst this
      simp
      ring
  have hz' : w z • u - u z • w = 0 := by
    ext k; simpa using congrFun hz k
  have ho := hs.eigenvectorBasis.orthonormal
  have h1 : inner ℝ u (w z • u - u z • w) = w z := by
    rw [inner_sub_right, inner_smul_right, inner_smul_right, real_inner_self_eq_norm_sq, ho.1 i, ho.2 hne]
    simp
  rw [hz', inner_zero_right] at h1
  have h2 : (w : Fin n → ℝ) = 0 := jacobi_zero T hT hoff (hs.eigenvalues i) _ e2 fun k hk => by
    have : k = z := Fin.ext hk
    rw [this, ← h1]
  have h3 : ‖w‖ = 1 := ho.1 j
  have h4 : w = 0 := by ext k; exact congrFun h2 k
  rw [h4, norm_zero] at h3
  exact zero_ne_one h3

end RMT.Gauss
