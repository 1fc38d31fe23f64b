import Verif.Props.TwoLevel
import Verif.Props.Moments
import Verif.Lemmas.SpectrumMeasurable
import Mathlib.LinearAlgebra.UnitaryGroup
import Mathlib.Probability.IdentDistribIndep

/-!
# Properties C141, C142: symmetries of the generated ensembles, sums of generated eigenvalues
-/

namespace RMT
namespace Props
open Gen EigValsM EigM Unfold MeasureTheory ProbabilityTheory Spec Gauss
open Real Set
open scoped RealInnerProductSpace

variable {σ Ω : Type} [MeasurableSpace Ω]

/-- A norm-preserving linear map of a Euclidean space preserves the standard Gaussian measure. -/
theorem map_isometry {ι : Type} [Fintype ι] (L : EuclideanSpace ℝ ι →ₗ[ℝ] EuclideanSpace ℝ ι) (h : ∀ v, ‖L v‖ = ‖v‖) :
    (stdGaussian (EuclideanSpace ℝ ι)).map L = stdGaussian (EuclideanSpace ℝ ι) :=
  stdGaussian_map ((⟨L, h⟩ : EuclideanSpace ℝ ι →ₗᵢ[ℝ] EuclideanSpace ℝ ι).toLinearIsometryEquiv rfl)

/-- A function of the draws has the law of the same function of the rotated draws. -/
theorem ident_of_isometry {ι β : Type} [Fintype ι] [MeasurableSpace β] (P : Measure Ω) [IsProbabilityMeasure P] (X : Nat → Ω → ℝ) (hX : NormalDraws P X)
    (g : ι → Nat) (hg : Function.Injective g) (L : EuclideanSpace ℝ ι →ₗ[ℝ] EuclideanSpace ℝ ι) (h : ∀ v, ‖L v‖ = ‖v‖)
    (f : EuclideanSpace ℝ ι → β) (hf : Measurable f) :
    IdentDistrib (fun ω => f (WithLp.toLp 2 fun i => X (g i) ω)) (fun ω => f (L (WithLp.toLp 2 fun i => X (g i) ω))) P P := by
  have hm := measurable_draws X hX.measurable g
  have hl := law_draws P X hX g hg
  have hL : Measurable L := L.continuous_of_finiteDimensional.measurable
  refine IdentDistrib.comp (u := f) ⟨hm.aemeasurable, (hL.comp hm).aemeasurable, ?_⟩ hf
  have : P.map (fun ω => L (WithLp.toLp 2 fun i => X (g i) ω)) = (P.map fun ω => (WithLp.toLp 2 fun i => X (g i) ω : EuclideanSpace ℝ ι)).map L := by
    rw [Measure.map_map hL hm]; rfl
  rw [this, hl, map_isometry L h]

/-! ## C141 -/

/-- The matrix with the given entries. -/
def matOf {n : Nat} (v : EuclideanSpace ℝ (Fin n × Fin n)) : Matrix (Fin n) (Fin n) ℝ := fun i j => v (i, j)

/-- Conjugation of a matrix, as a linear map on its entries. -/
noncomputable def conjLin {n : Nat} (O : Matrix (Fin n) (Fin n) ℝ) : EuclideanSpace ℝ (Fin n × Fin n) →ₗ[ℝ] EuclideanSpace ℝ (Fin n × Fin n) where
  toFun v := WithLp.toLp 2 fun p => (O * matOf v * O.transpose) p.1 p.2
  map_add' v w := by
    have : matOf (v + w) = matOf v + matOf w := rfl
    ext p
    simp [this, Matrix.mul_add, Matrix.add_mul]
  map_smul' c v := by
    have : matOf (c • v) = c • matOf v := rfl
    ext p
    simp [this]

theorem matOf_conjLin {n : Nat} (O : Matrix (Fin n) (Fin n) ℝ) (v : EuclideanSpace ℝ (Fin n × Fin n)) : matOf (conjLin O v) = O * matOf v * O.transpose := rfl

theorem norm_matOf {n : Nat} (v : EuclideanSpace ℝ (Fin n × Fin n)) : ‖v‖ ^ 2 = (matOf v * (matOf v).transpose).trace := by
  rw [EuclideanSpace.real_norm_sq_eq, Fintype.sum_prod_type]
  simp [Matrix.trace, Matrix.mul_apply, matOf, sq]

theorem conjLin_norm {n : Nat} (O : Matrix (Fin n) (Fin n) ℝ) (hO : O ∈ Matrix.orthogonalGroup (Fin n) ℝ) (v : EuclideanSpace ℝ (Fin n × Fin n)) :
    ‖conjLin O v‖ = ‖v‖ := by
  have h : O.transpose * O = 1 := by
    have := (Matrix.mem_orthogonalGroup_iff' (Fin n) ℝ).mp hO
    simpa [Matrix.star_eq_conjTranspose] using this
  have : ‖conjLin O v‖ ^ 2 = ‖v‖ ^ 2 := by
    rw [norm_matOf, norm_matOf, matOf_conjLin]
    simp only [Matrix.transpose_mul, Matrix.transpose_transpose]
    have e : O * matOf v * O.transpose * (O * ((matOf v).transpose * O.transpose)) = O * (matOf v * (matOf v).transpose * O.transpose) := by
      calc _ = O * (matOf v * ((O.transpose * O) * ((matOf v).transpose * O.transpose))) := by simp only [Matrix.mul_assoc]
        _ = _ := by rw [h, Matrix.one_mul]; simp only [Matrix.mul_assoc]
    rw [e, Matrix.trace_mul_comm, Matrix.mul_assoc, h, Matrix.mul_one]
  exact (sq_eq_sq₀ (norm_nonneg _) (norm_nonneg _)).mp this

theorem index_injective (n : Nat) : Function.Injective fun p : Fin n × Fin n => p.1.val * n + p.2.val := by
  rintro ⟨i, j⟩ ⟨k, l⟩ h
  have hi := i.isLt
  have hj := j.isLt
  have hl := l.isLt
  have h0 : 0 < n := by omega
  have h1 : i.val = k.val := by
    have := congrArg (· / n) h
    simp only at this
    rwa [mul_comm, Nat.mul_add_div h0, mul_comm, Nat.mul_add_div h0, Nat.div_eq_of_lt hj, Nat.div_eq_of_lt hl, add_zero, add_zero] at this
  have h2 : j.val = l.val := by simp only [h1] at h; omega
  exact Prod.ext (Fin.ext h1) (Fin.ext h2)

theorem goe_conj {n : Nat} (O A : Matrix (Fin n) (Fin n) ℝ) : goeOf (O * A * O.transpose) = O * goeOf A * O.transpose := by
  have e : ∀ B : Matrix (Fin n) (Fin n) ℝ, goeOf B = (1 / √2) • (B + B.transpose) := fun B => by
    ext i j; simp [goeOf]; ring
  rw [e, e]
  simp only [Matrix.transpose_mul, Matrix.transpose_transpose, Matrix.mul_smul, Matrix.smul_mul, Matrix.mul_add, Matrix.add_mul, Matrix.mul_assoc]

/-- **C141 (orthogonal invariance).** If the normal draws are independent, the full GOE matrix has the same law as its conjugate under any orthogonal matrix. -/
theorem C141_orthogonal (R : Rng σ) (P : Measure Ω) [IsProbabilityMeasure P] (s : Ω → σ) (hX : NormalDraws P fun k ω => draw R (s ω) k)
    (n : Nat) (tri : Bool) (h : n ≤ 500 ∨ tri = false) (O : Matrix (Fin n) (Fin n) ℝ) (hO : O ∈ Matrix.orthogonalGroup (Fin n) ℝ) :
    IdentDistrib (fun ω i j => (goeMatrix R n none tri (s ω)).1 i j) (fun ω i j => (O * (goeMatrix R n none tri (s ω)).1 * O.transpose) i j) P P := by
  have hM : ∀ ω, (goeMatrix R n none tri (s ω)).1 = goeOf (matOf (WithLp.toLp 2 fun p : Fin n × Fin n => draw R (s ω) (p.1.val * n + p.2.val))) := by
    intro ω
    ext i j
    exact C49_goe R n none tri (s ω) h i j
  have key := ident_of_isometry P _ hX (fun p : Fin n × Fin n => p.1.val * n + p.2.val) (index_injective n) (conjLin O) (conjLin_norm O hO)
    (fun v => fun i j => goeOf (matOf v) i j) (by
      refine measurable_pi_lambda _ fun i => measurable_pi_lambda _ fun j => ?_
      simp only [goeOf, matOf]
      fun_prop)
  simp only [matOf_conjLin, goe_conj] at key
  simp only [hM]
  exact key

/-- The complex matrix with the given real and imaginary parts. -/
def cmatOf {n : Nat} (v : EuclideanSpace ℝ ((Fin n × Fin n) ⊕ (Fin n × Fin n))) : Matrix (Fin n) (Fin n) ℂ := fun i j => ⟨v (.inl (i, j)), v (.inr (i, j))⟩

/-- Conjugation of a complex matrix, as a real linear map on the parts of its entries. -/
noncomputable def conjLinC {n : Nat} (U : Matrix (Fin n) (Fin n) ℂ) :
    EuclideanSpace ℝ ((Fin n × Fin n) ⊕ (Fin n × Fin n)) →ₗ[ℝ] EuclideanSpace ℝ ((Fin n × Fin n) ⊕ (Fin n × Fin n)) where
  toFun v := WithLp.toLp 2 fun
    | .inl p => ((U * cmatOf v * U.conjTranspose) p.1 p.2).re
    | .inr p => ((U * cmatOf v * U.conjTranspose) p.1 p.2).im
  map_add' v w := by
    have : cmatOf (v + w) = cmatOf v + cmatOf w := rfl
    ext p
    rcases p with p | p <;> simp [this, Matrix.mul_add, Matrix.add_mul]
  map_smul' c v := by
    have : cmatOf (c • v) = (c : ℂ) • cmatOf v := by
      ext i j
      apply Complex.ext <;> simp [cmatOf]
    ext p
    rcases p with p | p <;> simp [this]

theorem cmatOf_conjLinC {n : Nat} (U : Matrix (Fin n) (Fin n) ℂ) (v : EuclideanSpace ℝ ((Fin n × Fin n) ⊕ (Fin n × Fin n))) :
    cmatOf (conjLinC U v) = U * cmatOf v * U.conjTranspose := rfl

theorem norm_cmatOf {n : Nat} (v : EuclideanSpace ℝ ((Fin n × Fin n) ⊕ (Fin n × Fin n))) : ‖v‖ ^ 2 = ((cmatOf v * (cmatOf v).conjTranspose).trace).re := by
  rw [EuclideanSpace.real_norm_sq_eq, Fintype.sum_sum_type, Fintype.sum_prod_type, Fintype.sum_prod_type]
  simp [Matrix.trace, Matrix.mul_apply, cmatOf, sq, Finset.sum_add_distrib]

theorem conjLinC_norm {n : Nat} (U : Matrix (Fin n) (Fin n) ℂ) (hU : U ∈ Matrix.unitaryGroup (Fin n) ℂ) (v : EuclideanSpace ℝ ((Fin n × Fin n) ⊕ (Fin n × Fin n))) :
    ‖conjLinC U v‖ = ‖v‖ := by
  have h : U.conjTranspose * U = 1 := by
    have := Matrix.mem_unitaryGroup_iff'.mp hU
    simpa [Matrix.star_eq_conjTranspose] using this
  have : ‖conjLinC U v‖ ^ 2 = ‖v‖ ^ 2 := by
    rw [norm_cmatOf, norm_cmatOf, cmatOf_conjLinC]
    simp only [Matrix.conjTranspose_mul, Matrix.conjTranspose_conjTranspose]
    have e : U * cmatOf v * U.conjTranspose * (U * ((cmatOf v).conjTranspose * U.conjTranspose)) = U * (cmatOf v * (cmatOf v).conjTranspose * U.conjTranspose) := by
      calc _ = U * (cmatOf v * ((U.conjTranspose * U) * ((cmatOf v).conjTranspose * U.conjTranspose))) := by simp only [Matrix.mul_assoc]
        _ = _ := by rw [h, Matrix.one_mul]; simp only [Matrix.mul_assoc]
    rw [e, Matrix.trace_mul_comm, Matrix.mul_assoc, h, Matrix.mul_one]
  exact (sq_eq_sq₀ (norm_nonneg _) (norm_nonneg _)).mp this

/-- Hermitian part. -/
noncomputable def herm {n : Nat} (Z : Matrix (Fin n) (Fin n) ℂ) : Matrix (Fin n) (Fin n) ℂ := (1 / 2 : ℂ) • (Z + Z.conjTranspose)

theorem herm_conj {n : Nat} (U Z : Matrix (Fin n) (Fin n) ℂ) : herm (U * Z * U.conjTranspose) = U * herm Z * U.conjTranspose := by
  unfold herm
  simp only [Matrix.conjTranspose_mul, Matrix.conjTranspose_conjTranspose, Matrix.mul_smul, Matrix.smul_mul, Matrix.mul_add, Matrix.add_mul, Matrix.mul_assoc]

/-- The draw used for an entry: the real parts first, then the imaginary parts. -/
def cindex (n : Nat) : (Fin n × Fin n) ⊕ (Fin n × Fin n) → Nat
  | .inl p => p.1.val * n + p.2.val
  | .inr p => n * n + (p.1.val * n + p.2.val)

theorem cindex_injective (n : Nat) : Function.Injective (cindex n) := by
  have hl : ∀ p : Fin n × Fin n, p.1.val * n + p.2.val < n * n := fun p => entry_lt p.1 p.2
  rintro (p | p) (q | q) h
  · exact congrArg _ (index_injective n h)
  · simp only [cindex] at h; have := hl p; omega
  · simp only [cindex] at h; have := hl q; omega
  · simp only [cindex] at h
    exact congrArg _ (index_injective n (by simp only; omega))

theorem gue_draws (R : Rng σ) (n : Nat) (s : σ) :
    (generateGUE R n none s).1 = herm (cmatOf (WithLp.toLp 2 fun i => draw R s (cindex n i))) := by
  ext i j
  obtain ⟨h1, h2⟩ := C49_gue R n none s i j
  apply Complex.ext
  · rw [h1]; simp [herm, cmatOf, cindex, seedIfGiven]; ring
  · rw [h2]; simp [herm, cmatOf, cindex, seedIfGiven]; ring

theorem measurable_entry {n : Nat} (i j : Fin n) : Measurable fun v : EuclideanSpace ℝ ((Fin n × Fin n) ⊕ (Fin n × Fin n)) => cmatOf v i j := by
  have : (fun v : EuclideanSpace ℝ ((Fin n × Fin n) ⊕ (Fin n × Fin n)) => cmatOf v i j) = fun v => ((v (.inl (i, j)) : ℝ) : ℂ) + ((v (.inr (i, j)) : ℝ) : ℂ) * Complex.I := by
    funext v
    apply Complex.ext <;> simp [cmatOf]
  rw [this]
  fun_prop

/-- **C141 (unitary invariance).** If the normal draws are independent, the GUE matrix has the same law as its conjugate under any unitary matrix. -/
theorem C141_unitary (R : Rng σ) (P : Measure Ω) [IsProbabilityMeasure P] (s : Ω → σ) (hX : NormalDraws P fun k ω => draw R (s ω) k)
    (n : Nat) (U : Matrix (Fin n) (Fin n) ℂ) (hU : U ∈ Matrix.unitaryGroup (Fin n) ℂ) :
    IdentDistrib (fun ω i j => (generateGUE R n none (s ω)).1 i j) (fun ω i j => (U * (generateGUE R n none (s ω)).1 * U.conjTranspose) i j) P P := by
  have key := ident_of_isometry P _ hX (cindex n) (cindex_injective n) (conjLinC U) (conjLinC_norm U hU)
    (fun v => fun i j => herm (cmatOf v) i j) (by
      refine measurable_pi_lambda _ fun i => measurable_pi_lambda _ fun j => ?_
      simp only [herm, Matrix.smul_apply, Matrix.add_apply, Matrix.conjTranspose_apply, smul_eq_mul]
      have h1 := measurable_entry i j
      have h2 := measurable_entry j i
      have h3 : Measurable fun v : EuclideanSpace ℝ ((Fin n × Fin n) ⊕ (Fin n × Fin n)) => star (cmatOf v j i) := Complex.continuous_conj.measurable.comp h2
      exact (h1.add h3).const_mul _)
  simp only [cmatOf_conjLinC, herm_conj] at key
  simp only [gue_draws]
  exact key

/-! ## C142 -/

theorem charpoly_neg' {n : Nat} {R : Type} [CommRing R] (M : Matrix (Fin n) (Fin n) R) :
    (-M).charpoly = (-1) ^ n * M.charpoly.comp (-Polynomial.X) := by
  have h : (M.charmatrix).map (Polynomial.compRingHom (-Polynomial.X)) = -(-M).charmatrix := by
    ext1 i j
    by_cases hij : i = j
    · subst hij; simp [Matrix.charmatrix_apply_eq]; ring
    · simp [Matrix.charmatrix_apply_ne _ _ _ hij]
  have h2 : M.charpoly.comp (-Polynomial.X) = ((M.charmatrix).map (Polynomial.compRingHom (-Polynomial.X))).det := by
    exact RingHom.map_det (Polynomial.compRingHom (-Polynomial.X)) M.charmatrix
  rw [h2, h, Matrix.det_neg, Fintype.card_fin, ← mul_assoc, ← mul_pow]
  simp [Matrix.charpoly]

theorem roots_neg {n : Nat} {𝕜 : Type} [RCLike 𝕜] (M : Matrix (Fin n) (Fin n) 𝕜) (hM : M.IsHermitian) :
    (-M).charpoly.roots = M.charpoly.roots.map (- ·) := by
  have h : (-M).charpoly = ((Finset.univ.val.map fun i => -((hM.eigenvalues i : ℝ) : 𝕜)).map fun a => Polynomial.X - Polynomial.C a).prod := by
    rw [charpoly_neg', hM.charpoly_eq, Polynomial.prod_comp, Multiset.map_map]
    have : ∀ i, (Polynomial.X - Polynomial.C ((hM.eigenvalues i : ℝ) : 𝕜)).comp (-Polynomial.X) = -1 * (Polynomial.X - Polynomial.C (-((hM.eigenvalues i : ℝ) : 𝕜))) := by
      intro i; simp; ring
    simp only [this, Finset.prod_mul_distrib, Finset.prod_const, Finset.card_univ, Fintype.card_fin]
    rw [← mul_assoc, ← mul_pow]
    simp [Finset.prod]
  rw [h, Polynomial.roots_multiset_prod_X_sub_C, hM.roots_charpoly_eq_eigenvalues, Multiset.map_map]
  rfl

theorem asc_neg_reverse (l : List ℝ) (h : Ascending l) : Ascending (l.map (- ·)).reverse := by
  unfold Ascending at *
  rw [List.pairwise_reverse, List.pairwise_map]
  exact h.imp fun h => by simpa using h

theorem sort_neg (l k : List ℝ) (h : (k : Multiset ℝ) = (l : Multiset ℝ).map (- ·)) : npSort k = ((npSort l).map (- ·)).reverse := by
  have hp : k.Perm ((npSort l).map (- ·)).reverse := by
    have h1 : k.Perm (l.map (- ·)) := Multiset.coe_eq_coe.mp (by simpa using h)
    exact h1.trans (((npSort_perm l).symm.map _).trans (List.reverse_perm _).symm)
  rw [npSort_eq_of_perm hp]
  exact npSort_of_ascending _ (asc_neg_reverse _ (npSort_ascending l))

/-- The values in order, as a vector. -/
def vec (n : Nat) (l : List ℝ) : Fin n → ℝ := fun i => l.getD i.val 0

theorem vec_neg_reverse (n : Nat) (l : List ℝ) (h : l.length = n) : vec n (l.map (- ·)).reverse = fun i => -vec n l i.rev := by
  subst h
  funext i
  have h2 : l.length - (i.val + 1) < l.length := by omega
  simp only [vec, Fin.val_rev]
  rw [List.getD_eq_getElem _ _ (by simp), List.getD_eq_getElem _ _ h2]
  simp only [List.getElem_reverse, List.getElem_map, List.length_map, neg_inj]
  congr 1
  omega

/-- A linear combination of independent standard normal draws is normal, with the sum of the squared coefficients as variance. -/
theorem law_linear {ι : Type} [Fintype ι] (P : Measure Ω) [IsProbabilityMeasure P] (X : Nat → Ω → ℝ) (hX : NormalDraws P X)
    (g : ι → Nat) (hg : Function.Injective g) (w : ι → ℝ) (v : NNReal) (hv : ∑ i, w i ^ 2 = v) :
    P.map (fun ω => ∑ i, w i * X (g i) ω) = gaussianReal 0 v := by
  classical
  have hm := measurable_draws X hX.measurable g
  have hl := law_draws P X hX g hg
  set L : EuclideanSpace ℝ ι →L[ℝ] ℝ := innerSL ℝ (WithLp.toLp 2 w) with hL
  have e : (fun ω => ∑ i, w i * X (g i) ω) = fun ω => L (WithLp.toLp 2 fun i => X (g i) ω) := by
    funext ω
    simp [hL, PiLp.inner_apply, mul_comm]
  have : P.map (fun ω => L (WithLp.toLp 2 fun i => X (g i) ω)) = (P.map fun ω => (WithLp.toLp 2 fun i => X (g i) ω : EuclideanSpace ℝ ι)).map L := by
    rw [Measure.map_map L.continuous.measurable hm]; rfl
  rw [e, this, hl, IsGaussian.map_eq_gaussianReal, integral_strongDual_stdGaussian, variance_dual_stdGaussian]
  congr 1
  rw [hL, innerSL_apply_norm, EuclideanSpace.real_norm_sq_eq]
  simp [hv]

/-- `vals ω` are the values of the object which `generate(n, kind)` returns. -/
def GeneratedVals (R : Rng σ) (eh : EigSolver) (ehC : (n : Nat) → Matrix (Fin n) (Fin n) ℂ → List ℝ) (n : Nat) (k : MatrixKind) (tri : Bool) (e s : Ω → σ) (vals : Ω → List ℝ) : Prop :=
  ∀ ω, ∃ o, (generate R eh ehC n (.kind k) none tri (e ω) (s ω)).1 = .ok (o, k) ∧ o.vals = vals ω

/-- `vals` is a random spectrum of `n` ascending levels: the levels are random variables; the spectrum reflected at 0 has the same law; and the sum of the levels is normal with mean 0 and variance `v`. -/
structure SymmetricSpectrum (P : Measure Ω) (n : Nat) (v : NNReal) (vals : Ω → List ℝ) : Prop where
  /-- `n` levels in ascending order -/
  sorted : ∀ ω, (vals ω).length = n ∧ Ascending (vals ω)
  /-- each level is a random variable -/
  measurable : ∀ i, Measurable fun ω => (vals ω).getD i 0
  /-- the joint law of the levels is that of the levels of the reflected spectrum -/
  reflection : IdentDistrib (fun ω => vec n (vals ω)) (fun ω => vec n ((vals ω).map (- ·)).reverse) P P
  /-- the law of the sum -/
  sum : P.map (fun ω => (vals ω).sum) = gaussianReal 0 v

/-- The spectrum of a matrix which depends linearly on independent draws. -/
theorem symmetric_spectrum {ι : Type} [Fintype ι] {𝕜 : Type} [RCLike 𝕜] {n : Nat} (P : Measure Ω) [IsProbabilityMeasure P] (X : Nat → Ω → ℝ) (hX : NormalDraws P X)
    (g : ι → Nat) (hg : Function.Injective g) (M : EuclideanSpace ℝ ι → Matrix (Fin n) (Fin n) 𝕜) (hM : ∀ i j, Measurable fun v => M v i j)
    (hH : ∀ v, (M v).IsHermitian) (hneg : ∀ v, M (-v) = -M v) (eig : EuclideanSpace ℝ ι → List ℝ)
    (he : ∀ v, ((eig v : Multiset ℝ).map fun (x : ℝ) => (x : 𝕜)) = (M v).charpoly.roots) (w : ι → ℝ) (c : NNReal) (hc : ∑ i, w i ^ 2 = c)
    (hw : ∀ v, (M v).trace = ((∑ i, w i * v i : ℝ) : 𝕜)) :
    SymmetricSpectrum P n c fun ω => npSort (eig (WithLp.toLp 2 fun i => X (g i) ω)) := by
  have he' : ∀ v, ((npSort (eig v) : Multiset ℝ).map fun (x : ℝ) => (x : 𝕜)) = (M v).charpoly.roots := fun v => by
    rw [← he, Multiset.coe_eq_coe.mpr (npSort_perm (eig v))]
  obtain ⟨h1, h2, h3⟩ := SpectrumM.measurable_eigs M hM hH (fun v => npSort (eig v)) (fun v => npSort_ascending _) he'
  have hd := measurable_draws X hX.measurable g
  refine ⟨fun ω => ⟨h1 _, npSort_ascending _⟩, fun i => (h2 i).comp hd, ?_, ?_⟩
  · have key := ident_of_isometry P X hX g hg (-LinearMap.id) (by simp) (fun v => vec n (npSort (eig v))) (measurable_pi_lambda _ fun i => h2 i)
    have hs : ∀ v, npSort (eig (-v)) = ((npSort (eig v)).map (- ·)).reverse := by
      intro v
      refine sort_neg _ _ ?_
      apply Multiset.map_injective (f := fun (x : ℝ) => (x : 𝕜)) (fun x y hxy => by simpa using hxy)
      rw [he, hneg, roots_neg _ (hH v), ← he, Multiset.map_map, Multiset.map_map]
      simp
    simp only [LinearMap.neg_apply, LinearMap.id_apply, hs] at key
    exact key
  · rw [← law_linear P X hX g hg w c hc]
    congr 1
    funext ω
    have := h3 (WithLp.toLp 2 fun i => X (g i) ω) 1
    rw [pow_one, hw] at this
    have := RCLike.ofReal_injective this
    simpa [SpectrumM.powSum] using this

theorem charpoly_diag {n : Nat} (d : Fin n → ℝ) : (Matrix.diagonal d).charpoly.roots = Finset.univ.val.map d := by
  rw [Matrix.charpoly_of_isUpperTriangular]
  · have : (∏ i, (Polynomial.X - Polynomial.C (Matrix.diagonal d i i))) = ((Finset.univ.val.map d).map fun a => Polynomial.X - Polynomial.C a).prod := by
      rw [Multiset.map_map]; simp [Finset.prod]
    rw [this, Polynomial.roots_multiset_prod_X_sub_C]
  · intro i j hij
    exact Matrix.diagonal_apply_ne _ (ne_of_gt hij)

/-- **C142 (GOE, full matrix).** If the normal draws are independent and the eigenvalue routine is exact, `generate(n, "goe")` returns `n` ascending random levels whose joint law is symmetric under reflection of the spectrum at 0, and the sum of the levels is normal with mean 0 and variance `2n`. -/
theorem C142_goe (R : Rng σ) (eh : EigSolver) (ehC : (n : Nat) → Matrix (Fin n) (Fin n) ℂ → List ℝ) (hs : ExactSolver eh)
    (P : Measure Ω) [IsProbabilityMeasure P] (e s : Ω → σ) (hX : NormalDraws P fun k ω => draw R (s ω) k) (n : Nat) (tri : Bool) (h : n ≤ 500 ∨ tri = false) :
    ∃ vals, GeneratedVals R eh ehC n .goe tri e s vals ∧ SymmetricSpectrum P n (2 * n) vals := by
  refine ⟨fun ω => npSort (eh n (goeMatrix R n none tri (s ω)).1), fun ω => (C49_values R eh ehC n none tri (e ω) (s ω)).1, ?_⟩
  have hM : ∀ ω, (goeMatrix R n none tri (s ω)).1 = goeOf (matOf (WithLp.toLp 2 fun p : Fin n × Fin n => draw R (s ω) (p.1.val * n + p.2.val))) := by
    intro ω
    ext i j
    exact C49_goe R n none tri (s ω) h i j
  simp only [hM]
  have hsym : ∀ v : EuclideanSpace ℝ (Fin n × Fin n), (goeOf (matOf v)).IsSymm := fun v => goeOf_symm _
  have hs2 : √2 ^ 2 = (2 : ℝ) := Real.sq_sqrt (by norm_num)
  refine symmetric_spectrum P _ hX (fun p : Fin n × Fin n => p.1.val * n + p.2.val) (index_injective n) (fun v => goeOf (matOf v)) ?_ ?_ ?_ (fun v => eh n (goeOf (matOf v))) ?_
    (fun p => if p.1 = p.2 then √2 else 0) _ ?_ ?_
  · intro i j
    simp only [goeOf, matOf]
    fun_prop
  · intro v
    rw [Matrix.IsHermitian, Matrix.conjTranspose_eq_transpose_of_trivial]
    exact hsym v
  · intro v
    ext i j
    simp [goeOf, matOf]
    ring
  · intro v
    simp [hs n _ (hsym v)]
  · rw [Fintype.sum_prod_type]
    simp [hs2, mul_comm]
  · intro v
    rw [Fintype.sum_prod_type]
    have h2 : (2 : ℝ) / √2 = √2 := by rw [div_eq_iff (by positivity), ← sq, hs2]
    simp [Matrix.trace, goeOf, matOf]
    refine Finset.sum_congr rfl fun i _ => ?_
    rw [← two_mul, mul_div_right_comm, h2]

/-- **C142 (GUE).** Likewise for `generate(n, "gue")`; the variance of the sum is `n`. -/
theorem C142_gue (R : Rng σ) (eh : EigSolver) (ehC : (n : Nat) → Matrix (Fin n) (Fin n) ℂ → List ℝ) (hs : ExactHermitian ehC)
    (P : Measure Ω) [IsProbabilityMeasure P] (e s : Ω → σ) (hX : NormalDraws P fun k ω => draw R (s ω) k) (n : Nat) (tri : Bool) :
    ∃ vals, GeneratedVals R eh ehC n .gue tri e s vals ∧ SymmetricSpectrum P n n vals := by
  refine ⟨fun ω => npSort (ehC n (generateGUE R n none (s ω)).1), fun ω => (C49_values R eh ehC n none tri (e ω) (s ω)).2.1, ?_⟩
  have hH : ∀ v : EuclideanSpace ℝ ((Fin n × Fin n) ⊕ (Fin n × Fin n)), (herm (cmatOf v)).IsHermitian := by
    intro v
    ext i j
    simp [herm, Matrix.conjTranspose_apply]
    ring
  simp only [gue_draws]
  refine symmetric_spectrum P _ hX (cindex n) (cindex_injective n) (fun v => herm (cmatOf v)) ?_ hH ?_ (fun v => ehC n (herm (cmatOf v))) ?_
    (Sum.elim (fun p => if p.1 = p.2 then 1 else 0) fun _ => 0) _ ?_ ?_
  · intro i j
    simp only [herm, Matrix.smul_apply, Matrix.add_apply, Matrix.conjTranspose_apply, smul_eq_mul]
    exact ((measurable_entry i j).add (Complex.continuous_conj.measurable.comp (measurable_entry j i))).const_mul _
  · intro v
    have : cmatOf (-v) = -cmatOf v := by
      ext i j
      apply Complex.ext <;> simp [cmatOf]
    rw [this]
    simp [herm]
    abel
  · intro v
    exact hs n _ (hH v)
  · rw [Fintype.sum_sum_type, Fintype.sum_prod_type]
    simp
  · intro v
    rw [Fintype.sum_sum_type, Fintype.sum_prod_type]
    apply Complex.ext
    · simp [Matrix.trace, herm, cmatOf]
      refine Finset.sum_congr rfl fun i _ => by ring
    · simp [Matrix.trace, herm, cmatOf]

/-- **C142 (Poisson).** Likewise for `generate(n, "poisson")`, whose draws start from the state the entropy source gives; the variance of the sum is `n`. -/
theorem C142_poisson (R : Rng σ) (eh : EigSolver) (ehC : (n : Nat) → Matrix (Fin n) (Fin n) ℂ → List ℝ)
    (P : Measure Ω) [IsProbabilityMeasure P] (e s : Ω → σ) (hX : NormalDraws P fun k ω => draw R (e ω) k) (n : Nat) (tri : Bool) :
    ∃ vals, GeneratedVals R eh ehC n .poisson tri e s vals ∧ SymmetricSpectrum P n n vals := by
  refine ⟨fun ω => npSort (normals R n (e ω)).1, fun ω => ?_, ?_⟩
  · obtain ⟨o, h1, -, h3⟩ := (C49_values R eh ehC n none tri (e ω) (s ω)).2.2
    exact ⟨o, h1, h3⟩
  have hl : ∀ ω, (normals R n (e ω)).1 = List.ofFn fun i : Fin n => (WithLp.toLp 2 fun i : Fin n => draw R (e ω) i.val : EuclideanSpace ℝ (Fin n)) i := by
    intro ω
    rw [normals_draws]
    simp [List.ofFn_eq_map, ← List.map_coe_finRange_eq_range, Function.comp_def]
  simp only [hl]
  refine symmetric_spectrum (𝕜 := ℝ) P _ hX (fun i : Fin n => i.val) Fin.val_injective (fun v => Matrix.diagonal fun i => v i) ?_ ?_ ?_ (fun v => List.ofFn fun i => v i) ?_ (fun _ => 1) _ ?_ ?_
  · intro i j
    by_cases hij : i = j
    · subst hij; simp; fun_prop
    · simp [Matrix.diagonal_apply_ne _ hij]
  · intro v
    exact Matrix.isHermitian_diagonal _
  · intro v
    ext i j
    by_cases hij : i = j
    · subst hij; simp
    · simp [Matrix.diagonal_apply_ne _ hij]
  · intro v
    rw [charpoly_diag]
    simp [List.ofFn_eq_map]
    rfl
  · simp
  · intro v
    simp [Matrix.trace]

theorem tridiagonal_neg (n : Nat) (c z : List ℝ) :
    (tridiagonalOf n c (z.map (- ·))).charpoly = (-tridiagonalOf n c z).charpoly := by
  set D : Matrix (Fin n) (Fin n) ℝ := Matrix.diagonal fun i => (-1) ^ i.val with hD
  have hDD : D * D = 1 := by
    rw [hD, Matrix.diagonal_mul_diagonal]
    simp only [← mul_pow, neg_mul_neg, one_mul, one_pow, Matrix.diagonal_one]
  have h : tridiagonalOf n c (z.map (- ·)) = D * (-tridiagonalOf n c z) * D := by
    ext i j
    rw [hD, Matrix.mul_diagonal, Matrix.diagonal_mul, Matrix.neg_apply]
    have hz : (z.map (- ·)).getD i.val 0 = -z.getD i.val 0 := by
      have := List.getD_map (l := z) (d := (0 : ℝ)) (n := i.val) (f := fun x => -x)
      simpa using this
    simp only [tridiagonalOf]
    split_ifs with h1 h2 h3
    · rw [hz, h1]
      have : ((-1 : ℝ) ^ j.val) * (-1) ^ j.val = 1 := by rw [← mul_pow]; simp
      linear_combination (√2 * z.getD j.val 0 / √2) * this
    · have : ((-1 : ℝ) ^ j.val) * (-1) ^ j.val = 1 := by rw [← mul_pow]; simp
      rw [h2, pow_succ]
      linear_combination (-(√(c.getD j.val 0) / √2)) * this
    · have : ((-1 : ℝ) ^ i.val) * (-1) ^ i.val = 1 := by rw [← mul_pow]; simp
      rw [h3, pow_succ]
      linear_combination (-(√(c.getD i.val 0) / √2)) * this
    · simp
  have hinv : D⁻¹ = D := Matrix.inv_eq_right_inv hDD
  have := Matrix.charpoly_units_conj (⟨D, D, hDD, hDD⟩ : (Matrix (Fin n) (Fin n) ℝ)ˣ) (-tridiagonalOf n c z)
  rw [h]
  simpa [hinv] using this

/-- NumPy's state after the first `k` of the chi-square draws with `n - 1`, `n - 2`, …, 1 degrees of freedom. -/
def chiState (R : Rng σ) (n : Nat) (s : σ) : Nat → σ
  | 0 => s
  | k + 1 => (R.chisquare (n - 1 - k) (chiState R n s k)).2

/-- The chi-square draws of the tridiagonal matrix: draw `k < n - 1` is with `n - 1 - k` degrees of freedom. -/
noncomputable def chiDraws (R : Rng σ) (n : Nat) (s : σ) : Nat → ℝ := fun k => if k < n - 1 then (R.chisquare (n - 1 - k) (chiState R n s k)).1 else 0

/-- The normal draws of the tridiagonal matrix, which come after the chi-square draws. -/
noncomputable def diagDraws (R : Rng σ) (n : Nat) (s : σ) : Nat → ℝ := fun k => draw R (chiState R n s (n - 1)) k

theorem chisquares_length (R : Rng σ) : ∀ (l : List Nat) (s : σ), (chisquares R l s).1.length = l.length
  | [], _ => rfl
  | _ :: l, _ => by simp [chisquares, chisquares_length R l]

theorem chisquares_append (R : Rng σ) : ∀ (l l' : List Nat) (s : σ),
    chisquares R (l ++ l') s = ((chisquares R l s).1 ++ (chisquares R l' (chisquares R l s).2).1, (chisquares R l' (chisquares R l s).2).2)
  | [], _, _ => rfl
  | _ :: l, l', _ => by simp [chisquares, chisquares_append R l l']

theorem chisquares_prefix (R : Rng σ) (n : Nat) (s : σ) (m : Nat) :
    chisquares R ((List.range m).map fun (k : Nat) => n - 1 - k) s =
      ((List.range m).map fun (k : Nat) => (R.chisquare (n - 1 - k) (chiState R n s k)).1, chiState R n s m) := by
  induction m with
  | zero => rfl
  | succ m ih =>
    rw [List.range_succ, List.map_append, List.map_append, chisquares_append, ih]
    rfl

theorem chisquares_draws (R : Rng σ) (n : Nat) (s : σ) :
    chisquares R (chiRange n) s = ((List.range (n - 1)).map fun k => chiDraws R n s k, chiState R n s (n - 1)) := by
  rw [chiRange, chisquares_prefix]
  congr 1
  refine List.map_congr_left fun k hk => ?_
  simp [chiDraws, List.mem_range.mp hk]

theorem chiDraws_eq (R : Rng σ) (n : Nat) (s : σ) : chiDraws R n s = fun i => (chisquares R (chiRange n) s).1.getD i 0 := by
  funext i
  rw [chisquares_draws]
  by_cases h : i < n - 1
  · simp [h]
  · simp [h, chiDraws]

theorem diagDraws_eq (R : Rng σ) (n : Nat) (s : σ) : diagDraws R n s = fun k => draw R (chisquares R (chiRange n) s).2 k := by
  rw [chisquares_draws]; rfl

/-- **C142 (GOE, tridiagonal matrix).** For sizes above 500 with `use_tridiagonal`, if the chi-square draws are random variables independent of the normal draws, `generate(n, "goe")` likewise returns `n` ascending random levels whose joint law is symmetric under reflection; the variance of the sum is `n`, half of that for the full matrix. -/
theorem C142_tridiagonal (R : Rng σ) (eh : EigSolver) (ehC : (n : Nat) → Matrix (Fin n) (Fin n) ℂ → List ℝ) (hs : ExactSolver eh)
    (P : Measure Ω) [IsProbabilityMeasure P] (e s : Ω → σ) (n : Nat) (hn : 500 < n) (hc : Measurable fun ω => chiDraws R n (s ω))
    (hX : NormalDraws P fun k ω => diagDraws R n (s ω) k) (hi : IndepFun (fun ω => chiDraws R n (s ω)) (fun ω => diagDraws R n (s ω)) P) :
    ∃ vals, GeneratedVals R eh ehC n .goe true e s vals ∧ SymmetricSpectrum P n n vals := by
  refine ⟨fun ω => npSort (eh n (goeMatrix R n none true (s ω)).1), fun ω => (C49_values R eh ehC n none true (e ω) (s ω)).1, ?_⟩
  set lst : (Nat → ℝ) → Nat → List ℝ := fun c m => (List.range m).map c with hlst
  set M : (Nat → ℝ) × EuclideanSpace ℝ (Fin n) → Matrix (Fin n) (Fin n) ℝ := fun p => tridiagonalOf n (lst p.1 (n - 1)) (List.ofFn fun i => p.2 i) with hMdef
  set Z : Ω → EuclideanSpace ℝ (Fin n) := fun ω => WithLp.toLp 2 fun i => diagDraws R n (s ω) i.val with hZ
  have hM : ∀ ω, (goeMatrix R n none true (s ω)).1 = M (chiDraws R n (s ω), Z ω) := by
    intro ω
    rw [goeMatrix, if_pos ⟨hn, rfl⟩]
    have h1 : (chisquares R (chiRange n) (s ω)).1 = lst (chiDraws R n (s ω)) (n - 1) := by
      apply List.ext_getElem
      · simp [hlst, chisquares_length, chiRange]
      · intro k hk _
        simp [hlst, chiDraws_eq, List.getElem?_eq_getElem hk]
    have h2 : (normals R n (chisquares R (chiRange n) (s ω)).2).1 = List.ofFn fun i => Z ω i := by
      rw [normals_draws]
      simp [hZ, diagDraws_eq, List.ofFn_eq_map, ← List.map_coe_finRange_eq_range, Function.comp_def]
    simp only [generateGOETridiagonal, seedIfGiven]
    rw [h1, h2]
  simp only [hM]
  have hsym : ∀ p, (M p).IsSymm := fun p => tridiagonalOf_symm _ _ _
  have hent : ∀ i j, Measurable fun p => M p i j := by
    intro i j
    have hl : ∀ k, Measurable fun p : (Nat → ℝ) × EuclideanSpace ℝ (Fin n) => (lst p.1 (n - 1)).getD k 0 := by
      intro k
      by_cases hk : k < n - 1
      · have : (fun p : (Nat → ℝ) × EuclideanSpace ℝ (Fin n) => (lst p.1 (n - 1)).getD k 0) = fun p => p.1 k := by
          funext p
          simp [hlst, hk]
        rw [this]
        exact (measurable_pi_apply k).comp measurable_fst
      · have : (fun p : (Nat → ℝ) × EuclideanSpace ℝ (Fin n) => (lst p.1 (n - 1)).getD k 0) = fun p => 0 := by
          funext p
          simp [hlst, hk]
        rw [this]
        exact measurable_const
    simp only [hMdef, tridiagonalOf]
    have hz : Measurable fun p : (Nat → ℝ) × EuclideanSpace ℝ (Fin n) => (List.ofFn fun i => p.2 i).getD i.val 0 := by
      have : (fun p : (Nat → ℝ) × EuclideanSpace ℝ (Fin n) => (List.ofFn fun i => p.2 i).getD i.val 0) = fun p => p.2 i := by
        funext p
        simp
      rw [this]
      fun_prop
    split_ifs
    · exact (hz.const_mul _).div_const _
    · exact ((hl _).sqrt).div_const _
    · exact ((hl _).sqrt).div_const _
    · exact measurable_const
  have hr : ∀ p, (npSort (eh n (M p)) : Multiset ℝ) = (M p).charpoly.roots := fun p => by
    rw [Multiset.coe_eq_coe.mpr (npSort_perm _), hs n _ (hsym p)]
  have hH : ∀ p, (M p).IsHermitian := fun p => by
    rw [Matrix.IsHermitian, Matrix.conjTranspose_eq_transpose_of_trivial]
    exact hsym p
  obtain ⟨h1, h2, h3⟩ := SpectrumM.measurable_eigs M hent hH (fun p => npSort (eh n (M p))) (fun p => npSort_ascending _) (fun p => by simp [hr p])
  have hZm : Measurable Z := measurable_draws _ hX.measurable (fun i : Fin n => i.val)
  have hpm : Measurable fun ω => (chiDraws R n (s ω), Z ω) := hc.prodMk hZm
  have hci : IndepFun (fun ω => chiDraws R n (s ω)) Z P :=
    hi.comp (φ := id) (ψ := fun d : Nat → ℝ => (WithLp.toLp 2 fun i : Fin n => d i.val : EuclideanSpace ℝ (Fin n))) measurable_id
      ((WithLp.measurable_toLp 2 _).comp (measurable_pi_lambda _ fun i => measurable_pi_apply _))
  refine ⟨fun ω => ⟨h1 _, npSort_ascending _⟩, fun i => (h2 i).comp hpm, ?_, ?_⟩
  · have hneg : IdentDistrib Z (fun ω => -Z ω) P P := by
      have := ident_of_isometry P _ hX (fun i : Fin n => i.val) Fin.val_injective (-LinearMap.id) (by simp) id measurable_id
      simpa using this
    have hpair : IdentDistrib (fun ω => (chiDraws R n (s ω), Z ω)) (fun ω => (chiDraws R n (s ω), -Z ω)) P P := by
      exact (IdentDistrib.refl hc.aemeasurable).prodMk hneg hci (hci.comp measurable_id measurable_neg)
    have key := hpair.comp (u := fun p => vec n (npSort (eh n (M p)))) (measurable_pi_lambda _ fun i => h2 i)
    have hn : ∀ c z, npSort (eh n (M (c, -z))) = ((npSort (eh n (M (c, z)))).map (- ·)).reverse := by
      intro c z
      refine sort_neg _ _ ?_
      have e2 : (List.ofFn fun i => (-z) i) = (List.ofFn fun i => z i).map (- ·) := by
        simp [List.map_ofFn, Function.comp_def]
      rw [hs n _ (hsym _), hs n _ (hsym _), ← roots_neg _ (hH _)]
      simp only [hMdef]
      rw [e2, tridiagonal_neg]
    have key2 : IdentDistrib (fun ω => vec n (npSort (eh n (M (chiDraws R n (s ω), Z ω))))) (fun ω => vec n (npSort (eh n (M (chiDraws R n (s ω), -Z ω))))) P P := key
    simp only [hn] at key2
    exact key2
  · rw [← law_linear P _ hX (fun i : Fin n => i.val) Fin.val_injective (fun _ => 1) n (by simp)]
    congr 1
    funext ω
    have := h3 (chiDraws R n (s ω), Z ω) 1
    rw [pow_one] at this
    have e1 : (M (chiDraws R n (s ω), Z ω)).trace = ∑ i : Fin n, 1 * diagDraws R n (s ω) i.val := by
      simp [Matrix.trace, hMdef, tridiagonalOf, hZ]
    rw [e1] at this
    simpa [SpectrumM.powSum] using this

/-- A generator with one stream for normal draws and one for chi-square draws. -/
noncomputable def pairRng : Rng ((Nat → ℝ) × (Nat → ℝ)) :=
  ⟨fun _ => (fun _ => 0, fun _ => 0), fun s => (s.1 0, (fun k => s.1 (k + 1), s.2)), fun d s => (d * s.2 0 ^ 2, (s.1, fun k => s.2 (k + 1)))⟩

theorem pair_chisquares (l : List Nat) (s : (Nat → ℝ) × (Nat → ℝ)) : (chisquares pairRng l s).1 = (List.range l.length).map (fun (i : Nat) => (l.getD i 0 : ℝ) * s.2 i ^ 2) ∧
    (chisquares pairRng l s).2 = (s.1, fun k => s.2 (k + l.length)) := by
  induction l generalizing s with
  | nil => exact ⟨rfl, rfl⟩
  | cons d l ih =>
    obtain ⟨h1, h2⟩ := ih (pairRng.chisquare d s).2
    constructor
    · rw [List.length_cons, List.range_succ_eq_map, List.map_cons, List.map_map, chisquares, h1]
      rfl
    · simp only [chisquares]
      rw [h2]
      simp only [pairRng, List.length_cons]
      refine Prod.ext rfl (funext fun k => congrArg s.2 ?_)
      omega

theorem pair_draw (k : Nat) (s : (Nat → ℝ) × (Nat → ℝ)) : draw pairRng s k = s.1 k := by
  have h : ∀ k (s : (Nat → ℝ) × (Nat → ℝ)), stateAfter pairRng s k = (fun j => s.1 (j + k), s.2) := by
    intro k
    induction k with
    | zero => intro s; rfl
    | succ k ih => intro s; rw [stateAfter, ih]; exact Prod.ext (funext fun j => congrArg s.1 (by omega)) rfl
  rw [draw, h]
  simp [pairRng]

-- C142: the hypotheses of the tridiagonal theorem hold for two independent streams
example (n : Nat) (P : Measure (Nat → ℝ)) [IsProbabilityMeasure P] (hP : NormalDraws P fun k ω => ω k) :
    Measurable (fun ω => chiDraws pairRng n ω) ∧ NormalDraws (P.prod P) (fun k ω => diagDraws pairRng n ω k) ∧
    IndepFun (fun ω => chiDraws pairRng n ω) (fun ω => diagDraws pairRng n ω) (P.prod P) := by
  have h1 : ∀ ω, diagDraws pairRng n ω = ω.1 := fun ω => by
    funext k
    simp only [diagDraws_eq]; rw [pair_draw, (pair_chisquares _ _).2]
  have h2 : ∀ ω, chiDraws pairRng n ω = fun i => if i < n - 1 then ((chiRange n).getD i 0 : ℝ) * ω.2 i ^ 2 else 0 := fun ω => by
    funext k
    simp only [chiDraws_eq]; rw [(pair_chisquares _ _).1]
    have : (chiRange n).length = n - 1 := by simp [chiRange]
    rw [this]
    split_ifs with hk
    · simp [hk]
    · simp [hk]
  have hf : Measurable fun (z : Nat → ℝ) (i : Nat) => if i < n - 1 then ((chiRange n).getD i 0 : ℝ) * z i ^ 2 else 0 := by
    refine measurable_pi_lambda _ fun i => ?_
    split_ifs
    · exact ((measurable_pi_apply i).pow_const 2).const_mul _
    · exact measurable_const
  simp only [h1, h2]
  refine ⟨hf.comp measurable_snd, ⟨fun k => (measurable_pi_apply k).comp measurable_fst, ?_, fun k => ?_⟩, ?_⟩
  · rw [iIndepFun_iff_measure_inter_preimage_eq_mul]
    intro S sets hsets
    have h3 := iIndepFun_iff_measure_inter_preimage_eq_mul.mp hP.indep S hsets
    have hf : ∀ A : Set (Nat → ℝ), (P.prod P) (Prod.fst ⁻¹' A) = P A := fun A => by
      rw [← Set.prod_univ, Measure.prod_prod, measure_univ, mul_one]
    have h4 := hf (⋂ i ∈ S, (fun ω : Nat → ℝ => ω i) ⁻¹' sets i)
    rw [h3] at h4
    simp only [Set.preimage_iInter] at h4
    rw [show (⋂ i ∈ S, (fun ω : (Nat → ℝ) × (Nat → ℝ) => ω.1 i) ⁻¹' sets i) = ⋂ i ∈ S, Prod.fst ⁻¹' ((fun ω : Nat → ℝ => ω i) ⁻¹' sets i) from rfl, h4]
    exact Finset.prod_congr rfl fun i _ => (hf _).symm
  · have : (P.prod P).map (fun ω : (Nat → ℝ) × (Nat → ℝ) => ω.1 k) = ((P.prod P).map Prod.fst).map fun z => z k := by
      rw [Measure.map_map (measurable_pi_apply k) measurable_fst]; rfl
    rw [this]
    simpa using hP.law k
  · exact (indepFun_prod (X := fun z : Nat → ℝ => z) (Y := fun (z : Nat → ℝ) (i : Nat) => if i < n - 1 then ((chiRange n).getD i 0 : ℝ) * z i ^ 2 else 0) measurable_id hf).symm

-- C141, C142: independent normal draws exist, with exact routines (see C140); a rotation which is not trivial is orthogonal
example : (!![0, -1; 1, 0] : Matrix (Fin 2) (Fin 2) ℝ) ∈ Matrix.orthogonalGroup (Fin 2) ℝ ∧ (!![0, Complex.I; 1, 0] : Matrix (Fin 2) (Fin 2) ℂ) ∈ Matrix.unitaryGroup (Fin 2) ℂ := by
  constructor
  · rw [Matrix.mem_orthogonalGroup_iff]
    ext i j
    fin_cases i <;> fin_cases j <;> simp [Matrix.mul_apply, Fin.sum_univ_two]
  · rw [Matrix.mem_unitaryGroup_iff]
    ext i j
    fin_cases i <;> fin_cases j <;> simp [Matrix.mul_apply, Fin.sum_univ_two]

example (n : Nat) (h : n ≤ 500) (O : Matrix (Fin n) (Fin n) ℝ) (hO : O ∈ Matrix.orthogonalGroup (Fin n) ℝ) :=
  C141_orthogonal streamRng (Measure.infinitePi fun _ : ℕ => gaussianReal 0 1) id stream_draws n true (Or.inl h) O hO

end Props
end RMT
