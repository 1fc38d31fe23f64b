import Verif.Lemmas.GueMoments
import Verif.Lemmas.SpectralLaw

/-! # Convergence of the moments of generated GUE spectra -/

namespace RMT.Semi
open MeasureTheory ProbabilityTheory Real Spec Filter Topology Gen EigM Props Gauss EigValsM

variable {Ω : Type} [MeasurableSpace Ω]

/-- The draws as a point. -/
def ptC (X : ℕ → Ω → ℝ) (n : ℕ) (ω : Ω) : (Fin n × Fin n) ⊕ (Fin n × Fin n) → ℝ := fun p => X (cindex n p) ω

/-- The matrix built from the draws. -/
noncomputable def gueOf (X : ℕ → Ω → ℝ) (n : ℕ) (ω : Ω) : Matrix (Fin n) (Fin n) ℂ := herm (cmatOf (WithLp.toLp 2 (ptC X n ω)))

/-- The sorted levels. -/
noncomputable def fullC (eh : (n : Nat) → Matrix (Fin n) (Fin n) ℂ → List ℝ) (X : ℕ → Ω → ℝ) (n : ℕ) (ω : Ω) : List ℝ := npSort (eh n (gueOf X n ω))

theorem gueOf_matrix (X : ℕ → Ω → ℝ) (n : ℕ) (ω : Ω) : gueOf X n ω = (hm n).map (MvPolynomial.eval fun i => (ptC X n ω i : ℂ)) := by
  ext i j
  apply Complex.ext
  · simp [gueOf, hm, herm, cmatOf, Matrix.conjTranspose_apply]
  · simp [gueOf, hm, herm, cmatOf, Matrix.conjTranspose_apply]
    ring

theorem gueOf_hermitian (X : ℕ → Ω → ℝ) (n : ℕ) (ω : Ω) : (gueOf X n ω).IsHermitian := by
  ext i j
  simp [gueOf, herm, Matrix.conjTranspose_apply]
  ring

theorem rev_th (n k : ℕ) (x : (Fin n × Fin n) ⊕ (Fin n × Fin n) → ℝ) : rev x (th n k) = (((hm n).map (MvPolynomial.eval fun i => (x i : ℂ))) ^ k).trace := by
  rw [rev, th, AddMonoidHom.map_trace]
  congr 1
  exact map_pow (MvPolynomial.eval fun i => (x i : ℂ)).mapMatrix (hm n) k

theorem fullC_facts (eh : (n : Nat) → Matrix (Fin n) (Fin n) ℂ → List ℝ) (hs : ExactHermitian eh) (X : ℕ → Ω → ℝ) (hX : ∀ k, Measurable (X k)) (n : ℕ) :
    (∀ ω, (fullC eh X n ω).length = n) ∧ (∀ i : ℕ, Measurable fun ω => (fullC eh X n ω).getD i 0) ∧
      ∀ ω k, ((SpectrumM.powSum k (fullC eh X n ω) : ℝ) : ℂ) = rev (ptC X n ω) (th n k) := by
  obtain ⟨h1, h2, h3⟩ := SpectrumM.measurable_eigs (𝕜 := ℂ) (fun ω => gueOf X n ω)
    (fun i j => by
      simp only [gueOf_matrix, hm, Matrix.map_apply, Matrix.of_apply, map_mul, map_add, map_sub, MvPolynomial.eval_C, MvPolynomial.eval_X, ptC]
      have := fun k => Complex.measurable_ofReal.comp (hX k)
      exact (((this _).add (this _)).const_mul _).add (((this _).sub (this _)).const_mul _))
    (fun ω => gueOf_hermitian X n ω) (fullC eh X n) (fun ω => npSort_ascending _) (fun ω => by
      have : (fullC eh X n ω : Multiset ℝ) = (eh n (gueOf X n ω) : Multiset ℝ) := Multiset.coe_eq_coe.mpr (npSort_perm _)
      rw [this]
      exact hs n _ (gueOf_hermitian X n ω))
  refine ⟨h1, h2, fun ω k => ?_⟩
  rw [rev_th, ← gueOf_matrix]
  exact h3 ω k

/-- The levels divided by `√n`. -/
noncomputable def scaledC (eh : (n : Nat) → Matrix (Fin n) (Fin n) ℂ → List ℝ) (X : ℕ → Ω → ℝ) (n : ℕ) (i : Fin n) (ω : Ω) : ℝ := (fullC eh X n ω).getD i.val 0 / √n

theorem emp_scaledC (eh : (n : Nat) → Matrix (Fin n) (Fin n) ℂ → List ℝ) (hs : ExactHermitian eh) (X : ℕ → Ω → ℝ) (hX : ∀ k, Measurable (X k)) (n k : ℕ) (ω : Ω) :
    emp n (fun i => scaledC eh X n i ω) (fun y => y ^ k) = (rev (ptC X n ω) (th n k)).re / √n ^ (2 + k) := by
  obtain ⟨h1, -, h3⟩ := fullC_facts eh hs X hX n
  rw [← h3 ω k, Complex.ofReal_re, emp]
  have h4 := sum_getD (fullC eh X n ω) n (h1 ω) (fun y => y ^ k)
  simp only [scaledC, div_pow]
  rw [← Finset.sum_div, h4, SpectrumM.powSum, pow_add, Real.sq_sqrt (by positivity), div_div, mul_comm]

theorem emp_scaledC_sq (eh : (n : Nat) → Matrix (Fin n) (Fin n) ℂ → List ℝ) (hs : ExactHermitian eh) (X : ℕ → Ω → ℝ) (hX : ∀ k, Measurable (X k)) (n k : ℕ) (ω : Ω) :
    emp n (fun i => scaledC eh X n i ω) (fun y => y ^ k) ^ 2 = (rev (ptC X n ω) (ph n [k, k])).re / √n ^ (2 * [k, k].length + [k, k].sum) := by
  rw [emp_scaledC eh hs X hX, div_pow, ← pow_mul]
  congr 1
  · have h3 := (fullC_facts eh hs X hX n).2.2 ω k
    have : rev (ptC X n ω) (ph n [k, k]) = rev (ptC X n ω) (th n k) * rev (ptC X n ω) (th n k) := by simp [ph, rev]
    rw [this, ← h3, ← Complex.ofReal_mul, Complex.ofReal_re, Complex.ofReal_re, sq]
  · congr 1
    simp
    ring

variable {P : Measure Ω} [IsProbabilityMeasure P]

theorem ptC_law (X : ℕ → Ω → ℝ) (hX : NormalDraws P X) (n : ℕ) : P.map (ptC X n) = gpi ((Fin n × Fin n) ⊕ (Fin n × Fin n)) :=
  law_pi P (fun p => X (cindex n p)) (fun p => hX.measurable _) (hX.indep.precomp (cindex_injective n)) _ fun p => hX.law _

theorem ptC_measurable (X : ℕ → Ω → ℝ) (hX : ∀ k, Measurable (X k)) (n : ℕ) : Measurable (ptC X n) := measurable_pi_lambda _ fun p => hX _

theorem integrable_ptC (X : ℕ → Ω → ℝ) (hX : NormalDraws P X) (n : ℕ) (p : PolC n) : Integrable (fun ω => (rev (ptC X n ω) p)) P := by
  have h := rev_integrable p
  rw [← ptC_law X hX n] at h
  exact h.comp_measurable (ptC_measurable X hX.measurable n)

theorem integral_ptC (X : ℕ → Ω → ℝ) (hX : NormalDraws P X) (n : ℕ) (p : PolC n) : ∫ ω, (rev (ptC X n ω) p).re ∂P = (exC p).re := by
  have h1 : ∫ ω, rev (ptC X n ω) p ∂P = exC p := by
    rw [exC, ← ptC_law X hX n, integral_map (ptC_measurable X hX.measurable n).aemeasurable (rev_measurable p).aestronglyMeasurable]
  rw [← h1]
  exact integral_re (integrable_ptC X hX n p)

theorem momentC_integrable (eh : (n : Nat) → Matrix (Fin n) (Fin n) ℂ → List ℝ) (hs : ExactHermitian eh) (X : ℕ → Ω → ℝ) (hX : NormalDraws P X) (n k : ℕ) :
    Integrable (fun ω => emp n (fun i => scaledC eh X n i ω) fun y => y ^ k) P := by
  simp only [emp_scaledC eh hs X hX.measurable]
  exact (integrable_ptC X hX n _).re.div_const _

theorem momentC_first (eh : (n : Nat) → Matrix (Fin n) (Fin n) ℂ → List ℝ) (hs : ExactHermitian eh) (X : ℕ → Ω → ℝ) (hX : NormalDraws P X) (n k : ℕ) :
    ∫ ω, emp n (fun i => scaledC eh X n i ω) (fun y => y ^ k) ∂P = v n [k] := by
  simp only [emp_scaledC eh hs X hX.measurable]
  rw [integral_div, integral_ptC X hX, v, V, ph]
  simp

theorem sqC_integrable (eh : (n : Nat) → Matrix (Fin n) (Fin n) ℂ → List ℝ) (hs : ExactHermitian eh) (X : ℕ → Ω → ℝ) (hX : NormalDraws P X) (n k : ℕ) :
    Integrable (fun ω => emp n (fun i => scaledC eh X n i ω) (fun y => y ^ k) ^ 2) P := by
  simp only [emp_scaledC_sq eh hs X hX.measurable]
  exact (integrable_ptC X hX n _).re.div_const _

theorem momentC_second (eh : (n : Nat) → Matrix (Fin n) (Fin n) ℂ → List ℝ) (hs : ExactHermitian eh) (X : ℕ → Ω → ℝ) (hX : NormalDraws P X) (n k : ℕ) :
    ∫ ω, emp n (fun i => scaledC eh X n i ω) (fun y => y ^ k) ^ 2 ∂P = v n [k, k] := by
  simp only [emp_scaledC_sq eh hs X hX.measurable]
  rw [integral_div, integral_ptC X hX, v, V]

/-- Convergence in the mean from the first two moments. -/
theorem tendsto_abs_of {P : ℕ → Measure Ω} [∀ n, IsProbabilityMeasure (P n)] (f : ℕ → Ω → ℝ) (c : ℝ) (h1 : ∀ n, Integrable (f n) (P n)) (h2 : ∀ n, Integrable (fun ω => f n ω ^ 2) (P n))
    (t1 : Tendsto (fun n => ∫ ω, f n ω ∂(P n)) atTop (𝓝 c)) (t2 : Tendsto (fun n => ∫ ω, f n ω ^ 2 ∂(P n)) atTop (𝓝 (c * c))) :
    Tendsto (fun n => ∫ ω, |f n ω - c| ∂(P n)) atTop (𝓝 0) := by
  have i1 : ∀ n, Integrable (fun ω => (f n ω - c) ^ 2) (P n) := by
    intro n
    refine (((h2 n).sub ((h1 n).const_mul (2 * c))).add (integrable_const (c ^ 2))).congr (Eventually.of_forall fun ω => ?_)
    simp only [Pi.add_apply, Pi.sub_apply]
    ring
  have e : ∀ n, ∫ ω, (f n ω - c) ^ 2 ∂(P n) = ∫ ω, f n ω ^ 2 ∂(P n) - 2 * c * ∫ ω, f n ω ∂(P n) + c ^ 2 := by
    intro n
    have e : ∀ ω, (f n ω - c) ^ 2 = f n ω ^ 2 - 2 * c * f n ω + c ^ 2 := by intro ω; ring
    simp only [e]
    have i2 := (h1 n).const_mul (2 * c)
    have i12 : Integrable (fun ω => f n ω ^ 2 - 2 * c * f n ω) (P n) := (h2 n).sub i2
    rw [integral_add i12 (integrable_const _), integral_sub (h2 n) i2, integral_const_mul]
    simp
  have hsq : Tendsto (fun n => ∫ ω, (f n ω - c) ^ 2 ∂(P n)) atTop (𝓝 0) := by
    simp only [e]
    have := (t2.sub (t1.const_mul (2 * c))).add_const (c ^ 2)
    have hv : c * c - 2 * c * c + c ^ 2 = 0 := by ring
    rwa [hv] at this
  rw [Metric.tendsto_atTop]
  intro ε hε
  obtain ⟨N, hN⟩ := Metric.tendsto_atTop.mp hsq ((ε / 2) * (ε / 2)) (by positivity)
  refine ⟨N, fun n hn => ?_⟩
  have h := hN n hn
  rw [Real.dist_0_eq_abs, abs_of_nonneg (integral_nonneg fun ω => sq_nonneg _)] at h
  rw [Real.dist_0_eq_abs, abs_of_nonneg (integral_nonneg fun ω => abs_nonneg _)]
  have i0 : Integrable (fun ω => f n ω - c) (P n) := (h1 n).sub (integrable_const _)
  have h2 := integral_mono i0.abs ((integrable_const (ε / 2)).add ((i1 n).div_const (ε / 2))) (fun ω => abs_le_sq _ (ε / 2) (by positivity))
  rw [integral_add' (integrable_const _) ((i1 n).div_const _), integral_const] at h2
  simp only [probReal_univ, one_smul] at h2
  rw [integral_div] at h2
  have h3 : (∫ ω, (f n ω - c) ^ 2 ∂(P n)) / (ε / 2) < ε / 2 := by
    rwa [div_lt_iff₀ (by positivity)]
  linarith

/-- The law of the levels. -/
theorem tendsto_fullC {P : ℕ → Measure Ω} [∀ n, IsProbabilityMeasure (P n)] (eh : (n : Nat) → Matrix (Fin n) (Fin n) ℂ → List ℝ) (hs : ExactHermitian eh) (X : ℕ → ℕ → Ω → ℝ) (hX : ∀ n, NormalDraws (P n) (X n)) (b : ℝ) :
    Tendsto (fun n => ∫ ω, |emp n (fun i => scaledC eh (X n) n i ω) (ind b) - F b| ∂(P n)) atTop (𝓝 0) := by
  have := tendsto_approx (P := P) (fun n => scaledC eh (X n) n) (fun n i => ((fullC_facts eh hs (X n) (hX n).measurable n).2.1 i.val).div_const _)
    (fun n k => momentC_integrable eh hs (X n) (hX n) n k)
    (fun k => by
      refine tendsto_abs_of _ _ (fun n => momentC_integrable eh hs (X n) (hX n) n k) (fun n => sqC_integrable eh hs (X n) (hX n) n k) ?_ ?_
      · have := tendsto_v [k]
        simp only [momentC_first eh hs _ (hX _)]
        simpa using this
      · have := tendsto_v [k, k]
        simp only [momentC_second eh hs _ (hX _)]
        simpa using this)
    (ind b) (ind_measurable b) (ind_integrable b) (approx_ind b)
  rwa [F_ind] at this

end RMT.Semi
