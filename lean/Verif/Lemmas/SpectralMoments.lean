import Verif.Lemmas.MomentMethod
import Verif.Props.TridiagonalLaw
import Mathlib.Topology.Algebra.MvPolynomial

/-! # Convergence of the moments of generated GOE spectra -/

namespace RMT.Semi
open MeasureTheory ProbabilityTheory Real Spec Filter Topology Gen EigM Props Gauss EigValsM

variable {Ω : Type} [MeasurableSpace Ω] {P : Measure Ω} [IsProbabilityMeasure P]

/-- The draws as a point of `ℝ^(n × n)`. -/
def pt (X : ℕ → Ω → ℝ) (n : ℕ) (ω : Ω) : Fin n × Fin n → ℝ := fun p => X (p.1.val * n + p.2.val) ω

/-- The sorted levels of the full matrix. -/
noncomputable def full (eh : EigSolver) (X : ℕ → Ω → ℝ) (n : ℕ) (ω : Ω) : List ℝ :=
  npSort (eh n (goeOf (ofRowMajor n ((List.range (n * n)).map fun k => X k ω))))

theorem full_matrix (X : ℕ → Ω → ℝ) (n : ℕ) (ω : Ω) :
    goeOf (ofRowMajor n ((List.range (n * n)).map fun k => X k ω)) = (pm n).map (MvPolynomial.eval (pt X n ω)) := by
  ext i j
  simp only [goeOf, ofRowMajor_draws, pm, Matrix.map_apply, Matrix.of_apply, cc, map_mul, map_add, MvPolynomial.eval_C, MvPolynomial.eval_X, pt]
  ring

theorem eval_tp (n k : ℕ) (v : Fin n × Fin n → ℝ) : MvPolynomial.eval v (tp n k) = (((pm n).map (MvPolynomial.eval v)) ^ k).trace := by
  rw [tp, AddMonoidHom.map_trace]
  congr 1
  exact map_pow (MvPolynomial.eval v).mapMatrix (pm n) k

theorem full_facts (eh : EigSolver) (hs : ExactSolver eh) (X : ℕ → Ω → ℝ) (hX : ∀ k, Measurable (X k)) (n : ℕ) :
    (∀ ω, (full eh X n ω).length = n) ∧ (∀ i : ℕ, Measurable fun ω => (full eh X n ω).getD i 0) ∧
      ∀ ω k, SpectrumM.powSum k (full eh X n ω) = MvPolynomial.eval (pt X n ω) (tp n k) := by
  have hsym : ∀ ω, (goeOf (ofRowMajor n ((List.range (n * n)).map fun k => X k ω))).IsSymm := fun ω => goeOf_symm _
  obtain ⟨h1, h2, h3⟩ := SpectrumM.measurable_eigs (fun ω => goeOf (ofRowMajor n ((List.range (n * n)).map fun k => X k ω)))
    (fun i j => by
      simp only [goeOf, ofRowMajor_draws]
      exact ((hX _).add (hX _)).div_const _)
    (fun ω => symm_hermitian (hsym ω)) (full eh X n) (fun ω => npSort_ascending _) (fun ω => by
      have : (full eh X n ω : Multiset ℝ) = _ := (Multiset.coe_eq_coe.mpr (npSort_perm _)).trans (hs n _ (hsym ω))
      simp [this])
  refine ⟨h1, h2, fun ω k => ?_⟩
  have := h3 ω k
  rw [full_matrix] at this
  rw [eval_tp]
  exact_mod_cast this

/-- The levels divided by `√n`. -/
noncomputable def scaled (eh : EigSolver) (X : ℕ → Ω → ℝ) (n : ℕ) (i : Fin n) (ω : Ω) : ℝ := (full eh X n ω).getD i.val 0 / √n

theorem sum_getD (l : List ℝ) (n : ℕ) (h : l.length = n) (f : ℝ → ℝ) : ∑ i : Fin n, f (l.getD i.val 0) = (l.map f).sum := by
  subst h
  rw [← Fin.sum_univ_getElem]
  rw [← Fin.sum_congr' _ (List.length_map f)]
  refine Finset.sum_congr rfl fun i _ => ?_
  have hi : i.val < l.length := by simpa using i.isLt
  simp [List.getD_eq_getElem?_getD, List.getElem?_eq_getElem hi]

theorem emp_scaled (eh : EigSolver) (hs : ExactSolver eh) (X : ℕ → Ω → ℝ) (hX : ∀ k, Measurable (X k)) (n k : ℕ) (ω : Ω) :
    emp n (fun i => scaled eh X n i ω) (fun y => y ^ k) = MvPolynomial.eval (pt X n ω) (tp n k) / √n ^ (2 + k) := by
  obtain ⟨h1, -, h3⟩ := full_facts eh hs X hX n
  rw [← h3 ω k, emp]
  have h4 := sum_getD (full eh X n ω) n (h1 ω) (fun y => y ^ k)
  simp only [scaled, div_pow]
  rw [← Finset.sum_div, h4, SpectrumM.powSum, pow_add, Real.sq_sqrt (by positivity), div_div, mul_comm]

theorem pt_law (X : ℕ → Ω → ℝ) (hX : NormalDraws P X) (n : ℕ) : P.map (pt X n) = gpi (Fin n × Fin n) :=
  law_pi P (fun p : Fin n × Fin n => X (p.1.val * n + p.2.val)) (fun p => hX.measurable _) (hX.indep.precomp (index_injective n)) _ fun p => hX.law _

theorem pt_measurable (X : ℕ → Ω → ℝ) (hX : ∀ k, Measurable (X k)) (n : ℕ) : Measurable (pt X n) := measurable_pi_lambda _ fun p => hX _

theorem poly_cont {ι : Type} [Fintype ι] (p : MvPolynomial ι ℝ) : Continuous fun v => MvPolynomial.eval v p := MvPolynomial.continuous_eval p

theorem integrable_pt (X : ℕ → Ω → ℝ) (hX : NormalDraws P X) (n : ℕ) (p : MvPolynomial (Fin n × Fin n) ℝ) :
    Integrable (fun ω => MvPolynomial.eval (pt X n ω) p) P := by
  have h := poly_integrable p
  rw [← pt_law X hX n] at h
  exact h.comp_measurable (pt_measurable X hX.measurable n)

theorem integral_pt (X : ℕ → Ω → ℝ) (hX : NormalDraws P X) (n : ℕ) (p : MvPolynomial (Fin n × Fin n) ℝ) :
    ∫ ω, MvPolynomial.eval (pt X n ω) p ∂P = ex p := by
  rw [ex, ← pt_law X hX n, integral_map (pt_measurable X hX.measurable n).aemeasurable (poly_cont p).aestronglyMeasurable]

theorem moment_integrable (eh : EigSolver) (hs : ExactSolver eh) (X : ℕ → Ω → ℝ) (hX : NormalDraws P X) (n k : ℕ) :
    Integrable (fun ω => emp n (fun i => scaled eh X n i ω) fun y => y ^ k) P := by
  simp only [emp_scaled eh hs X hX.measurable]
  exact (integrable_pt X hX n _).div_const _

theorem moment_first (eh : EigSolver) (hs : ExactSolver eh) (X : ℕ → Ω → ℝ) (hX : NormalDraws P X) (n k : ℕ) :
    ∫ ω, emp n (fun i => scaled eh X n i ω) (fun y => y ^ k) ∂P = w n [k] := by
  simp only [emp_scaled eh hs X hX.measurable]
  rw [integral_div, integral_pt X hX, w, W, pp]
  simp

theorem sq_eq (eh : EigSolver) (hs : ExactSolver eh) (X : ℕ → Ω → ℝ) (hX : ∀ k, Measurable (X k)) (n k : ℕ) (ω : Ω) :
    emp n (fun i => scaled eh X n i ω) (fun y => y ^ k) ^ 2 = MvPolynomial.eval (pt X n ω) (pp n [k, k]) / √n ^ (2 * [k, k].length + [k, k].sum) := by
  rw [emp_scaled eh hs X hX, div_pow, ← pow_mul]
  congr 1
  · simp [pp, sq]
  · congr 1
    simp
    ring

theorem sq_integrable (eh : EigSolver) (hs : ExactSolver eh) (X : ℕ → Ω → ℝ) (hX : NormalDraws P X) (n k : ℕ) :
    Integrable (fun ω => emp n (fun i => scaled eh X n i ω) (fun y => y ^ k) ^ 2) P := by
  simp only [sq_eq eh hs X hX.measurable]
  exact (integrable_pt X hX n _).div_const _

theorem moment_second (eh : EigSolver) (hs : ExactSolver eh) (X : ℕ → Ω → ℝ) (hX : NormalDraws P X) (n k : ℕ) :
    ∫ ω, emp n (fun i => scaled eh X n i ω) (fun y => y ^ k) ^ 2 ∂P = w n [k, k] := by
  simp only [sq_eq eh hs X hX.measurable]
  rw [integral_div, integral_pt X hX, w, W]

variable {P : ℕ → Measure Ω} [∀ n, IsProbabilityMeasure (P n)]

/-- The mean squared deviation of each moment tends to 0. -/
theorem tendsto_sq (eh : EigSolver) (hs : ExactSolver eh) (X : ℕ → ℕ → Ω → ℝ) (hX : ∀ n, NormalDraws (P n) (X n)) (k : ℕ) :
    Tendsto (fun n => ∫ ω, (emp n (fun i => scaled eh (X n) n i ω) (fun y => y ^ k) - wig k) ^ 2 ∂(P n)) atTop (𝓝 0) := by
  have h : ∀ n, ∫ ω, (emp n (fun i => scaled eh (X n) n i ω) (fun y => y ^ k) - wig k) ^ 2 ∂(P n) = w n [k, k] - 2 * wig k * w n [k] + wig k ^ 2 := by
    intro n
    have e : ∀ ω, (emp n (fun i => scaled eh (X n) n i ω) (fun y => y ^ k) - wig k) ^ 2 =
        emp n (fun i => scaled eh (X n) n i ω) (fun y => y ^ k) ^ 2 - 2 * wig k * emp n (fun i => scaled eh (X n) n i ω) (fun y => y ^ k) + wig k ^ 2 := by
      intro ω; ring
    simp only [e]
    have i1 := sq_integrable (P := P n) eh hs (X n) (hX n) n k
    have i2 := (moment_integrable (P := P n) eh hs (X n) (hX n) n k).const_mul (2 * (wig k : ℝ))
    have i12 : Integrable (fun ω => emp n (fun i => scaled eh (X n) n i ω) (fun y => y ^ k) ^ 2 - 2 * wig k * emp n (fun i => scaled eh (X n) n i ω) (fun y => y ^ k)) (P n) := i1.sub i2
    rw [integral_add i12 (integrable_const _), integral_sub i1 i2, integral_const_mul, moment_first eh hs (X n) (hX n), moment_second eh hs (X n) (hX n)]
    simp
  simp only [h]
  have h1 := tendsto_w [k]
  have h2 := tendsto_w [k, k]
  have := (h2.sub (h1.const_mul (2 * (wig k : ℝ)))).add_const ((wig k : ℝ) ^ 2)
  have hv : (([k, k].map fun k => (wig k : ℝ)).prod - 2 * (wig k : ℝ) * ([k].map fun k => (wig k : ℝ)).prod + (wig k : ℝ) ^ 2) = 0 := by
    simp; ring
  rwa [hv] at this

theorem abs_le_sq (y δ : ℝ) (hδ : 0 < δ) : |y| ≤ δ + y ^ 2 / δ := by
  have : |y| * δ ≤ δ ^ 2 + y ^ 2 := by rw [← sq_abs y]; nlinarith [sq_nonneg (|y| - δ), abs_nonneg y]
  rw [← sub_nonneg] at this ⊢
  have e : δ + y ^ 2 / δ - |y| = (δ ^ 2 + y ^ 2 - |y| * δ) / δ := by field_simp
  rw [e]; positivity

theorem tendsto_abs (eh : EigSolver) (hs : ExactSolver eh) (X : ℕ → ℕ → Ω → ℝ) (hX : ∀ n, NormalDraws (P n) (X n)) (k : ℕ) :
    Tendsto (fun n => ∫ ω, |emp n (fun i => scaled eh (X n) n i ω) (fun y => y ^ k) - wig k| ∂(P n)) atTop (𝓝 0) := by
  rw [Metric.tendsto_atTop]
  intro ε hε
  obtain ⟨N, hN⟩ := Metric.tendsto_atTop.mp (tendsto_sq (P := P) eh hs X hX k) ((ε / 2) * (ε / 2)) (by positivity)
  refine ⟨N, fun n hn => ?_⟩
  have h := hN n hn
  rw [Real.dist_0_eq_abs, abs_of_nonneg (integral_nonneg fun ω => sq_nonneg _)] at h
  rw [Real.dist_0_eq_abs, abs_of_nonneg (integral_nonneg fun ω => abs_nonneg _)]
  have i0 : Integrable (fun ω => emp n (fun i => scaled eh (X n) n i ω) (fun y => y ^ k) - wig k) (P n) := (moment_integrable eh hs (X n) (hX n) n k).sub (integrable_const _)
  have i1 : Integrable (fun ω => (emp n (fun i => scaled eh (X n) n i ω) (fun y => y ^ k) - wig k) ^ 2) (P n) := by
    have := ((sq_integrable (P := P n) eh hs (X n) (hX n) n k).sub ((moment_integrable (P := P n) eh hs (X n) (hX n) n k).const_mul (2 * (wig k : ℝ)))).add (integrable_const ((wig k : ℝ) ^ 2))
    refine this.congr (Eventually.of_forall fun ω => ?_)
    simp only [Pi.add_apply, Pi.sub_apply]
    ring
  have h2 := integral_mono i0.abs ((integrable_const (ε / 2)).add (i1.div_const (ε / 2))) (fun ω => abs_le_sq _ (ε / 2) (by positivity))
  rw [integral_add' (integrable_const _) (i1.div_const _), integral_const] at h2
  simp only [probReal_univ, one_smul] at h2
  rw [integral_div] at h2
  have h3 : (∫ ω, (emp n (fun i => scaled eh (X n) n i ω) (fun y => y ^ k) - wig k) ^ 2 ∂(P n)) / (ε / 2) < ε / 2 := by
    rwa [div_lt_iff₀ (by positivity)]
  linarith

end RMT.Semi
