import Verif.Lemmas.Gauss
import Verif.Props.Generate
import Verif.Props.TimeSeries
import Verif.Props.Ensemble
import Mathlib.LinearAlgebra.Matrix.Charpoly.Coeff
import Mathlib.Probability.Independence.InfinitePi
import Mathlib.Analysis.Matrix.Spectrum

/-!
# Property C140: spacings of generated spectra with two levels
-/

namespace RMT
namespace Props
open Gen EigValsM EigM Unfold MeasureTheory ProbabilityTheory Ensembles Spec Gauss
open Real Set
open scoped RealInnerProductSpace

variable {σ Ω : Type} [MeasurableSpace Ω]

/-- A routine which is exact on complex Hermitian matrices: it returns the roots of the characteristic polynomial with multiplicity. -/
def ExactHermitian (eigvalsh : (n : Nat) → Matrix (Fin n) (Fin n) ℂ → List ℝ) : Prop :=
  ∀ n (M : Matrix (Fin n) (Fin n) ℂ), M.IsHermitian → ((eigvalsh n M : Multiset ℝ).map fun (x : ℝ) => (x : ℂ)) = M.charpoly.roots

theorem roots_two {R : Type} [CommRing R] [IsDomain R] (M : Matrix (Fin 2) (Fin 2) R) (a b : R) (h1 : a + b = M 0 0 + M 1 1) (h2 : a * b = M 0 0 * M 1 1 - M 0 1 * M 1 0) :
    M.charpoly.roots = {a, b} := by
  have h : M.charpoly = (Polynomial.X - Polynomial.C a) * (Polynomial.X - Polynomial.C b) := by
    rw [Matrix.charpoly_fin_two, Matrix.trace_fin_two, Matrix.det_fin_two, ← h1, ← h2]
    simp only [Polynomial.C_add, Polynomial.C_mul]
    ring
  rw [h, Polynomial.roots_mul (mul_ne_zero (Polynomial.X_sub_C_ne_zero a) (Polynomial.X_sub_C_ne_zero b)), Polynomial.roots_X_sub_C, Polynomial.roots_X_sub_C]
  rfl

/-- Twice the half-distance of the eigenvalues of `[[p, r], [r*, q]]`, where `c` is the squared modulus of `r`. -/
noncomputable def gap (p q c : ℝ) : ℝ := √((p - q) ^ 2 + 4 * c)

theorem gap_nonneg (p q c : ℝ) : 0 ≤ gap p q c := Real.sqrt_nonneg _

theorem sorted_pair (l : List ℝ) (a b : ℝ) (hab : a ≤ b) (h : (l : Multiset ℝ) = {a, b}) : npSort l = [a, b] := by
  have hp : l.Perm [a, b] := Multiset.coe_eq_coe.mp h
  rw [npSort_eq_of_perm hp]
  exact npSort_of_ascending _ (by simp [Ascending, hab])

/-- The two levels. -/
noncomputable def lower (p q c : ℝ) : ℝ := ((p + q) - gap p q c) / 2
/-- The two levels. -/
noncomputable def upper (p q c : ℝ) : ℝ := ((p + q) + gap p q c) / 2

theorem two_sqrt (x : ℝ) : 2 * √x = √(4 * x) := by
  rw [Real.sqrt_mul (by norm_num), show (4 : ℝ) = 2 ^ 2 by norm_num, Real.sqrt_sq (by norm_num)]

theorem levels (p q c : ℝ) (hc : 0 ≤ c) : lower p q c ≤ upper p q c ∧ upper p q c - lower p q c = gap p q c ∧
    lower p q c + upper p q c = p + q ∧ lower p q c * upper p q c = p * q - c := by
  have h0 := gap_nonneg p q c
  have hs : gap p q c ^ 2 = (p - q) ^ 2 + 4 * c := Real.sq_sqrt (by positivity)
  refine ⟨by unfold lower upper; linarith, by unfold lower upper; ring, by unfold lower upper; ring, ?_⟩
  unfold lower upper
  linear_combination (-1 / 4) * hs

theorem real_two (eh : EigSolver) (hs : ExactSolver eh) (M : Matrix (Fin 2) (Fin 2) ℝ) (hM : M.IsSymm) :
    npSort (eh 2 M) = [lower (M 0 0) (M 1 1) (M 0 1 ^ 2), upper (M 0 0) (M 1 1) (M 0 1 ^ 2)] := by
  obtain ⟨h1, -, h3, h4⟩ := levels (M 0 0) (M 1 1) (M 0 1 ^ 2) (sq_nonneg _)
  refine sorted_pair _ _ _ h1 ?_
  rw [hs 2 M hM]
  have : M 1 0 = M 0 1 := hM.apply 0 1
  exact roots_two M _ _ h3 (by rw [h4, this]; ring)

theorem complex_two (eh : (n : Nat) → Matrix (Fin n) (Fin n) ℂ → List ℝ) (hs : ExactHermitian eh) (M : Matrix (Fin 2) (Fin 2) ℂ) (hM : M.IsHermitian) :
    npSort (eh 2 M) = [lower (M 0 0).re (M 1 1).re (Complex.normSq (M 0 1)), upper (M 0 0).re (M 1 1).re (Complex.normSq (M 0 1))] := by
  obtain ⟨h1, -, h3, h4⟩ := levels (M 0 0).re (M 1 1).re (Complex.normSq (M 0 1)) (Complex.normSq_nonneg _)
  refine sorted_pair _ _ _ h1 ?_
  have hd : ∀ i, M i i = ((M i i).re : ℂ) := by
    intro i
    have := hM.apply i i
    exact (Complex.conj_eq_iff_re.mp this).symm
  have ho : M 1 0 = star (M 0 1) := (hM.apply 1 0).symm
  have hr := hs 2 M hM
  rw [roots_two M (lower (M 0 0).re (M 1 1).re (Complex.normSq (M 0 1)) : ℂ) (upper (M 0 0).re (M 1 1).re (Complex.normSq (M 0 1)) : ℂ)
    (by rw [← Complex.ofReal_add, h3, Complex.ofReal_add, ← hd, ← hd])
    (by rw [← Complex.ofReal_mul, h4, Complex.ofReal_sub, Complex.ofReal_mul, ← hd, ← hd, ho]
        congr 1
        exact (Complex.mul_conj _).symm)] at hr
  apply Multiset.map_injective Complex.ofReal_injective
  rw [hr]
  rfl

/-- The law of a multiple of the norm of a standard Gaussian vector, divided by its mean. -/
theorem scaled_norm (P : Measure Ω) {d : Nat} (hd : 0 < d) (W : Ω → EuclideanSpace ℝ (Fin d)) (hW : Measurable W)
    (hl : P.map W = stdGaussian (EuclideanSpace ℝ (Fin d))) (c : ℝ) (hc : 0 < c) (G : Ω → ℝ) (hG : ∀ ω, G ω = c * ‖W ω‖) :
    ∫ ω, G ω ∂P = c * (mom d / mom (d - 1)) ∧
    P.map (fun ω => G ω / ∫ ω', G ω' ∂P) = (volume.restrict (Ioi 0)).withDensity fun s => ENNReal.ofReal (radial d (mom d / mom (d - 1)) s) := by
  have hfr : Module.finrank ℝ (EuclideanSpace ℝ (Fin d)) = d := by simp
  have : Nonempty (Fin d) := ⟨⟨0, hd⟩⟩
  have hm : ∫ ω, G ω ∂P = c * (mom d / mom (d - 1)) := by
    simp only [hG]
    rw [integral_const_mul]
    congr 1
    have h := mean_norm (E := EuclideanSpace ℝ (Fin d))
    rw [hfr] at h
    rw [← h, ← hl, integral_map hW.aemeasurable (by fun_prop)]
  refine ⟨hm, ?_⟩
  have hpos : 0 < mom d / mom (d - 1) := div_pos (mom_pos _) (mom_pos _)
  have h := law_norm (E := EuclideanSpace ℝ (Fin d)) _ hpos
  rw [hfr] at h
  rw [← h, ← hl, Measure.map_map (by fun_prop) hW]
  congr 1
  ext ω
  rw [hm, hG, Function.comp]
  field_simp

theorem radial_one (s : ℝ) : radial 1 (mom 1 / mom (1 - 1)) s = 2 / π * exp (-(s * s) / π) := by
  have h := mom_zero
  have hp := pi_pos
  have hsq : √(π / 2) ^ 2 = π / 2 := Real.sq_sqrt (by positivity)
  have hne : √(π / 2) ≠ 0 := by positivity
  simp only [radial, Nat.sub_self, h, mom_one, pow_zero, one_mul]
  rw [mul_comm, mul_div_assoc, mul_comm]
  congr 1
  · rw [div_div, ← sq, hsq]; field_simp
  · congr 1
    rw [mul_pow, div_pow, hsq]
    field_simp

theorem radial_two (s : ℝ) : radial 2 (mom 2 / mom (2 - 1)) s = goeDensity s := by
  have h2 : mom 2 = √(π / 2) := by rw [mom_succ 0, mom_zero]; norm_num
  have hp := pi_pos
  have hsq : √(π / 2) ^ 2 = π / 2 := Real.sq_sqrt (by positivity)
  simp only [radial, show 2 - 1 = 1 from rfl, h2, mom_one, pow_one, div_one, goeDensity]
  rw [← mul_assoc, ← mul_assoc, ← sq, mul_pow, hsq]
  congr 1
  · ring
  · congr 1; ring

theorem radial_three (s : ℝ) : radial 3 (mom 3 / mom (3 - 1)) s = gueDensity s := by
  have h2 : mom 2 = √(π / 2) := by rw [mom_succ 0, mom_zero]; norm_num
  have h3 : mom 3 = 2 := by rw [mom_succ 1, mom_one]; norm_num
  have hp := pi_pos
  have hsq : √(π / 2) ^ 2 = π / 2 := Real.sq_sqrt (by positivity)
  have hne : √(π / 2) ≠ 0 := by positivity
  simp only [radial, show 3 - 1 = 2 from rfl, h2, h3, gueDensity]
  have e1 : (2 / √(π / 2) * s) ^ 2 = 8 / π * (s * s) := by
    rw [mul_pow, div_pow, hsq]; field_simp; ring
  rw [e1, ← mul_assoc, mul_div_right_comm]
  congr 1
  · have : (2 : ℝ) / √(π / 2) * (8 / π * (s * s)) / √(π / 2) = 16 / π * (s * s) / (√(π / 2) ^ 2) := by field_simp; ring
    rw [this, hsq]
    field_simp
    ring
  · congr 1
    field_simp
    ring

/-- The combinations of four, eight and two draws which make up the spacing: standard Gaussian vectors again. -/
theorem law_pair (P : Measure Ω) [IsProbabilityMeasure P] (X : Nat → Ω → ℝ) (hX : NormalDraws P X) :
    P.map (fun ω => (WithLp.toLp 2 ![(X 0 ω - X 3 ω) / √2, (X 1 ω + X 2 ω) / √2] : EuclideanSpace ℝ (Fin 2))) = stdGaussian (EuclideanSpace ℝ (Fin 2)) ∧
    P.map (fun ω => (WithLp.toLp 2 ![(X 0 ω - X 3 ω) / √2, (X 1 ω + X 2 ω) / √2, (X 5 ω - X 6 ω) / √2] : EuclideanSpace ℝ (Fin 3))) = stdGaussian (EuclideanSpace ℝ (Fin 3)) ∧
    P.map (fun ω => (WithLp.toLp 2 ![(X 0 ω - X 1 ω) / √2] : EuclideanSpace ℝ (Fin 1))) = stdGaussian (EuclideanSpace ℝ (Fin 1)) := by
  have hs : √2 * √2 = (2 : ℝ) := Real.mul_self_sqrt (by norm_num)
  have hs2 : √2 ^ 2 = (2 : ℝ) := Real.sq_sqrt (by norm_num)
  have h0 : √(2 : ℝ) ≠ 0 := by positivity
  have hl := law_draws P X hX (ι := Fin 8) (fun i => i.val) Fin.val_injective
  have hm := measurable_draws X hX.measurable (ι := Fin 8) (fun i => i.val)
  have key : ∀ (d : Nat) (T : EuclideanSpace ℝ (Fin 8) → EuclideanSpace ℝ (Fin d)) (S : EuclideanSpace ℝ (Fin d) → EuclideanSpace ℝ (Fin 8)),
      Measurable T → (∀ x t, ∑ i, T x i * t i = ∑ i, x i * S t i) → (∀ t, ∑ i, S t i * S t i = ∑ i, t i * t i) →
      P.map (fun ω => T (WithLp.toLp 2 fun i => X i.val ω)) = stdGaussian (EuclideanSpace ℝ (Fin d)) := by
    intro d T S hT h1 h2
    rw [← map_coisometry T S hT ?_ ?_, ← hl, Measure.map_map hT hm]
    · rfl
    · intro x t
      simpa [PiLp.inner_apply, mul_comm] using h1 x t
    · intro t
      rw [EuclideanSpace.norm_eq, EuclideanSpace.norm_eq]
      congr 1
      simpa [sq] using h2 t
  refine ⟨?_, ?_, ?_⟩
  · refine key 2 (fun v => WithLp.toLp 2 ![(v 0 - v 3) / √2, (v 1 + v 2) / √2])
      (fun t => WithLp.toLp 2 ![t 0 / √2, t 1 / √2, t 1 / √2, -t 0 / √2, 0, 0, 0, 0]) ?_ ?_ ?_
    · apply (WithLp.measurable_toLp 2 _).comp
      refine measurable_pi_lambda _ fun i => ?_
      fin_cases i <;> simp <;> fun_prop
    · intro x t
      simp [Fin.sum_univ_succ]
      field_simp
      ring_nf
    · intro t
      simp [Fin.sum_univ_succ]
      field_simp
      rw [hs2]
      ring
  · refine key 3 (fun v => WithLp.toLp 2 ![(v 0 - v 3) / √2, (v 1 + v 2) / √2, (v 5 - v 6) / √2])
      (fun t => WithLp.toLp 2 ![t 0 / √2, t 1 / √2, t 1 / √2, -t 0 / √2, 0, t 2 / √2, -t 2 / √2, 0]) ?_ ?_ ?_
    · apply (WithLp.measurable_toLp 2 _).comp
      refine measurable_pi_lambda _ fun i => ?_
      fin_cases i <;> simp <;> fun_prop
    · intro x t
      simp [Fin.sum_univ_succ]
      field_simp
      ring_nf
    · intro t
      simp [Fin.sum_univ_succ]
      field_simp
      rw [hs2]
      ring
  · refine key 1 (fun v => WithLp.toLp 2 ![(v 0 - v 1) / √2])
      (fun t => WithLp.toLp 2 ![t 0 / √2, -t 0 / √2, 0, 0, 0, 0, 0, 0]) ?_ ?_ ?_
    · apply (WithLp.measurable_toLp 2 _).comp
      refine measurable_pi_lambda _ fun i => ?_
      fin_cases i <;> simp <;> fun_prop
    · intro x t
      simp [Fin.sum_univ_succ]
      field_simp
      ring_nf
    · intro t
      simp [Fin.sum_univ_succ]
      field_simp
      rw [hs2]
      ring

/-- The spacing of a spectrum with two levels. -/
def spacingOf : List ℝ → ℝ
  | [a, b] => b - a
  | _ => 0

/-- `vals ω` are the values of the object which `generate(2, kind)` returns. -/
def GeneratedPair (R : Rng σ) (eh : EigSolver) (ehC : (n : Nat) → Matrix (Fin n) (Fin n) ℂ → List ℝ) (k : MatrixKind) (tri : Bool) (e s : Ω → σ) (vals : Ω → List ℝ) : Prop :=
  ∀ ω, ∃ o, (generate R eh ehC 2 (.kind k) none tri (e ω) (s ω)).1 = .ok (o, k) ∧ o.vals = vals ω

/-- The random variable `G`, divided by its mean, has density `f` on the positive half-line. -/
def ScaledLaw (P : Measure Ω) (G : Ω → ℝ) (f : ℝ → ℝ) : Prop :=
  P.map (fun ω => G ω / ∫ ω', G ω' ∂P) = (volume.restrict (Ioi 0)).withDensity fun s => ENNReal.ofReal (f s)

theorem goeCdf_integral (s : ℝ) (hs : 0 ≤ s) : ∫ x in Ioc 0 s, goeDensity x = goeCdf s := by
  rw [← intervalIntegral.integral_of_le hs,
    intervalIntegral.integral_eq_sub_of_hasDerivAt_of_le hs (f := goeCdf) (f' := goeDensity) ?_ (fun x hx => C67_goe.2.2.2.2 x hx.1) ?_]
  · rw [C67_goe.1 0 le_rfl, sub_zero]
  · unfold goeCdf clip0; fun_prop
  · unfold goeDensity; exact (by fun_prop : Continuous fun s : ℝ => ((π * s) / 2) * exp (-(π / 4) * s * s)).intervalIntegrable _ _

theorem cdf_of_law (P : Measure Ω) [IsProbabilityMeasure P] (G : Ω → ℝ) (hG : AEMeasurable G P) (h : ScaledLaw P G goeDensity) (s : ℝ) :
    P.real {ω | G ω / ∫ ω', G ω' ∂P ≤ s} = goeCdf s := by
  have e : P {ω | G ω / ∫ ω', G ω' ∂P ≤ s} = P.map (fun ω => G ω / ∫ ω', G ω' ∂P) (Iic s) := by
    rw [Measure.map_apply_of_aemeasurable (hG.div_const _) measurableSet_Iic]; rfl
  rw [measureReal_def, e, h, withDensity_apply _ measurableSet_Iic, Measure.restrict_restrict measurableSet_Iic, inter_comm, Ioi_inter_Iic]
  rcases lt_or_ge s 0 with hs | hs
  · rw [Ioc_eq_empty (by linarith), C67_goe.1 s hs.le]; simp
  · have hc : Continuous goeDensity := by unfold goeDensity; fun_prop
    rw [← ofReal_integral_eq_lintegral_ofReal, goeCdf_integral s hs, ENNReal.toReal_ofReal]
    · rw [← goeCdf_integral s hs]
      exact setIntegral_nonneg measurableSet_Ioc fun x hx => (C66_density .goe).1.1 x hx.1.le
    · exact hc.integrableOn_Ioc
    · exact (ae_restrict_iff' measurableSet_Ioc).mpr (Filter.Eventually.of_forall fun x hx => (C66_density .goe).1.1 x hx.1.le)

/-- **C140 (GOE).** If the normal draws are independent and the eigenvalue routine is exact, `generate(2, "goe")` returns two ascending values; their spacing has mean `√(2π)`, and divided by its mean it has exactly the density
`GOE.nnsd`: the probability that it is at most `s` times its mean is `GOE.nnsd_cdf` at `s`, for every `s`. -/
theorem C140_goe (R : Rng σ) (eh : EigSolver) (ehC : (n : Nat) → Matrix (Fin n) (Fin n) ℂ → List ℝ) (hs : ExactSolver eh)
    (P : Measure Ω) [IsProbabilityMeasure P] (e s : Ω → σ) (hX : NormalDraws P fun k ω => draw R (s ω) k) (tri : Bool) :
    ∃ vals, GeneratedPair R eh ehC .goe tri e s vals ∧ (∀ ω, (vals ω).length = 2 ∧ Ascending (vals ω)) ∧
      ∫ ω, spacingOf (vals ω) ∂P = √(2 * π) ∧ ScaledLaw P (fun ω => spacingOf (vals ω)) goeDensity ∧
      ∀ t, P.real {ω | spacingOf (vals ω) / √(2 * π) ≤ t} = goeCdf t := by
  set M := fun ω => (goeMatrix R 2 none tri (s ω)).1 with hM
  have hsym : ∀ ω, (M ω).IsSymm := fun ω => (C49_symmetric R 2 none tri (s ω)).1
  have hent : ∀ ω i j, M ω i j = (draw R (s ω) (i.val * 2 + j.val) + draw R (s ω) (j.val * 2 + i.val)) / √2 := fun ω i j => by
    have := C49_goe R 2 none tri (s ω) (Or.inl (by norm_num)) i j
    exact this
  refine ⟨fun ω => npSort (eh 2 (M ω)), fun ω => (C49_values R eh ehC 2 none tri (e ω) (s ω)).1, fun ω => ⟨?_, npSort_ascending _⟩, ?_⟩
  · simp only [real_two eh hs _ (hsym ω)]; rfl
  have hG : ∀ ω, spacingOf (npSort (eh 2 (M ω))) =
      2 * ‖(WithLp.toLp 2 ![(draw R (s ω) 0 - draw R (s ω) 3) / √2, (draw R (s ω) 1 + draw R (s ω) 2) / √2] : EuclideanSpace ℝ (Fin 2))‖ := by
    intro ω
    have hs2 : √2 ^ 2 = (2 : ℝ) := Real.sq_sqrt (by norm_num)
    rw [real_two eh hs _ (hsym ω)]
    simp only [spacingOf]
    rw [(levels _ _ _ (sq_nonneg _)).2.1, gap, EuclideanSpace.norm_eq]
    rw [two_sqrt]
    congr 1
    simp [hent, Fin.sum_univ_two, div_pow, hs2]
    field_simp
    rw [hs2]
    ring
  have hW : Measurable fun ω => (WithLp.toLp 2 ![(draw R (s ω) 0 - draw R (s ω) 3) / √2, (draw R (s ω) 1 + draw R (s ω) 2) / √2] : EuclideanSpace ℝ (Fin 2)) := by
    have h0 := hX.measurable 0
    have h1 := hX.measurable 1
    have h2 := hX.measurable 2
    have h3 := hX.measurable 3
    apply (WithLp.measurable_toLp 2 _).comp
    refine measurable_pi_lambda _ fun i => ?_
    fin_cases i <;> simp <;> fun_prop
  obtain ⟨m1, m2⟩ := scaled_norm P (by norm_num) _ hW (law_pair P _ hX).1 2 (by norm_num) _ hG
  simp_rw [radial_two] at m2
  have hm : ∫ ω, spacingOf (npSort (eh 2 (M ω))) ∂P = √(2 * π) := by
    rw [m1]
    have h2 : mom 2 = √(π / 2) := by rw [mom_succ 0, mom_zero]; norm_num
    rw [show 2 - 1 = 1 from rfl, mom_one, h2, div_one]
    rw [two_sqrt]
    congr 1
    ring
  refine ⟨hm, m2, fun t => ?_⟩
  have := cdf_of_law P (fun ω => spacingOf (npSort (eh 2 (M ω)))) (by simp only [hG]; exact (hW.norm.const_mul 2).aemeasurable) m2 t
  rwa [hm] at this

/-- **C140 (GUE).** Likewise for `generate(2, "gue")`: the mean spacing is `4/√π`, and the density is `GUE.nnsd`. -/
theorem C140_gue (R : Rng σ) (eh : EigSolver) (ehC : (n : Nat) → Matrix (Fin n) (Fin n) ℂ → List ℝ) (hs : ExactHermitian ehC)
    (P : Measure Ω) [IsProbabilityMeasure P] (e s : Ω → σ) (hX : NormalDraws P fun k ω => draw R (s ω) k) (tri : Bool) :
    ∃ vals, GeneratedPair R eh ehC .gue tri e s vals ∧ (∀ ω, (vals ω).length = 2 ∧ Ascending (vals ω)) ∧
      ∫ ω, spacingOf (vals ω) ∂P = 4 / √π ∧ ScaledLaw P (fun ω => spacingOf (vals ω)) gueDensity := by
  set M := fun ω => (generateGUE R 2 none (s ω)).1 with hM
  have hsym : ∀ ω, (M ω).IsHermitian := fun ω => (C49_symmetric R 2 none tri (s ω)).2
  have hent : ∀ ω i j, (M ω i j).re = (draw R (s ω) (i.val * 2 + j.val) + draw R (s ω) (j.val * 2 + i.val)) / 2 ∧
      (M ω i j).im = (draw R (s ω) (2 * 2 + (i.val * 2 + j.val)) - draw R (s ω) (2 * 2 + (j.val * 2 + i.val))) / 2 := fun ω i j => by
    have := C49_gue R 2 none (s ω) i j
    exact this
  refine ⟨fun ω => npSort (ehC 2 (M ω)), fun ω => (C49_values R eh ehC 2 none tri (e ω) (s ω)).2.1, fun ω => ⟨?_, npSort_ascending _⟩, ?_⟩
  · simp only [complex_two ehC hs _ (hsym ω)]; rfl
  have hG : ∀ ω, spacingOf (npSort (ehC 2 (M ω))) =
      √2 * ‖(WithLp.toLp 2 ![(draw R (s ω) 0 - draw R (s ω) 3) / √2, (draw R (s ω) 1 + draw R (s ω) 2) / √2, (draw R (s ω) 5 - draw R (s ω) 6) / √2] : EuclideanSpace ℝ (Fin 3))‖ := by
    intro ω
    have hs2 : √2 ^ 2 = (2 : ℝ) := Real.sq_sqrt (by norm_num)
    rw [complex_two ehC hs _ (hsym ω)]
    simp only [spacingOf]
    rw [(levels _ _ _ (Complex.normSq_nonneg _)).2.1, gap, EuclideanSpace.norm_eq, ← Real.sqrt_mul (by norm_num)]
    congr 1
    simp [hent, Fin.sum_univ_succ, div_pow, hs2, Complex.normSq_apply]
    field_simp
    ring
  have hW : Measurable fun ω => (WithLp.toLp 2 ![(draw R (s ω) 0 - draw R (s ω) 3) / √2, (draw R (s ω) 1 + draw R (s ω) 2) / √2, (draw R (s ω) 5 - draw R (s ω) 6) / √2] : EuclideanSpace ℝ (Fin 3)) := by
    have h0 := hX.measurable 0
    have h1 := hX.measurable 1
    have h2 := hX.measurable 2
    have h3 := hX.measurable 3
    have h5 := hX.measurable 5
    have h6 := hX.measurable 6
    apply (WithLp.measurable_toLp 2 _).comp
    refine measurable_pi_lambda _ fun i => ?_
    fin_cases i <;> simp <;> fun_prop
  obtain ⟨m1, m2⟩ := scaled_norm P (by norm_num) _ hW (law_pair P _ hX).2.1 (√2) (by positivity) _ hG
  refine ⟨?_, ?_⟩
  · rw [m1]
    have h2 : mom 2 = √(π / 2) := by rw [mom_succ 0, mom_zero]; norm_num
    have h3 : mom 3 = 2 := by rw [mom_succ 1, mom_one]; norm_num
    rw [show 3 - 1 = 2 from rfl, h2, h3, Real.sqrt_div pi_pos.le]
    have hs2 : √2 * √2 = (2 : ℝ) := Real.mul_self_sqrt (by norm_num)
    have hp : √π ≠ 0 := by positivity
    field_simp
    linarith
  · simp only [ScaledLaw]
    simp_rw [radial_three] at m2
    exact m2

/-- **C140 refuted for Poisson.** For `generate(2, "poisson")` the spacing divided by its mean has the density `(2/π) exp(-s²/π)` of the distance of two normal values; it does not have the density `Poisson.nnsd`. -/
theorem C140_poisson_refuted (R : Rng σ) (eh : EigSolver) (ehC : (n : Nat) → Matrix (Fin n) (Fin n) ℂ → List ℝ)
    (P : Measure Ω) [IsProbabilityMeasure P] (e s : Ω → σ) (hX : NormalDraws P fun k ω => draw R (e ω) k) (tri : Bool) :
    ∃ vals, GeneratedPair R eh ehC .poisson tri e s vals ∧ (∀ ω, (vals ω).length = 2 ∧ Ascending (vals ω)) ∧
      ∫ ω, spacingOf (vals ω) ∂P = 2 / √π ∧ ScaledLaw P (fun ω => spacingOf (vals ω)) (fun s => 2 / π * exp (-(s * s) / π)) ∧
      ¬ ScaledLaw P (fun ω => spacingOf (vals ω)) poissonDensity := by
  have hlist : ∀ ω, (normals R 2 (e ω)).1 = [draw R (e ω) 0, draw R (e ω) 1] := fun ω => by
    rw [normals_draws]; simp [List.range_succ]
  have hsort : ∀ ω, npSort (normals R 2 (e ω)).1 = [min (draw R (e ω) 0) (draw R (e ω) 1), max (draw R (e ω) 0) (draw R (e ω) 1)] := by
    intro ω
    rw [hlist]
    refine sorted_pair _ _ _ (min_le_max) ?_
    rcases le_total (draw R (e ω) 0) (draw R (e ω) 1) with h | h
    · rw [min_eq_left h, max_eq_right h]; rfl
    · rw [min_eq_right h, max_eq_left h]; exact Multiset.pair_comm _ _
  refine ⟨fun ω => npSort (normals R 2 (e ω)).1, fun ω => ?_, fun ω => ⟨by simp only [hsort]; rfl, npSort_ascending _⟩, ?_⟩
  · obtain ⟨o, h1, -, h3⟩ := (C49_values R eh ehC 2 none tri (e ω) (s ω)).2.2
    exact ⟨o, h1, h3⟩
  have hG : ∀ ω, spacingOf (npSort (normals R 2 (e ω)).1) =
      √2 * ‖(WithLp.toLp 2 ![(draw R (e ω) 0 - draw R (e ω) 1) / √2] : EuclideanSpace ℝ (Fin 1))‖ := by
    intro ω
    have hp : (0 : ℝ) < √2 := by positivity
    rw [hsort, spacingOf, EuclideanSpace.norm_eq, max_sub_min_eq_abs']
    simp [abs_div, Real.sqrt_sq_eq_abs, abs_of_pos hp]
    field_simp
  have hW : Measurable fun ω => (WithLp.toLp 2 ![(draw R (e ω) 0 - draw R (e ω) 1) / √2] : EuclideanSpace ℝ (Fin 1)) := by
    have h0 := hX.measurable 0
    have h1 := hX.measurable 1
    apply (WithLp.measurable_toLp 2 _).comp
    refine measurable_pi_lambda _ fun i => ?_
    fin_cases i
    simp
    fun_prop
  obtain ⟨m1, m2⟩ := scaled_norm P (by norm_num) _ hW (law_pair P _ hX).2.2 (√2) (by positivity) _ hG
  simp_rw [radial_one] at m2
  refine ⟨?_, m2, fun h => ?_⟩
  · rw [m1, show 1 - 1 = 0 from rfl, mom_one, mom_zero, Real.sqrt_div pi_pos.le]
    have hs2 : √2 * √2 = (2 : ℝ) := Real.mul_self_sqrt (by norm_num)
    have hp : √π ≠ 0 := by positivity
    field_simp
    linarith
  · have heq := congrArg (fun μ => μ (Ioo 0 (1 / 4))) (m2.symm.trans h)
    simp only [withDensity_apply _ measurableSet_Ioo, Measure.restrict_restrict measurableSet_Ioo, inter_eq_left.mpr Ioo_subset_Ioi_self] at heq
    have hp := pi_gt_three
    have l1 : ∫⁻ s in Ioo (0 : ℝ) (1 / 4), ENNReal.ofReal (2 / π * exp (-(s * s) / π)) ≤ ENNReal.ofReal (2 / 3) * ENNReal.ofReal (1 / 4) := by
      refine (setLIntegral_mono (g := fun _ => ENNReal.ofReal (2 / 3)) measurable_const fun s _ => ENNReal.ofReal_le_ofReal ?_).trans ?_
      · have h1 : exp (-(s * s) / π) ≤ 1 := exp_le_one_iff.mpr (by rw [neg_div]; exact neg_nonpos.mpr (div_nonneg (mul_self_nonneg s) pi_pos.le))
        have h2 : 2 / π ≤ 2 / 3 := div_le_div_of_nonneg_left (by norm_num) (by norm_num) hp.le
        calc 2 / π * exp (-(s * s) / π) ≤ 2 / π * 1 := mul_le_mul_of_nonneg_left h1 (by positivity)
          _ ≤ 2 / 3 := by rw [mul_one]; exact h2
      · rw [setLIntegral_const, Real.volume_Ioo, sub_zero]
    have l2 : ENNReal.ofReal (3 / 4) * ENNReal.ofReal (1 / 4) ≤ ∫⁻ s in Ioo (0 : ℝ) (1 / 4), ENNReal.ofReal (poissonDensity s) := by
      have : ∫⁻ _ in Ioo (0 : ℝ) (1 / 4), ENNReal.ofReal (3 / 4) = ENNReal.ofReal (3 / 4) * ENNReal.ofReal (1 / 4) := by
        rw [setLIntegral_const, Real.volume_Ioo, sub_zero]
      rw [← this]
      refine setLIntegral_mono' measurableSet_Ioo fun s hs => ENNReal.ofReal_le_ofReal ?_
      have := add_one_le_exp (-s)
      have := hs.2
      simp only [poissonDensity]
      linarith
    rw [heq] at l1
    have := l2.trans l1
    rw [← ENNReal.ofReal_mul (by norm_num), ← ENNReal.ofReal_mul (by norm_num), ENNReal.ofReal_le_ofReal_iff (by norm_num)] at this
    norm_num at this


/-- A generator whose state is the stream of all future draws. -/
noncomputable def streamRng : Rng (Nat → ℝ) := ⟨fun _ _ => 0, fun s => (s 0, fun k => s (k + 1)), fun _ s => (0, s)⟩

theorem stream_draws : NormalDraws (Measure.infinitePi fun _ : ℕ => gaussianReal 0 1) fun k (ω : ℕ → ℝ) => draw streamRng ω k := by
  have h : ∀ k (ω : ℕ → ℝ), stateAfter streamRng ω k = fun j => ω (j + k) := by
    intro k
    induction k with
    | zero => intro ω; rfl
    | succ k ih => intro ω; rw [stateAfter, ih]; funext j; simp only [streamRng]; congr 1; omega
  have h2 : (fun k (ω : ℕ → ℝ) => draw streamRng ω k) = fun k ω => id (ω k) := by
    funext k ω
    rw [draw, h]
    simp [streamRng]
  rw [h2]
  exact ⟨fun k => by fun_prop, iIndepFun_infinitePi fun _ => measurable_id, fun k => Measure.infinitePi_map_eval _ k⟩

-- independent normal draws from a generator, and exact routines, exist
example : ∃ e g, ExactSolver e ∧ ExactHermitian g ∧ IsProbabilityMeasure (Measure.infinitePi fun _ : ℕ => gaussianReal 0 1) ∧
    NormalDraws (Measure.infinitePi fun _ : ℕ => gaussianReal 0 1) fun k (ω : ℕ → ℝ) => draw streamRng ω k := by
  classical
  refine ⟨fun _ M => M.charpoly.roots.toList, fun n M => if h : M.IsHermitian then (Finset.univ.val.map h.eigenvalues).toList else [],
    fun _ _ _ => Multiset.coe_toList _, fun n M hM => ?_, inferInstance, stream_draws⟩
  simp only [dif_pos hM]
  rw [Multiset.coe_toList, hM.roots_charpoly_eq_eigenvalues, Multiset.map_map]
  rfl

end Props
end RMT
