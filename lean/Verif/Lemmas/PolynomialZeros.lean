import Verif.Spec.Normal
import Verif.Lemmas.SpectrumMeasurable
import Verif.Props.TridiagonalLaw
import Mathlib.Algebra.MvPolynomial.Equiv
import Mathlib.Algebra.MvPolynomial.Polynomial
import Mathlib.LinearAlgebra.Vandermonde
import Mathlib.Topology.Algebra.MvPolynomial

/-! # Polynomials in independent normal draws almost surely do not vanish -/

namespace RMT.Gauss
open MeasureTheory ProbabilityTheory Real MvPolynomial Spec

/-- The value of a complex polynomial at a real point. -/
noncomputable def rev {ι : Type} (x : ι → ℝ) (p : MvPolynomial ι ℂ) : ℂ := eval (fun i => (x i : ℂ)) p

theorem rev_measurable {ι : Type} [Fintype ι] (p : MvPolynomial ι ℂ) : Measurable fun x : ι → ℝ => rev x p := by
  have h1 : Continuous fun x : ι → ℝ => fun i => (x i : ℂ) := by fun_prop
  exact (p.continuous_eval.comp h1).measurable

theorem ae_ne_zero_pi (n : ℕ) (μ : Fin n → Measure ℝ) [∀ i, IsProbabilityMeasure (μ i)] [∀ i, NullSingletonClass (μ i)] (p : MvPolynomial (Fin n) ℂ) (hp : p ≠ 0) :
    ∀ᵐ x ∂(Measure.pi μ), rev x p ≠ 0 := by
  induction n with
  | zero =>
    refine Filter.Eventually.of_forall fun x h => hp ?_
    obtain ⟨c, rfl⟩ := C_surjective (Fin 0) p
    simp only [rev, eval_C] at h
    rw [h, C_0]
  | succ n ih =>
    have hmp := measurePreserving_piFinSuccAbove μ 0
    have hset : MeasurableSet {z : ℝ × (Fin n → ℝ) | rev (Fin.cons z.1 z.2 : Fin (n + 1) → ℝ) p ≠ 0} := by
      have hm : Measurable fun z : ℝ × (Fin n → ℝ) => (Fin.cons z.1 z.2 : Fin (n + 1) → ℝ) := by
        refine measurable_pi_lambda _ fun i => ?_
        refine Fin.cases ?_ (fun j => ?_) i
        · simpa using measurable_fst
        · exact (measurable_pi_apply j).comp measurable_snd
      exact ((rev_measurable p).comp hm) (measurableSet_singleton 0).compl
    have key : ∀ᵐ s ∂(Measure.pi fun j => μ ((0 : Fin (n + 1)).succAbove j)), ∀ᵐ y ∂(μ 0), rev (Fin.cons y s : Fin (n + 1) → ℝ) p ≠ 0 := by
      have hq : (finSuccEquiv ℂ n p).leadingCoeff ≠ 0 := by
        rw [Polynomial.leadingCoeff_ne_zero]
        exact fun h => hp ((map_eq_zero_iff _ (finSuccEquiv ℂ n).injective).mp h)
      filter_upwards [ih (fun j => μ ((0 : Fin (n + 1)).succAbove j)) _ hq] with s hs
      have hne : Polynomial.map (eval fun i => (s i : ℂ)) (finSuccEquiv ℂ n p) ≠ 0 := by
        intro h
        apply hs
        have := congrArg (fun q => Polynomial.coeff q (finSuccEquiv ℂ n p).natDegree) h
        simpa [rev, Polynomial.coeff_map] using this
      have hfin : {y : ℝ | rev (Fin.cons y s : Fin (n + 1) → ℝ) p = 0}.Finite := by
        refine Set.Finite.subset (Set.Finite.preimage (Complex.ofReal_injective.injOn) (Polynomial.map (eval fun i => (s i : ℂ)) (finSuccEquiv ℂ n p)).roots.toFinset.finite_toSet) fun y hy => ?_
        simp only [Set.mem_preimage, Finset.mem_coe, Multiset.mem_toFinset]
        rw [Polynomial.mem_roots hne, Polynomial.IsRoot, ← eval_eq_eval_mv_eval']
        simp only [Set.mem_ofPred_eq, rev] at hy
        rw [← hy]
        congr 1
        congr 1
        funext i
        refine Fin.cases ?_ (fun j => ?_) i <;> simp
      have := hfin.measure_zero (μ 0)
      rw [ae_iff]
      simpa using this
    rw [Measure.ae_ae_comm (by
      exact (measurable_swap hset))] at key
    have h2 := (Measure.ae_prod_iff_ae_ae hset).mpr key
    have h3 := hmp.quasiMeasurePreserving.tendsto_ae.eventually h2
    filter_upwards [h3] with x hx
    have : (Fin.cons (x 0) (fun j => x j.succ) : Fin (n + 1) → ℝ) = x := Fin.cons_self_tail x
    simpa [MeasurableEquiv.piFinSuccAbove, Fin.insertNthEquiv, Fin.removeNth, this] using hx

variable {Ω : Type} [MeasurableSpace Ω]

/-- A nonzero polynomial in different draws almost surely does not vanish. -/
theorem ae_poly_ne_zero {ι : Type} [Fintype ι] (P : Measure Ω) [IsProbabilityMeasure P] (X : ℕ → Ω → ℝ) (hX : NormalDraws P X) (f : ι → ℕ) (hf : Function.Injective f)
    (p : MvPolynomial ι ℂ) (hp : p ≠ 0) : ∀ᵐ ω ∂P, rev (fun i => X (f i) ω) p ≠ 0 := by
  classical
  set e := Fintype.equivFin ι
  have hq : rename e p ≠ 0 := fun h => hp (rename_injective e e.injective (by rw [h, map_zero]))
  have hlaw : P.map (fun ω (i : Fin (Fintype.card ι)) => X (f (e.symm i)) ω) = Measure.pi fun _ => gaussianReal 0 1 :=
    Props.law_pi P (fun i => X (f (e.symm i))) (fun i => hX.measurable _) (hX.indep.precomp (hf.comp e.symm.injective)) _ fun i => hX.law _
  have : NullSingletonClass (gaussianReal 0 1) := nullSingletonClass_gaussianReal one_ne_zero
  have h := ae_ne_zero_pi _ (fun _ => gaussianReal 0 1) _ hq
  rw [← hlaw] at h
  have h2 := ae_of_ae_map (measurable_pi_lambda _ fun i => hX.measurable _).aemeasurable h
  filter_upwards [h2] with ω hω
  simpa [rev, eval_rename, Function.comp_def] using hω

end RMT.Gauss
