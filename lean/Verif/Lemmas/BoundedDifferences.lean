import Verif.Lemmas.PairAverages

/-!
# The variance of a function of independent variables that changes little with each variable
-/

namespace RMT
namespace UniformM
open MeasureTheory ProbabilityTheory Real Set Filter

/-- The variance of a bounded function around any constant. -/
theorem variance_le_dist {α : Type} [MeasurableSpace α] (μ : Measure α) [IsProbabilityMeasure μ] (f : α → ℝ) (hf : Measurable f) (a c : ℝ) (hc : ∀ x, |f x - a| ≤ c) :
    (∫ x, f x ^ 2 ∂μ) - (∫ x, f x ∂μ) ^ 2 ≤ c ^ 2 := by
  have hc0 : 0 ≤ c := by
    by_contra h
    obtain ⟨x⟩ := nonempty_of_isProbabilityMeasure μ
    linarith [(abs_nonneg _).trans (hc x)]
  have hm : Measurable fun x => f x - a := hf.sub_const a
  have hi : Integrable (fun x => f x - a) μ := Integrable.of_bound hm.aestronglyMeasurable c (Eventually.of_forall hc)
  have hsq : ∀ x, |(f x - a) ^ 2| ≤ c ^ 2 := fun x => by rw [abs_pow]; exact pow_le_pow_left₀ (abs_nonneg _) (hc x) 2
  have hi2 : Integrable (fun x => (f x - a) ^ 2) μ := Integrable.of_bound (hm.pow_const 2).aestronglyMeasurable (c ^ 2) (Eventually.of_forall hsq)
  have e1 : ∫ x, f x ∂μ = (∫ x, (f x - a) ∂μ) + a := by
    have := integral_add hi (integrable_const a)
    simp only [sub_add_cancel, integral_const, probReal_univ, smul_eq_mul, one_mul] at this
    exact this
  have e2 : ∫ x, f x ^ 2 ∂μ = (∫ x, (f x - a) ^ 2 ∂μ) + 2 * a * (∫ x, (f x - a) ∂μ) + a ^ 2 := by
    have e : ∀ x, f x ^ 2 = (f x - a) ^ 2 + 2 * a * (f x - a) + a ^ 2 := fun x => by ring
    simp only [e]
    have h3 : Integrable (fun x => (f x - a) ^ 2 + 2 * a * (f x - a)) μ := hi2.add (hi.const_mul _)
    rw [integral_add h3 (integrable_const _), integral_add hi2 (hi.const_mul _), integral_const_mul]
    simp
  have h4 : ∫ x, (f x - a) ^ 2 ∂μ ≤ c ^ 2 := by
    calc _ ≤ ∫ _, c ^ 2 ∂μ := integral_mono hi2 (integrable_const _) fun x => (le_abs_self _).trans (hsq x)
      _ = _ := by simp
  rw [e1, e2]
  nlinarith [sq_nonneg (∫ x, (f x - a) ∂μ)]

/-- The inequality of Efron and Stein, for functions that change by at most `c` with each variable. -/
theorem bounded_differences (ν : Measure ℝ) [IsProbabilityMeasure ν] (c C : ℝ) : ∀ (N : ℕ) (f : (Fin N → ℝ) → ℝ), Measurable f → (∀ x, |f x| ≤ C) →
    (∀ x i y, |f (Function.update x i y) - f x| ≤ c) → (∫ x, f x ^ 2 ∂(Measure.pi fun _ : Fin N => ν)) - (∫ x, f x ∂(Measure.pi fun _ : Fin N => ν)) ^ 2 ≤ N * c ^ 2 := by
  intro N
  induction N with
  | zero =>
    intro f hf _ _
    have := variance_le_dist (Measure.pi fun _ : Fin 0 => ν) f hf (f default) 0 fun x => by rw [Subsingleton.elim x default]; simp
    simpa using this
  | succ N ih =>
    intro f hf hb hd
    set μ := Measure.pi fun _ : Fin N => ν with hμ
    set F : ℝ × (Fin N → ℝ) → ℝ := fun p => f (Fin.cons p.1 p.2) with hF
    have hcons : Measurable fun p : ℝ × (Fin N → ℝ) => (Fin.cons p.1 p.2 : Fin (N + 1) → ℝ) := by
      refine measurable_pi_lambda _ fun i => ?_
      refine Fin.cases ?_ (fun j => ?_) i
      · simpa using measurable_fst
      · simp only [Fin.cons_succ]
        exact (measurable_pi_apply j).comp measurable_snd
    have hFm : Measurable F := hf.comp hcons
    have hFb : ∀ p, |F p| ≤ C := fun p => hb _
    have hmp := measurePreserving_piFinSuccAbove (fun _ : Fin (N + 1) => ν) 0
    have htr : ∀ g : (Fin (N + 1) → ℝ) → ℝ, ∫ x, g x ∂(Measure.pi fun _ : Fin (N + 1) => ν) = ∫ p, g (Fin.cons p.1 p.2) ∂(ν.prod μ) := by
      intro g
      have := (hmp.symm).integral_comp' (g := g)
      rw [← this]
      have e : ∀ p : ℝ × (Fin N → ℝ), (MeasurableEquiv.piFinSuccAbove (fun _ : Fin (N + 1) => ℝ) 0).symm p = Fin.cons p.1 p.2 := fun p => by
        funext i
        refine Fin.cases ?_ (fun j => ?_) i <;> simp [MeasurableEquiv.piFinSuccAbove]
      simp only [e]
      rfl
    have hFi : Integrable F (ν.prod μ) := Integrable.of_bound hFm.aestronglyMeasurable C (Eventually.of_forall hFb)
    have hF2i : Integrable (fun p => F p ^ 2) (ν.prod μ) := Integrable.of_bound (hFm.pow_const 2).aestronglyMeasurable (C ^ 2) (Eventually.of_forall fun p => by
      rw [Real.norm_eq_abs, abs_pow]; exact pow_le_pow_left₀ (abs_nonneg _) (hFb p) 2)
    rw [htr f, htr fun x => f x ^ 2]
    change (∫ p, F p ^ 2 ∂(ν.prod μ)) - (∫ p, F p ∂(ν.prod μ)) ^ 2 ≤ _
    rw [integral_prod_symm _ hFi, integral_prod_symm _ hF2i]
    set g : (Fin N → ℝ) → ℝ := fun z => ∫ x, F (x, z) ∂ν with hg
    have hsec : ∀ z, Measurable fun x => F (x, z) := fun z => hFm.comp measurable_prodMk_right
    have hgm : Measurable g := (hFm.stronglyMeasurable.integral_prod_left (μ := ν)).measurable
    have hgb : ∀ z, |g z| ≤ C := fun z => by
      have := norm_integral_le_of_norm_le_const (μ := ν) (f := fun x => F (x, z)) (C := C) (Eventually.of_forall fun x => hFb (x, z))
      simpa using this
    have hsi : ∀ z, Integrable (fun x => F (x, z)) ν := fun z => Integrable.of_bound (hsec z).aestronglyMeasurable C (Eventually.of_forall fun x => hFb (x, z))
    have hgd : ∀ z i y, |g (Function.update z i y) - g z| ≤ c := by
      intro z i y
      rw [hg]
      simp only
      rw [← integral_sub (hsi _) (hsi _)]
      have := norm_integral_le_of_norm_le_const (μ := ν) (f := fun x => F (x, Function.update z i y) - F (x, z)) (C := c) (Eventually.of_forall fun x => by
        have e : (Fin.cons x (Function.update z i y) : Fin (N + 1) → ℝ) = Function.update (Fin.cons x z : Fin (N + 1) → ℝ) i.succ y := (Fin.cons_update (α := fun _ => ℝ) x z i y)
        rw [Real.norm_eq_abs, hF]
        simp only
        rw [e]
        exact hd _ _ _)
      simpa using this
    have hfirst : ∀ z, (∫ x, F (x, z) ^ 2 ∂ν) - g z ^ 2 ≤ c ^ 2 := fun z =>
      variance_le_dist ν (fun x => F (x, z)) (hsec z) (F (0, z)) c fun x => by
        have e : (Fin.cons x z : Fin (N + 1) → ℝ) = Function.update (Fin.cons 0 z : Fin (N + 1) → ℝ) 0 x := by
          rw [Fin.update_cons_zero]
        rw [hF]
        simp only
        rw [e]
        exact hd _ _ _
    have hg2i : Integrable (fun z => g z ^ 2) μ := Integrable.of_bound (hgm.pow_const 2).aestronglyMeasurable (C ^ 2) (Eventually.of_forall fun z => by
      rw [Real.norm_eq_abs, abs_pow]; exact pow_le_pow_left₀ (abs_nonneg _) (hgb z) 2)
    have hin : Integrable (fun z => ∫ x, F (x, z) ^ 2 ∂ν) μ := hF2i.integral_prod_right
    have h1 : (∫ z, (∫ x, F (x, z) ^ 2 ∂ν) ∂μ) - ∫ z, g z ^ 2 ∂μ ≤ c ^ 2 := by
      rw [← integral_sub hin hg2i]
      calc _ ≤ ∫ _, c ^ 2 ∂μ := integral_mono (hin.sub hg2i) (integrable_const _) hfirst
        _ = _ := by simp
    have h2 := ih g hgm hgb hgd
    push_cast
    linarith

/-- The same for independent random variables with the same law. -/
theorem variance_differences {Ω : Type} [MeasurableSpace Ω] {P : Measure Ω} [IsProbabilityMeasure P] {Y : Nat → Ω → ℝ} (hm : ∀ k, Measurable (Y k)) (hi : iIndepFun Y P) (ν : Measure ℝ) (hl : ∀ k, P.map (Y k) = ν)
    (N : ℕ) (f : (Fin N → ℝ) → ℝ) (hf : Measurable f) (C : ℝ) (hb : ∀ x, |f x| ≤ C) (c : ℝ) (hd : ∀ x i y, |f (Function.update x i y) - f x| ≤ c) :
    Var[fun ω => f fun i : Fin N => Y i ω; P] ≤ N * c ^ 2 := by
  have hν : IsProbabilityMeasure ν := by rw [← hl 0]; exact Measure.isProbabilityMeasure_map (hm 0).aemeasurable
  have hX : Measurable fun ω (i : Fin N) => Y i ω := measurable_pi_lambda _ fun i => hm i
  have hi' : iIndepFun (fun (i : Fin N) => Y i) P := hi.precomp (g := fun i : Fin N => (i : ℕ)) Fin.val_injective
  have hlaw : P.map (fun ω (i : Fin N) => Y i ω) = Measure.pi fun _ : Fin N => ν := by
    rw [(iIndepFun_iff_map_fun_eq_pi_map fun i : Fin N => (hm i).aemeasurable).mp hi']
    simp only [hl]
  have h := bounded_differences ν c C N f hf hb hd
  rw [← hlaw, integral_map hX.aemeasurable hf.aestronglyMeasurable, integral_map hX.aemeasurable (hf.pow_const 2).aestronglyMeasurable] at h
  have hL : MemLp (fun ω => f fun i : Fin N => Y i ω) 2 P := MemLp.of_bound (hf.comp hX).aestronglyMeasurable C (Eventually.of_forall fun ω => hb _)
  rw [variance_eq_sub hL]
  simpa using h

end UniformM
end RMT
