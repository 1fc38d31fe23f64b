import Verif.Lemmas.DistinctEigenvalues
import Verif.Props.EigVals

/-!
# Property C149: generated spectra almost surely have no repeated level
-/

namespace RMT
namespace Props
open Gen EigValsM EigM Unfold MeasureTheory ProbabilityTheory Spec Gauss

variable {σ Ω : Type} [MeasurableSpace Ω]

/-- `generate(n, kind)` returns an object with `n` strictly ascending levels, whose `.steps` (for `n ≥ 2`) are `1, …, n`. -/
def DistinctLevels (R : Rng σ) (eh : EigSolver) (ehC : (n : Nat) → Matrix (Fin n) (Fin n) ℂ → List ℝ) (n : Nat) (k : MatrixKind) (tri : Bool) (e s : σ) : Prop :=
  ∃ o, (generate R eh ehC n (.kind k) none tri e s).1 = .ok (o, k) ∧ o.vals.length = n ∧ o.vals.Pairwise (· < ·) ∧ (2 ≤ n → ∃ o', getSteps o = .ok (List.range' 1 n, o'))

theorem generate_object (R : Rng σ) (eh : EigSolver) (ehC : (n : Nat) → Matrix (Fin n) (Fin n) ℂ → List ℝ) (n : Nat) (tri : Bool) (e s : σ) :
    (∃ o, (generate R eh ehC n (.kind .goe) none tri e s).1 = .ok (o, .goe) ∧ o.vals = npSort (eh n (goeMatrix R n none tri s).1) ∧ o.cache = none) ∧
    (∃ o, (generate R eh ehC n (.kind .gue) none tri e s).1 = .ok (o, .gue) ∧ o.vals = npSort (ehC n (generateGUE R n none s).1) ∧ o.cache = none) ∧
    (∃ o, (generate R eh ehC n (.kind .poisson) none tri e s).1 = .ok (o, .poisson) ∧ o.vals = npSort (normals R n e).1 ∧ o.cache = none) := by
  refine ⟨?_, ?_, ?_⟩
  · simp only [generate, KindArg.validate, mkGenerated, initEigVals1d_ok, bind, Except.bind]
    exact ⟨_, rfl, rfl, rfl⟩
  · simp only [generate, KindArg.validate, mkGenerated, initEigVals1d_ok, bind, Except.bind]
    exact ⟨_, rfl, rfl, rfl⟩
  · simp only [generate, KindArg.validate, mkGenerated, initEigVals1d_ok, bind, Except.bind]
    exact ⟨_, rfl, npSort_of_ascending _ (npSort_ascending _), rfl⟩

theorem distinct_of (R : Rng σ) (eh : EigSolver) (ehC : (n : Nat) → Matrix (Fin n) (Fin n) ℂ → List ℝ) (n : Nat) (k : MatrixKind) (tri : Bool) (e s : σ) (l : List ℝ)
    (h : ∃ o, (generate R eh ehC n (.kind k) none tri e s).1 = .ok (o, k) ∧ o.vals = l ∧ o.cache = none) (hl : l.length = n) (hp : l.Pairwise (· < ·)) : DistinctLevels R eh ehC n k tri e s := by
  obtain ⟨o, h1, h2, h3⟩ := h
  subst h2
  refine ⟨o, h1, hl, hp, fun hn => ?_⟩
  have := C05_steps_distinct o h3 (by omega) hp
  rwa [hl] at this

/-- **C149 (GOE).** If the normal draws are independent and the eigenvalue routine exact, almost surely all levels `generate(n, "goe")` returns are different, for every `n` (full matrix). -/
theorem C149_goe (R : Rng σ) (eh : EigSolver) (ehC : (n : Nat) → Matrix (Fin n) (Fin n) ℂ → List ℝ) (hs : ExactSolver eh) (P : Measure Ω) [IsProbabilityMeasure P] (e s : Ω → σ)
    (hX : NormalDraws P fun k ω => draw R (s ω) k) (n : Nat) (tri : Bool) (h : n ≤ 500 ∨ tri = false) : ∀ᵐ ω ∂P, DistinctLevels R eh ehC n .goe tri (e ω) (s ω) := by
  have hG : ∀ ω, (goeMatrix R n none tri (s ω)).1.IsSymm := fun ω => by
    have : (goeMatrix R n none tri (s ω)).1 = goeOf (matOf (WithLp.toLp 2 fun p : Fin n × Fin n => draw R (s ω) (p.1.val * n + p.2.val))) := by
      ext i j
      exact C49_goe R n none tri (s ω) h i j
    rw [this]; exact goeOf_symm _
  have hv := fun ω => hs n _ (hG ω)
  have hlen : ∀ ω, (npSort (eh n (goeMatrix R n none tri (s ω)).1)).length = n := fun ω => by
    have h1 := congrArg Multiset.card (hv ω)
    rw [Multiset.coe_card, (symm_hermitian (hG ω)).roots_charpoly_eq_eigenvalues] at h1
    rw [(npSort_perm _).length_eq, h1]
    simp
  have h2 : ((√2 : ℝ) : ℂ) * ((√2 : ℝ) : ℂ) = 2 := by
    rw [← Complex.ofReal_mul, Real.mul_self_sqrt (by norm_num)]; norm_num
  have h20 : ((√2 : ℝ) : ℂ) ≠ 0 := fun h => by rw [h] at h2; norm_num at h2
  have key := ae_distinct P _ hX (fun p : Fin n × Fin n => p.1.val * n + p.2.val) (index_injective n)
    (Matrix.of fun i j => MvPolynomial.C (1 / ((√2 : ℝ) : ℂ)) * (MvPolynomial.X (i, j) + MvPolynomial.X (j, i)))
    (fun ω => (goeMatrix R n none tri (s ω)).1.map fun x : ℝ => (x : ℂ)) (fun ω => by
      ext i j
      simp [Matrix.conjTranspose_apply, (hG ω).apply i j])
    (fun ω => by
      ext i j
      simp only [Matrix.map_apply, Matrix.of_apply, map_mul, map_add, MvPolynomial.eval_C, MvPolynomial.eval_X]
      rw [C49_goe R n none tri (s ω) h i j]
      simp [seedIfGiven]
      ring)
    (fun p => if p.1 = p.2 then (p.1.val : ℂ) / ((√2 : ℝ) : ℂ) else 0) (by
      ext i j
      simp only [Matrix.map_apply, Matrix.of_apply, map_mul, map_add, MvPolynomial.eval_C, MvPolynomial.eval_X, Matrix.diagonal_apply]
      by_cases hij : i = j
      · subst hij
        simp only [if_true]
        field_simp
        rw [sq, h2]; ring
      · simp [hij, Ne.symm hij])
    (fun ω => npSort (eh n (goeMatrix R n none tri (s ω)).1)) (fun ω => npSort_ascending _) (fun ω => by
      rw [Multiset.coe_eq_coe.mpr (npSort_perm _), hv ω]
      have hp := (goeMatrix R n none tri (s ω)).1.charpoly_map (algebraMap ℝ ℂ)
      have : ((goeMatrix R n none tri (s ω)).1.map fun x : ℝ => (x : ℂ)) = (goeMatrix R n none tri (s ω)).1.map (algebraMap ℝ ℂ) := rfl
      rw [this, hp]
      have hsplit : (goeMatrix R n none tri (s ω)).1.charpoly.roots.card = (goeMatrix R n none tri (s ω)).1.charpoly.natDegree := by
        rw [(symm_hermitian (hG ω)).roots_charpoly_eq_eigenvalues, Matrix.charpoly_natDegree_eq_dim]
        simp
      exact (Polynomial.roots_map_of_injective_of_card_eq_natDegree (algebraMap ℝ ℂ).injective hsplit))
  filter_upwards [key] with ω hω
  exact distinct_of R eh ehC n .goe tri (e ω) (s ω) _ (generate_object R eh ehC n tri (e ω) (s ω)).1 (hlen ω) hω

/-- **C149 (GUE).** Likewise for `generate(n, "gue")`. -/
theorem C149_gue (R : Rng σ) (eh : EigSolver) (ehC : (n : Nat) → Matrix (Fin n) (Fin n) ℂ → List ℝ) (hs : ExactHermitian ehC) (P : Measure Ω) [IsProbabilityMeasure P] (e s : Ω → σ)
    (hX : NormalDraws P fun k ω => draw R (s ω) k) (n : Nat) (tri : Bool) : ∀ᵐ ω ∂P, DistinctLevels R eh ehC n .gue tri (e ω) (s ω) := by
  have hG : ∀ ω, (generateGUE R n none (s ω)).1.IsHermitian := fun ω => by
    rw [gue_draws]
    ext i j
    simp [herm, Matrix.conjTranspose_apply]
    ring
  have hv := fun ω => hs n _ (hG ω)
  have hlen : ∀ ω, (npSort (ehC n (generateGUE R n none (s ω)).1)).length = n := fun ω => by
    have h1 := congrArg Multiset.card (hv ω)
    rw [Multiset.card_map, Multiset.coe_card, (hG ω).roots_charpoly_eq_eigenvalues] at h1
    rw [(npSort_perm _).length_eq, h1]
    simp
  have key := ae_distinct P _ hX (cindex n) (cindex_injective n)
    (Matrix.of fun i j => MvPolynomial.C (1 / 2 : ℂ) * (MvPolynomial.X (.inl (i, j)) + MvPolynomial.X (.inl (j, i)) + MvPolynomial.C Complex.I * (MvPolynomial.X (.inr (i, j)) - MvPolynomial.X (.inr (j, i)))))
    (fun ω => (generateGUE R n none (s ω)).1) hG
    (fun ω => by
      rw [gue_draws]
      ext i j
      apply Complex.ext
      · simp [herm, cmatOf, Matrix.conjTranspose_apply]
      · simp [herm, cmatOf, Matrix.conjTranspose_apply]
        ring)
    (Sum.elim (fun p => if p.1 = p.2 then (p.1.val : ℂ) else 0) fun _ => 0) (by
      ext i j
      simp only [Matrix.map_apply, Matrix.of_apply, map_mul, map_add, map_sub, MvPolynomial.eval_C, MvPolynomial.eval_X, Matrix.diagonal_apply, Sum.elim_inl, Sum.elim_inr]
      by_cases hij : i = j
      · subst hij
        simp
        ring
      · simp [hij, Ne.symm hij])
    (fun ω => npSort (ehC n (generateGUE R n none (s ω)).1)) (fun ω => npSort_ascending _) (fun ω => by
      rw [Multiset.coe_eq_coe.mpr (npSort_perm _), hv ω])
  filter_upwards [key] with ω hω
  exact distinct_of R eh ehC n .gue tri (e ω) (s ω) _ (generate_object R eh ehC n tri (e ω) (s ω)).2.1 (hlen ω) hω

/-- **C149 (Poisson).** Likewise for `generate(n, "poisson")`, whose draws come from the state `e`. -/
theorem C149_poisson (R : Rng σ) (eh : EigSolver) (ehC : (n : Nat) → Matrix (Fin n) (Fin n) ℂ → List ℝ) (P : Measure Ω) [IsProbabilityMeasure P] (e s : Ω → σ)
    (hX : NormalDraws P fun k ω => draw R (e ω) k) (n : Nat) (tri : Bool) : ∀ᵐ ω ∂P, DistinctLevels R eh ehC n .poisson tri (e ω) (s ω) := by
  filter_upwards [ae_draws_distinct P _ hX n] with ω hω
  refine distinct_of R eh ehC n .poisson tri (e ω) (s ω) _ (generate_object R eh ehC n tri (e ω) (s ω)).2.2 ?_ ?_
  · rw [(npSort_perm _).length_eq, normals_length]
  · have hnd : (npSort (normals R n (e ω)).1).Nodup := by
      rw [(npSort_perm _).nodup_iff]
      simp only [normals_draws]
      exact hω
    exact ((npSort_ascending (normals R n (e ω)).1).and hnd).imp fun h => lt_of_le_of_ne h.1 h.2

/-- **C149 (tridiagonal, every random state).** For sizes above 500 with `use_tridiagonal`: whenever all chi-square draws are positive, whatever the normal draws are, all levels are different. -/
theorem C149_tridiagonal (R : Rng σ) (eh : EigSolver) (ehC : (n : Nat) → Matrix (Fin n) (Fin n) ℂ → List ℝ) (hs : ExactSolver eh) (n : Nat) (hn : 500 < n) (e s : σ)
    (hpos : ∀ k < n - 1, 0 < chiDraws R n s k) : DistinctLevels R eh ehC n .goe true e s := by
  have hM : (goeMatrix R n none true s).1 = tridiagonalOf n ((List.range (n - 1)).map fun k => chiDraws R n s k) ((List.range n).map fun k => diagDraws R n s k) := by
    rw [goeMatrix, if_pos ⟨hn, rfl⟩]
    have h1 : (chisquares R (chiRange n) s).1 = (List.range (n - 1)).map fun k => chiDraws R n s k := by
      apply List.ext_getElem
      · simp [chisquares_length, chiRange]
      · intro k hk _
        simp [chiDraws_eq, List.getElem?_eq_getElem hk]
    simp only [generateGOETridiagonal, seedIfGiven, normals_draws]
    rw [h1, chisquares_draws]
    rfl
  have hG : (goeMatrix R n none true s).1.IsSymm := by rw [hM]; exact tridiagonalOf_symm _ _ _
  have hv := hs n _ hG
  have hH := symm_hermitian hG
  have hinj : Function.Injective hH.eigenvalues := by
    refine jacobi_injective _ hH (fun i j hij => ?_) fun i j hij => ?_
    · rw [hM]
      simp only [tridiagonalOf]
      rw [if_neg (by omega), if_neg (by omega), if_neg (by omega)]
    · rw [hM]
      simp only [tridiagonalOf]
      rw [if_neg (by omega), if_neg (by omega), if_pos (by omega)]
      have hi : i.val < n - 1 := by have := j.isLt; omega
      have := Real.sqrt_pos.mpr (hpos i.val hi)
      simp [hi]
      exact this.ne'
  rw [hH.roots_charpoly_eq_eigenvalues] at hv
  refine distinct_of R eh ehC n .goe true e s _ (generate_object R eh ehC n true e s).1 ?_ ?_
  · have h1 := congrArg Multiset.card hv
    rw [Multiset.coe_card] at h1
    rw [(npSort_perm _).length_eq, h1]
    simp
  · have hnd : (npSort (eh n (goeMatrix R n none true s).1)).Nodup := by
      rw [(npSort_perm _).nodup_iff, ← Multiset.coe_nodup, hv]
      exact Multiset.Nodup.map (fun i j hij => hinj (by simpa using hij)) Finset.univ.nodup
    exact ((npSort_ascending _).and hnd).imp fun h => lt_of_le_of_ne h.1 h.2

/-- **C149 (tridiagonal).** The chi-square draws are almost surely positive, so almost surely all levels are different. -/
theorem C149_tridiagonal_ae (R : Rng σ) (eh : EigSolver) (ehC : (n : Nat) → Matrix (Fin n) (Fin n) ℂ → List ℝ) (hs : ExactSolver eh) (n : Nat) (hn : 500 < n) (P : Measure Ω) [IsProbabilityMeasure P]
    (e s : Ω → σ) (hC : ChiSquareDraws P (n - 1) fun k ω => chiDraws R n (s ω) k) : ∀ᵐ ω ∂P, DistinctLevels R eh ehC n .goe true (e ω) (s ω) := by
  have h1 : ∀ k, k < n - 1 → ∀ᵐ ω ∂P, 0 < chiDraws R n (s ω) k := by
    intro k hk
    have hl := hC.law k hk
    have h2 : ∀ᵐ x ∂(chiSquared (n - 1 - k)), 0 < x := by
      unfold chiSquared
      rw [ae_map_iff (Measurable.aemeasurable (by fun_prop)) measurableSet_Ioi]
      have hp : (MvPolynomial.X ⟨0, by omega⟩ : MvPolynomial (Fin (n - 1 - k)) ℂ) ≠ 0 := MvPolynomial.X_ne_zero _
      have : NullSingletonClass (gaussianReal 0 1) := nullSingletonClass_gaussianReal one_ne_zero
      filter_upwards [ae_ne_zero_pi _ (fun _ => gaussianReal 0 1) _ hp] with x hx
      simp only [rev, MvPolynomial.eval_X, ne_eq, Complex.ofReal_eq_zero] at hx
      exact lt_of_lt_of_le (by positivity) (Finset.single_le_sum (f := fun i => x i ^ 2) (fun i _ => sq_nonneg _) (Finset.mem_univ ⟨0, by omega⟩))
    rw [← hl] at h2
    exact ae_of_ae_map (hC.measurable k).aemeasurable h2
  have h3 : ∀ᵐ ω ∂P, ∀ k, k < n - 1 → 0 < chiDraws R n (s ω) k := by
    rw [ae_all_iff]
    intro k
    by_cases hk : k < n - 1
    · exact (h1 k hk).mono fun ω h _ => h
    · exact Filter.Eventually.of_forall fun ω h => absurd h hk
  filter_upwards [h3] with ω hω
  exact C149_tridiagonal R eh ehC hs n hn (e ω) (s ω) hω

-- C149: the hypotheses can be met, for every size
example (eh : EigSolver) (ehC : (n : Nat) → Matrix (Fin n) (Fin n) ℂ → List ℝ) (hs : ExactSolver eh) (n : Nat) :=
  C149_goe streamRng eh ehC hs _ id id stream_draws n false (.inr rfl)
example (eh : EigSolver) (ehC : (n : Nat) → Matrix (Fin n) (Fin n) ℂ → List ℝ) (hs : ExactHermitian ehC) (n : Nat) := C149_gue streamRng eh ehC hs _ id id stream_draws n false
example (eh : EigSolver) (ehC : (n : Nat) → Matrix (Fin n) (Fin n) ℂ → List ℝ) (n : Nat) := C149_poisson streamRng eh ehC _ id id stream_draws n false
example (eh : EigSolver) (ehC : (n : Nat) → Matrix (Fin n) (Fin n) ℂ → List ℝ) (hs : ExactSolver eh) := C149_tridiagonal_ae twoRng eh ehC hs 501 (by norm_num) (twoLaw 501) id id (two_hyps 501).2.1

end Props
end RMT
