import Verif.Props.Invariance
import Verif.Lemmas.TridiagonalLaw

/-!
# Property C144: the tridiagonal GOE spectrum is the full GOE spectrum divided by √2, in law
-/

namespace RMT
namespace Props
open Gen EigValsM EigM Unfold MeasureTheory ProbabilityTheory Spec Gauss
open Real Set
open scoped ENNReal

variable {σ Ω Ω' : Type} [MeasurableSpace Ω] [MeasurableSpace Ω']

attribute [local instance] Gauss.matrixMeasurable

theorem charpoly_smul' {n : Nat} (r : ℝ) (hr : r ≠ 0) (M : Matrix (Fin n) (Fin n) ℝ) :
    (r • M).charpoly = Polynomial.C r ^ n * M.charpoly.comp (Polynomial.C r⁻¹ * Polynomial.X) := by
  have hC : Polynomial.C r * Polynomial.C r⁻¹ = 1 := by rw [← Polynomial.C_mul, mul_inv_cancel₀ hr, Polynomial.C_1]
  have h : (r • M).charmatrix = Polynomial.C r • (M.charmatrix).map (Polynomial.compRingHom (Polynomial.C r⁻¹ * Polynomial.X)) := by
    ext1 i j
    by_cases hij : i = j
    · subst hij
      simp only [Matrix.charmatrix_apply_eq, Matrix.smul_apply, Matrix.map_apply, smul_eq_mul, Polynomial.coe_compRingHom, Polynomial.sub_comp, Polynomial.X_comp, Polynomial.C_comp, Polynomial.C_mul,
        mul_sub, ← mul_assoc, hC, one_mul]
    · simp [Matrix.charmatrix_apply_ne _ _ _ hij]
  have h2 : M.charpoly.comp (Polynomial.C r⁻¹ * Polynomial.X) = ((M.charmatrix).map (Polynomial.compRingHom (Polynomial.C r⁻¹ * Polynomial.X))).det := by
    exact RingHom.map_det (Polynomial.compRingHom (Polynomial.C r⁻¹ * Polynomial.X)) M.charmatrix
  rw [h2, Matrix.charpoly, h, Matrix.det_smul, Fintype.card_fin]

theorem roots_smul {n : Nat} (r : ℝ) (hr : r ≠ 0) (M : Matrix (Fin n) (Fin n) ℝ) (hM : M.IsHermitian) :
    (r • M).charpoly.roots = M.charpoly.roots.map (r * ·) := by
  have hC : Polynomial.C r * Polynomial.C r⁻¹ = 1 := by rw [← Polynomial.C_mul, mul_inv_cancel₀ hr, Polynomial.C_1]
  have h : (r • M).charpoly = ((Finset.univ.val.map fun i => r * hM.eigenvalues i).map fun a => Polynomial.X - Polynomial.C a).prod := by
    rw [charpoly_smul' r hr, hM.charpoly_eq, Polynomial.prod_comp, Multiset.map_map]
    have : ∀ i, Polynomial.C r * (Polynomial.X - Polynomial.C (hM.eigenvalues i)).comp (Polynomial.C r⁻¹ * Polynomial.X) = Polynomial.X - Polynomial.C (r * hM.eigenvalues i) := by
      intro i
      simp only [Polynomial.sub_comp, Polynomial.X_comp, Polynomial.C_comp, Polynomial.C_mul, mul_sub, ← mul_assoc, hC, one_mul]
    have e : Polynomial.C r ^ n = ∏ _i : Fin n, Polynomial.C r := by simp
    rw [e, ← Finset.prod_mul_distrib]
    simp only [RCLike.ofReal_real_eq_id, id_eq, this]
    simp [Finset.prod]
  rw [h, Polynomial.roots_multiset_prod_X_sub_C, hM.roots_charpoly_eq_eigenvalues, Multiset.map_map]
  rfl

/-- The levels of the symmetric part of a matrix, computed by an exact routine. -/
noncomputable def lev (eh : EigSolver) {n : Nat} (M : Matrix (Fin n) (Fin n) ℝ) : List ℝ := npSort (eh n ((1 / 2 : ℝ) • (M + M.transpose)))

theorem part_symm {n : Nat} (M : Matrix (Fin n) (Fin n) ℝ) : ((1 / 2 : ℝ) • (M + M.transpose)).IsSymm := by
  rw [Matrix.IsSymm]
  simp [add_comm]

theorem part_of_symm {n : Nat} (M : Matrix (Fin n) (Fin n) ℝ) (h : M.IsSymm) : (1 / 2 : ℝ) • (M + M.transpose) = M := by
  rw [h.eq]
  ext i j
  simp
  ring

theorem symm_hermitian {n : Nat} {M : Matrix (Fin n) (Fin n) ℝ} (h : M.IsSymm) : M.IsHermitian := by
  rw [Matrix.IsHermitian, Matrix.conjTranspose_eq_transpose_of_trivial]
  exact h

theorem lev_conj (eh : EigSolver) (hs : ExactSolver eh) {n : Nat} (M O : Matrix (Fin n) (Fin n) ℝ) (hO : O ∈ Matrix.orthogonalGroup (Fin n) ℝ) :
    lev eh (O * M * O.transpose) = lev eh M := by
  have h1 := (Matrix.mem_orthogonalGroup_iff' (Fin n) ℝ).mp hO
  unfold lev
  apply npSort_eq_of_perm
  apply Multiset.coe_eq_coe.mp
  rw [hs n _ (part_symm _), hs n _ (part_symm _)]
  have e : (1 / 2 : ℝ) • (O * M * O.transpose + (O * M * O.transpose).transpose) = O * ((1 / 2 : ℝ) • (M + M.transpose)) * O.transpose := by
    simp only [Matrix.transpose_mul, Matrix.transpose_transpose, Matrix.mul_smul, Matrix.smul_mul, Matrix.mul_add, Matrix.add_mul, Matrix.mul_assoc]
  rw [e, Matrix.charpoly_mul_comm, ← Matrix.mul_assoc, h1, Matrix.one_mul]

theorem measurable_lev (eh : EigSolver) (hs : ExactSolver eh) (n : Nat) :
    (∀ M : Matrix (Fin n) (Fin n) ℝ, (lev eh M).length = n) ∧ Measurable fun M : Matrix (Fin n) (Fin n) ℝ => vec n (lev eh M) := by
  have h := SpectrumM.measurable_eigs (fun M : Matrix (Fin n) (Fin n) ℝ => (1 / 2 : ℝ) • (M + M.transpose))
    (fun i j => by
      simp only [Matrix.smul_apply, Matrix.add_apply, Matrix.transpose_apply, smul_eq_mul]
      exact ((measurable_apply _ measurable_id i j).add (measurable_apply _ measurable_id j i)).const_mul _)
    (fun M => symm_hermitian (part_symm M)) (fun M => lev eh M) (fun M => npSort_ascending _) (fun M => by
      rw [← hs n _ (part_symm M)]
      simp only [RCLike.ofReal_real_eq_id, id_eq, Multiset.map_id']
      exact Multiset.coe_eq_coe.mpr (npSort_perm _))
  exact ⟨h.1, measurable_pi_lambda _ fun i => h.2.1 i.val⟩

theorem lev_symm (eh : EigSolver) {n : Nat} (M : Matrix (Fin n) (Fin n) ℝ) (h : M.IsSymm) : lev eh M = npSort (eh n M) := by
  rw [lev, part_of_symm M h]

theorem lev_smul (eh : EigSolver) (hs : ExactSolver eh) {n : Nat} (r : ℝ) (hr : 0 < r) (M : Matrix (Fin n) (Fin n) ℝ) (h : M.IsSymm) :
    lev eh (r • M) = (npSort (eh n M)).map (r * ·) := by
  have h2 : (r • M).IsSymm := h.smul r
  rw [lev_symm _ _ h2]
  refine npSort_unique ?_ ?_
  · have : ((eh n (r • M)) : Multiset ℝ) = (((eh n M).map (r * ·) : List ℝ) : Multiset ℝ) := by
      rw [hs n _ h2, roots_smul r hr.ne' M (symm_hermitian h), ← hs n M h]
      rfl
    exact ((Multiset.coe_eq_coe.mp this).trans ((npSort_perm _).symm.map _)).symm
  · have := npSort_ascending (eh n M)
    unfold Ascending at *
    rw [List.pairwise_map]
    exact this.imp fun h => by gcongr

theorem law_pi {ι : Type} [Fintype ι] (P : Measure Ω) [IsProbabilityMeasure P] (X : ι → Ω → ℝ) (hm : ∀ i, Measurable (X i)) (hi : iIndepFun X P) (μ : ι → Measure ℝ)
    (hl : ∀ i, P.map (X i) = μ i) : P.map (fun ω i => X i ω) = Measure.pi μ := by
  rw [(iIndepFun_iff_map_fun_eq_pi_map fun i => (hm i).aemeasurable).mp hi]
  simp only [hl]

theorem chiSquared_zero : chiSquared 0 = Measure.dirac 0 := by
  unfold chiSquared
  simp [Measure.map_const]

theorem tridiagonalOf_eq (n : Nat) (c z : Nat → ℝ) :
    √2 • tridiagonalOf n ((List.range (n - 1)).map c) ((List.range n).map z) = triM n (fun i => if i.val < n - 1 then c i.val else 0) (fun i => z i.val) := by
  have h0 : √(2 : ℝ) ≠ 0 := by positivity
  ext i j
  have hi := i.isLt
  have hj := j.isLt
  have hz : ((List.range n).map z).getD i.val 0 = z i.val := by simp
  have hc : ∀ k, ((List.range (n - 1)).map c).getD k 0 = if k < n - 1 then c k else 0 := by
    intro k
    split_ifs with hk
    · simp [hk]
    · simp [hk]
  simp only [Matrix.smul_apply, smul_eq_mul, tridiagonalOf, triM, hz, hc, Fin.ext_iff]
  split_ifs <;> first | (field_simp; done) | simp

/-- **C144 (draws).** Let `X` be independent standard normal draws; on another probability space let `Z` be independent standard normal draws and, independent of them, `C` independent
chi-square draws with `n - 1`, …, 1 degrees of freedom. For every size `n`, the levels of the full GOE matrix made from `X` have the same joint law as `√2` times the levels of the
tridiagonal matrix made from `C` and `Z`. -/
theorem C144_draws (eh : EigSolver) (hs : ExactSolver eh) (n : Nat) (P : Measure Ω) [IsProbabilityMeasure P] (X : Nat → Ω → ℝ) (hX : NormalDraws P X)
    (P' : Measure Ω') [IsProbabilityMeasure P'] (C Z : Nat → Ω' → ℝ) (hC : ChiSquareDraws P' (n - 1) C) (hZ : NormalDraws P' Z)
    (hi : IndepFun (fun ω k => C k ω) (fun ω k => Z k ω) P') :
    IdentDistrib (fun ω => vec n (npSort (eh n (goeOf (ofRowMajor n ((List.range (n * n)).map fun k => X k ω))))))
      (fun ω i => √2 * vec n (npSort (eh n (tridiagonalOf n ((List.range (n - 1)).map fun k => C k ω) ((List.range n).map fun k => Z k ω)))) i) P P' := by
  obtain ⟨hlen, hlev⟩ := measurable_lev eh hs n
  -- the full matrix
  set V : Ω → Fin n × Fin n → ℝ := fun ω p => X (p.1.val * n + p.2.val) ω with hV
  have hVm : Measurable V := measurable_pi_lambda _ fun p => hX.measurable _
  have hVl : P.map V = gau (Fin n × Fin n) := law_pi P (fun p : Fin n × Fin n => X (p.1.val * n + p.2.val)) (fun p => hX.measurable _) (hX.indep.precomp (index_injective n)) _ fun p => hX.law _
  have e1 : ∀ ω, vec n (npSort (eh n (goeOf (ofRowMajor n ((List.range (n * n)).map fun k => X k ω))))) = vec n (lev eh (sym (V ω))) := by
    intro ω
    have : (ofRowMajor n ((List.range (n * n)).map fun k => X k ω)) = Matrix.of fun i j => V ω (i, j) := by
      ext i j
      have := entry_lt i j
      simp [ofRowMajor, hV, this]
    rw [this]
    exact congrArg (vec n) (lev_symm eh _ (goeOf_symm _)).symm
  -- the tridiagonal matrix
  set c : Ω' → Fin n → ℝ := fun ω i => if i.val < n - 1 then C i.val ω else 0 with hc
  set z : Ω' → Fin n → ℝ := fun ω i => Z i.val ω with hz
  have hcm : Measurable c := by
    refine measurable_pi_lambda _ fun i => ?_
    simp only [hc]
    split_ifs
    · exact hC.measurable _
    · exact measurable_const
  have hzm : Measurable z := measurable_pi_lambda _ fun i => hZ.measurable _
  have hcl : P'.map c = chis n := by
    refine law_pi P' (fun (i : Fin n) ω => if i.val < n - 1 then C i.val ω else 0) (fun i => (measurable_pi_apply i).comp hcm) ?_ _ ?_
    · exact (hC.indep.precomp Fin.val_injective).comp (fun i : Fin n => fun x => if i.val < n - 1 then x else 0) fun i => by
        split_ifs
        · exact measurable_id
        · exact measurable_const
    · intro i
      have := i.isLt
      by_cases h : i.val < n - 1
      · simp only [h, if_true]
        exact hC.law _ h
      · simp only [h, if_false]
        have : n - 1 - i.val = 0 := by omega
        rw [this, chiSquared_zero, Measure.map_const]
        simp
  have hzl : P'.map z = gau (Fin n) := law_pi P' (fun i : Fin n => Z i.val) (fun i => hZ.measurable _) (hZ.indep.precomp Fin.val_injective) _ fun i => hZ.law _
  have hjoint : P'.map (fun ω => (c ω, z ω)) = (chis n).prod (gau (Fin n)) := by
    have hind : IndepFun c z P' := by
      refine hi.comp (φ := fun f (i : Fin n) => if i.val < n - 1 then f i.val else 0) (ψ := fun f (i : Fin n) => f i.val) ?_ ?_
      · refine measurable_pi_lambda _ fun i => ?_
        split_ifs
        · exact measurable_pi_apply _
        · exact measurable_const
      · exact measurable_pi_lambda _ fun i => measurable_pi_apply _
    rw [(indepFun_iff_map_prod_eq_prod_map_map hcm.aemeasurable hzm.aemeasurable).mp hind, hcl, hzl]
  have e2 : ∀ ω, (fun i => √2 * vec n (npSort (eh n (tridiagonalOf n ((List.range (n - 1)).map fun k => C k ω) ((List.range n).map fun k => Z k ω)))) i) = vec n (lev eh (triM n (c ω) (z ω))) := by
    intro ω
    have h := lev_smul eh hs (√2) (by positivity) (tridiagonalOf n ((List.range (n - 1)).map fun k => C k ω) ((List.range n).map fun k => Z k ω)) (tridiagonalOf_symm _ _ _)
    rw [tridiagonalOf_eq n (fun k => C k ω) (fun k => Z k ω)] at h
    rw [h]
    funext i
    have := List.getD_map (l := npSort (eh n (tridiagonalOf n ((List.range (n - 1)).map fun k => C k ω) ((List.range n).map fun k => Z k ω)))) (d := (0 : ℝ)) (n := i.val) (f := fun x => √2 * x)
    simpa [vec] using this.symm
  rw [funext e1, funext e2]
  have hm1 : Measurable fun ω => vec n (lev eh (sym (V ω))) := hlev.comp (measurable_sym.comp hVm)
  have hm2 : Measurable fun ω => vec n (lev eh (triM n (c ω) (z ω))) := hlev.comp (measurable_triM c z hcm hzm)
  refine ⟨hm1.aemeasurable, hm2.aemeasurable, ?_⟩
  ext A hA
  rw [Measure.map_apply hm1 hA, Measure.map_apply hm2 hA, ← lintegral_indicator_one (hm1 hA), ← lintegral_indicator_one (hm2 hA)]
  set F : Matrix (Fin n) (Fin n) ℝ → ℝ≥0∞ := fun M => A.indicator 1 (vec n (lev eh M)) with hF
  have hFm : Measurable F := (measurable_const.indicator hA).comp hlev
  have key := reduction F hFm fun M O hO => by simp only [hF, lev_conj eh hs M O hO]
  have l1 : ∫⁻ ω, F (sym (V ω)) ∂P = ∫⁻ v, F (sym v) ∂gau (Fin n × Fin n) := by
    rw [← hVl]
    exact (lintegral_map (hFm.comp measurable_sym) hVm).symm
  have l2 : ∫⁻ ω, F (triM n (c ω) (z ω)) ∂P' = ∫⁻ c, ∫⁻ z, F (triM n c z) ∂gau (Fin n) ∂chis n := by
    have hj : Measurable fun p : (Fin n → ℝ) × (Fin n → ℝ) => F (triM n p.1 p.2) := hFm.comp (measurable_triM _ _ measurable_fst measurable_snd)
    rw [← lintegral_prod _ hj.aemeasurable, ← hjoint, lintegral_map hj (hcm.prodMk hzm)]
  exact l1.trans (key.trans l2.symm)

/-- **C144.** For sizes above 500, `generate(n, "goe")` with `use_tridiagonal` returns levels which, multiplied by `√2`, have the same joint law as the levels it returns without
`use_tridiagonal`, if the eigenvalue routine is exact, the normal draws are independent, and the chi-square draws are independent of each other and of the normal draws. -/
theorem C144_generate (R : Rng σ) (eh : EigSolver) (ehC : (n : Nat) → Matrix (Fin n) (Fin n) ℂ → List ℝ) (hs : ExactSolver eh) (n : Nat) (hn : 500 < n)
    (P : Measure Ω) [IsProbabilityMeasure P] (e s : Ω → σ) (hX : NormalDraws P fun k ω => draw R (s ω) k)
    (P' : Measure Ω') [IsProbabilityMeasure P'] (e' s' : Ω' → σ) (hC : ChiSquareDraws P' (n - 1) fun k ω => chiDraws R n (s' ω) k)
    (hZ : NormalDraws P' fun k ω => diagDraws R n (s' ω) k) (hi : IndepFun (fun ω => chiDraws R n (s' ω)) (fun ω => diagDraws R n (s' ω)) P') :
    ∃ full tri, GeneratedVals R eh ehC n .goe false e s full ∧ GeneratedVals R eh ehC n .goe true e' s' tri ∧
      IdentDistrib (fun ω => vec n (full ω)) (fun ω i => √2 * vec n (tri ω) i) P P' := by
  refine ⟨fun ω => npSort (eh n (goeMatrix R n none false (s ω)).1), fun ω => npSort (eh n (goeMatrix R n none true (s' ω)).1),
    fun ω => (C49_values R eh ehC n none false (e ω) (s ω)).1, fun ω => (C49_values R eh ehC n none true (e' ω) (s' ω)).1, ?_⟩
  have key := C144_draws eh hs n P _ hX P' _ _ hC hZ hi
  have h1 : ∀ ω, (goeMatrix R n none false (s ω)).1 = goeOf (ofRowMajor n ((List.range (n * n)).map fun k => draw R (s ω) k)) := by
    intro ω
    simp only [goeMatrix, Bool.false_eq_true, and_false, if_false, generateGOEMatrix, seedIfGiven, normals_draws]
  have h2 : ∀ ω, (goeMatrix R n none true (s' ω)).1 = tridiagonalOf n ((List.range (n - 1)).map fun k => chiDraws R n (s' ω) k) ((List.range n).map fun k => diagDraws R n (s' ω) k) := by
    intro ω
    rw [goeMatrix, if_pos ⟨hn, rfl⟩]
    have h1 : (chisquares R (chiRange n) (s' ω)).1 = (List.range (n - 1)).map fun k => chiDraws R n (s' ω) k := by
      apply List.ext_getElem
      · simp [chisquares_length, chiRange]
      · intro k hk _
        simp [chiDraws_eq, List.getElem?_eq_getElem hk]
    simp only [generateGOETridiagonal, seedIfGiven, normals_draws]
    rw [h1, chisquares_draws]
    rfl
  simp only [h1, h2]
  exact key

/-- **C144 (statistics without scale).** Every measurable statistic of the levels which does not change when all levels are multiplied by a positive number has the same law with and
without `use_tridiagonal`. -/
theorem C144_scale_free (R : Rng σ) (eh : EigSolver) (ehC : (n : Nat) → Matrix (Fin n) (Fin n) ℂ → List ℝ) (hs : ExactSolver eh) (n : Nat) (hn : 500 < n)
    (P : Measure Ω) [IsProbabilityMeasure P] (e s : Ω → σ) (hX : NormalDraws P fun k ω => draw R (s ω) k)
    (P' : Measure Ω') [IsProbabilityMeasure P'] (e' s' : Ω' → σ) (hC : ChiSquareDraws P' (n - 1) fun k ω => chiDraws R n (s' ω) k)
    (hZ : NormalDraws P' fun k ω => diagDraws R n (s' ω) k) (hi : IndepFun (fun ω => chiDraws R n (s' ω)) (fun ω => diagDraws R n (s' ω)) P')
    {β : Type} [MeasurableSpace β] (g : (Fin n → ℝ) → β) (hg : Measurable g) (hfree : ∀ (r : ℝ) v, 0 < r → g (fun i => r * v i) = g v) :
    ∃ full tri, GeneratedVals R eh ehC n .goe false e s full ∧ GeneratedVals R eh ehC n .goe true e' s' tri ∧
      IdentDistrib (fun ω => g (vec n (full ω))) (fun ω => g (vec n (tri ω))) P P' := by
  obtain ⟨full, tri, h1, h2, h3⟩ := C144_generate R eh ehC hs n hn P e s hX P' e' s' hC hZ hi
  refine ⟨full, tri, h1, h2, ?_⟩
  have h4 := h3.comp hg
  have h5 : (fun ω => g (vec n (tri ω))) = g ∘ fun ω i => √2 * vec n (tri ω) i := by
    funext ω
    exact (hfree (√2) _ (by positivity)).symm
  rw [h5]
  exact h4

/-! ## The hypotheses can be met -/

/-- A generator with one stream for normal draws and one for chi-square draws. -/
noncomputable def twoRng : Rng ((Nat → ℝ) × (Nat → ℝ)) :=
  ⟨fun _ => (fun _ => 0, fun _ => 0), fun s => (s.1 0, (fun k => s.1 (k + 1), s.2)), fun _ s => (s.2 0, (s.1, fun k => s.2 (k + 1)))⟩

theorem two_chisquares (l : List Nat) (s : (Nat → ℝ) × (Nat → ℝ)) : (chisquares twoRng l s).1 = (List.range l.length).map s.2 ∧
    (chisquares twoRng l s).2 = (s.1, fun k => s.2 (k + l.length)) := by
  induction l generalizing s with
  | nil => exact ⟨rfl, rfl⟩
  | cons d l ih =>
    obtain ⟨h1, h2⟩ := ih (twoRng.chisquare d s).2
    constructor
    · rw [List.length_cons, List.range_succ_eq_map, List.map_cons, List.map_map, chisquares, h1]
      rfl
    · simp only [chisquares]
      rw [h2]
      simp only [twoRng, List.length_cons]
      refine Prod.ext rfl (funext fun k => congrArg s.2 ?_)
      omega

theorem two_draw (k : Nat) (s : (Nat → ℝ) × (Nat → ℝ)) : draw twoRng s k = s.1 k := by
  have h : ∀ k (s : (Nat → ℝ) × (Nat → ℝ)), stateAfter twoRng s k = (fun j => s.1 (j + k), s.2) := by
    intro k
    induction k with
    | zero => intro s; rfl
    | succ k ih => intro s; rw [stateAfter, ih]; exact Prod.ext (funext fun j => congrArg s.1 (by omega)) rfl
  rw [draw, h]
  simp [twoRng]

/-- The law of the two streams. -/
noncomputable def twoLaw (n : Nat) : Measure ((Nat → ℝ) × (Nat → ℝ)) :=
  (Measure.infinitePi fun _ : ℕ => gaussianReal 0 1).prod (Measure.infinitePi fun k : ℕ => chiSquared (n - 1 - k))

instance (n : Nat) : IsProbabilityMeasure (twoLaw n) := by unfold twoLaw; infer_instance

theorem indep_lift {α β : Type} [MeasurableSpace α] [MeasurableSpace β] {μ : Measure α} {ν : Measure β} [IsProbabilityMeasure μ] [IsProbabilityMeasure ν] (f : α → β) (hf : Measurable f) (h : μ.map f = ν)
    (X : Nat → β → ℝ) (hX : ∀ k, Measurable (X k)) (hi : iIndepFun X ν) : iIndepFun (fun k a => X k (f a)) μ := by
  rw [iIndepFun_iff_measure_inter_preimage_eq_mul] at hi ⊢
  intro S sets hsets
  have h3 := hi S hsets
  rw [← h, Measure.map_apply hf (Finset.measurableSet_biInter _ fun i hi => hX i (hsets i hi)), Set.preimage_iInter₂] at h3
  refine Eq.trans h3 (Finset.prod_congr rfl fun i hi => ?_)
  rw [Measure.map_apply hf (hX i (hsets i hi))]
  rfl

-- C144: the hypotheses hold for two independent streams, for every size
theorem two_hyps (n : Nat) : (NormalDraws (twoLaw n) fun k ω => draw twoRng ω k) ∧ (ChiSquareDraws (twoLaw n) (n - 1) fun k ω => chiDraws twoRng n ω k) ∧
    (NormalDraws (twoLaw n) fun k ω => diagDraws twoRng n ω k) ∧ IndepFun (fun ω => chiDraws twoRng n ω) (fun ω => diagDraws twoRng n ω) (twoLaw n) := by
  have h1 : ∀ ω, diagDraws twoRng n ω = ω.1 := fun ω => by
    funext k
    simp only [diagDraws_eq]; rw [two_draw, (two_chisquares _ _).2]
  have h2 : ∀ ω, chiDraws twoRng n ω = fun k => if k < n - 1 then ω.2 k else 0 := fun ω => by
    funext k
    simp only [chiDraws_eq]; rw [(two_chisquares _ _).1]
    have : (chiRange n).length = n - 1 := by simp [chiRange]
    rw [this]
    split_ifs with hk
    · simp [hk]
    · simp [hk]
  have hfst : (twoLaw n).map Prod.fst = Measure.infinitePi fun _ : ℕ => gaussianReal 0 1 := by simp [twoLaw]
  have hsnd : (twoLaw n).map Prod.snd = Measure.infinitePi fun k : ℕ => chiSquared (n - 1 - k) := by simp [twoLaw]
  have hN : NormalDraws (twoLaw n) fun k ω => ω.1 k := by
    refine ⟨fun k => (measurable_pi_apply k).comp measurable_fst, ?_, fun k => ?_⟩
    · exact indep_lift Prod.fst measurable_fst hfst (fun k ω => ω k) (fun k => measurable_pi_apply k) (iIndepFun_infinitePi (X := fun _ x => x) fun _ => measurable_id)
    · have : (twoLaw n).map (fun ω => ω.1 k) = ((twoLaw n).map Prod.fst).map fun z => z k := by
        rw [Measure.map_map (measurable_pi_apply k) measurable_fst]; rfl
      rw [this, hfst]
      exact Measure.infinitePi_map_eval _ k
  have hcut : ∀ k, Measurable fun x : ℝ => if k < n - 1 then x else 0 := fun k => by
    split_ifs
    · exact measurable_id
    · exact measurable_const
  have hcut' : Measurable fun (z : ℕ → ℝ) k => if k < n - 1 then z k else 0 := measurable_pi_lambda _ fun k => (hcut k).comp (measurable_pi_apply k)
  simp only [two_draw, h1, h2]
  refine ⟨hN, ⟨fun k => (hcut k).comp ((measurable_pi_apply k).comp measurable_snd), ?_, fun k hk => ?_⟩, hN, ?_⟩
  · refine indep_lift Prod.snd measurable_snd hsnd (fun k ω => if k < n - 1 then ω k else 0) (fun k => (hcut k).comp (measurable_pi_apply k)) ?_
    exact iIndepFun_infinitePi (X := fun k x => if k < n - 1 then x else 0) hcut
  · simp only [hk, if_true]
    have : (twoLaw n).map (fun ω => ω.2 k) = ((twoLaw n).map Prod.snd).map fun z => z k := by
      rw [Measure.map_map (measurable_pi_apply k) measurable_snd]; rfl
    rw [this, hsnd]
    exact Measure.infinitePi_map_eval _ k
  · unfold twoLaw
    exact (indepFun_prod (X := fun z : ℕ → ℝ => z) (Y := fun (z : ℕ → ℝ) k => if k < n - 1 then z k else 0) measurable_id hcut').symm

example (eh : EigSolver) (ehC : (n : Nat) → Matrix (Fin n) (Fin n) ℂ → List ℝ) (hs : ExactSolver eh) :=
  C144_generate twoRng eh ehC hs 501 (by norm_num) (twoLaw 501) id id (two_hyps 501).1 (twoLaw 501) id id (two_hyps 501).2.1 (two_hyps 501).2.2.1 (two_hyps 501).2.2.2

-- a scale-free statistic: the order of the first two spacings
example (n : Nat) (i j k : Fin n) (r : ℝ) (v : Fin n → ℝ) (hr : 0 < r) :
    r * v j - r * v i ≤ r * v k - r * v j ↔ v j - v i ≤ v k - v j := by
  rw [← mul_sub, ← mul_sub, mul_le_mul_iff_right₀ hr]

end Props
end RMT
