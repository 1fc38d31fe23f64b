import Verif.Model.MatrixInput
import Verif.Props.Sparse
import Mathlib.LinearAlgebra.Matrix.Charpoly.Eigs
import Mathlib.Analysis.Matrix.Spectrum
import Mathlib.Analysis.Complex.Polynomial.Basic

/-!
# Property C136: `Eigenvalues(matrix)` holds the eigenvalues of the matrix
-/

namespace RMT
namespace Props
open EigM EigValsM Spec

variable {n : ℕ}

/-- A real matrix as a complex one. -/
noncomputable def cplx (M : Matrix (Fin n) (Fin n) ℝ) : Matrix (Fin n) (Fin n) ℂ := M.map Complex.ofReal

/-- An exact general eigenvalue routine: all complex eigenvalues with their algebraic multiplicities, in any order. -/
def ExactGeneral (eigvals : GenSolver) : Prop :=
  ∀ n (M : Matrix (Fin n) (Fin n) ℝ), (eigvals n M : Multiset ℂ) = (cplx M).charpoly.roots

/-- The specification: the real list `l` is the spectrum of `A`, with multiplicities. -/
def IsSpectrum (A : Matrix (Fin n) (Fin n) ℂ) (l : List ℝ) : Prop :=
  ((l.map Complex.ofReal : List ℂ) : Multiset ℂ) = A.charpoly.roots

theorem cplx_charpoly (M : Matrix (Fin n) (Fin n) ℝ) : (cplx M).charpoly = M.charpoly.map Complex.ofRealHom :=
  Matrix.charpoly_map M Complex.ofRealHom

theorem asFloat_cplx (M : Matrix (Fin n) (Fin n) ℝ) : asFloat (cplx M) = M := by
  ext i j; simp [asFloat, cplx]

theorem symm_roots (M : Matrix (Fin n) (Fin n) ℝ) (hM : M.IsSymm) :
    (cplx M).charpoly.roots = M.charpoly.roots.map Complex.ofReal := by
  have hH : M.IsHermitian := by rw [Matrix.IsHermitian, Matrix.conjTranspose_eq_transpose_of_trivial]; exact hM
  rw [cplx_charpoly, hH.splits_charpoly.roots_map]
  rfl

theorem squareEigs_eq (eigvalsh : EigSolver) (eigvals : GenSolver) (h1 : ExactSolver eigvalsh) (h2 : ExactGeneral eigvals)
    (M : Matrix (Fin n) (Fin n) ℝ) : (squareEigs eigvalsh eigvals M : Multiset ℝ) = (cplx M).charpoly.roots.map Complex.re := by
  unfold squareEigs
  split_ifs with h
  · rw [h1 n M h, symm_roots M h, Multiset.map_map]
    simp
  · rw [← Multiset.map_coe, h2 n M]

theorem fromMatrix_square (eigvalsh : EigSolver) (eigvals : GenSolver) (A : Matrix (Fin n) (Fin n) ℂ) :
    fromMatrix eigvalsh eigvals A = .ok ⟨npSort (squareEigs eigvalsh eigvals (asFloat A)),
      npSort (squareEigs eigvalsh eigvals (asFloat A)), none⟩ := by
  simp only [fromMatrix, dif_pos, Fin.cast_refl]
  rw [npSort_of_ascending _ (npSort_ascending _)]
  rfl

/-- **C136 (symmetric).** For a real symmetric matrix, with an exact symmetric eigenvalue routine, the object holds exactly the eigenvalues of the matrix, with multiplicities, in ascending order; the
general routine plays no part. -/
theorem C136_symmetric (eigvalsh : EigSolver) (eigvals : GenSolver) (h1 : ExactSolver eigvalsh) (M : Matrix (Fin n) (Fin n) ℝ) (hM : M.IsSymm) :
    ∃ o, fromMatrix eigvalsh eigvals (cplx M) = .ok o ∧ IsSpectrum (cplx M) o.vals ∧ o.construct = o.vals ∧ Ascending o.vals ∧ o.vals.length = n := by
  refine ⟨_, fromMatrix_square _ _ _, ?_, rfl, npSort_ascending _, ?_⟩
  all_goals rw [asFloat_cplx]
  all_goals have hp := npSort_perm (squareEigs eigvalsh eigvals M)
  all_goals have he : squareEigs eigvalsh eigvals M = eigvalsh n M := by unfold squareEigs; exact if_pos hM
  · show ((List.map _ _ : List ℂ) : Multiset ℂ) = _
    rw [Multiset.coe_eq_coe.mpr (hp.map _), he, ← Multiset.map_coe, h1 n M hM, symm_roots M hM]
  · rw [hp.length_eq, he, ← Multiset.coe_card, h1 n M hM]
    have hH : M.IsHermitian := by rw [Matrix.IsHermitian, Matrix.conjTranspose_eq_transpose_of_trivial]; exact hM
    rw [hH.splits_charpoly.natDegree_eq_card_roots.symm, Matrix.charpoly_natDegree_eq_dim, Fintype.card_fin]

/-- The full characterisation for square matrices: the object holds, in ascending order, the real parts of the complex eigenvalues of the real part of the matrix. -/
theorem C136_content_partial (eigvalsh : EigSolver) (eigvals : GenSolver) (h1 : ExactSolver eigvalsh) (h2 : ExactGeneral eigvals) (A : Matrix (Fin n) (Fin n) ℂ) :
    ∃ o, fromMatrix eigvalsh eigvals A = .ok o ∧ (o.vals : Multiset ℝ) = (cplx (A.map Complex.re)).charpoly.roots.map Complex.re ∧
      o.construct = o.vals ∧ Ascending o.vals ∧ o.vals.length = n := by
  refine ⟨_, fromMatrix_square _ _ _, ?_, rfl, npSort_ascending _, ?_⟩
  all_goals have hp := npSort_perm (squareEigs eigvalsh eigvals (asFloat A))
  · show ((npSort _ : List ℝ) : Multiset ℝ) = _
    rw [Multiset.coe_eq_coe.mpr hp, squareEigs_eq _ _ h1 h2]
    rfl
  · rw [hp.length_eq, ← Multiset.coe_card, squareEigs_eq _ _ h1 h2, Multiset.card_map, ← (IsAlgClosed.splits _).natDegree_eq_card_roots,
      Matrix.charpoly_natDegree_eq_dim, Fintype.card_fin]

theorem re_ofReal_iff (s : Multiset ℂ) : (s.map Complex.re).map Complex.ofReal = s ↔ ∀ z ∈ s, z.im = 0 := by
  constructor
  · intro h z hz
    rw [← h, Multiset.map_map] at hz
    obtain ⟨w, -, rfl⟩ := Multiset.mem_map.mp hz
    simp
  · intro h
    rw [Multiset.map_map]
    conv_rhs => rw [← Multiset.map_id s]
    exact Multiset.map_congr rfl fun z hz => Complex.ext rfl (by simp [h z hz])

/-- **C136 (real matrices).** For a real square matrix, symmetric or not, the values are the spectrum exactly if all eigenvalues are real. -/
theorem C136_real_iff (eigvalsh : EigSolver) (eigvals : GenSolver) (h1 : ExactSolver eigvalsh) (h2 : ExactGeneral eigvals) (M : Matrix (Fin n) (Fin n) ℝ) :
    ∃ o, fromMatrix eigvalsh eigvals (cplx M) = .ok o ∧ (IsSpectrum (cplx M) o.vals ↔ ∀ z ∈ (cplx M).charpoly.roots, z.im = 0) := by
  obtain ⟨o, ho, hv, -⟩ := C136_content_partial eigvalsh eigvals h1 h2 (cplx M)
  refine ⟨o, ho, ?_⟩
  have e : (cplx M).map Complex.re = M := asFloat_cplx M
  rw [e] at hv
  rw [IsSpectrum, ← Multiset.map_coe, hv]
  exact re_ofReal_iff _

/-- **C136 (imaginary parts).** The imaginary parts of the entries have no effect on the result. -/
theorem C136_imaginary_ignored (eigvalsh : EigSolver) (eigvals : GenSolver) {m : ℕ} (A B : Matrix (Fin n) (Fin m) ℂ) (h : ∀ i j, (A i j).re = (B i j).re) :
    fromMatrix eigvalsh eigvals A = fromMatrix eigvalsh eigvals B := by
  have : asFloat A = asFloat B := by ext i j; exact h i j
  simp only [fromMatrix, this]

/-- **C136 (sum).** The values sum to the real part of the trace of the matrix. -/
theorem C136_trace (eigvalsh : EigSolver) (eigvals : GenSolver) (h1 : ExactSolver eigvalsh) (h2 : ExactGeneral eigvals) (A : Matrix (Fin n) (Fin n) ℂ) :
    ∃ o, fromMatrix eigvalsh eigvals A = .ok o ∧ o.vals.sum = A.trace.re := by
  obtain ⟨o, ho, hv, -⟩ := C136_content_partial eigvalsh eigvals h1 h2 A
  refine ⟨o, ho, ?_⟩
  have h3 : ((cplx (A.map Complex.re)).charpoly.roots.map Complex.re).sum = ((cplx (A.map Complex.re)).charpoly.roots.sum).re :=
    (map_multiset_sum Complex.reAddGroupHom _).symm
  rw [← Multiset.sum_coe, hv, h3, ← Matrix.trace_eq_sum_roots_charpoly]
  simp [Matrix.trace, cplx]

/-- **C136 (transpose, similarity).** Real matrices with the same characteristic polynomial give the same object: in particular a matrix and its transpose, and a matrix and any
similar one. -/
theorem C136_similar (eigvalsh : EigSolver) (eigvals : GenSolver) (h1 : ExactSolver eigvalsh) (h2 : ExactGeneral eigvals) (M : Matrix (Fin n) (Fin n) ℝ) :
    (∀ M' : Matrix (Fin n) (Fin n) ℝ, M'.charpoly = M.charpoly → fromMatrix eigvalsh eigvals (cplx M') = fromMatrix eigvalsh eigvals (cplx M)) ∧
    fromMatrix eigvalsh eigvals (cplx M.transpose) = fromMatrix eigvalsh eigvals (cplx M) ∧
    ∀ P : (Matrix (Fin n) (Fin n) ℝ)ˣ, fromMatrix eigvalsh eigvals (cplx (P.val * M * P⁻¹.val)) = fromMatrix eigvalsh eigvals (cplx M) := by
  have key : ∀ M' : Matrix (Fin n) (Fin n) ℝ, M'.charpoly = M.charpoly → fromMatrix eigvalsh eigvals (cplx M') = fromMatrix eigvalsh eigvals (cplx M) := by
    intro M' h
    rw [fromMatrix_square, fromMatrix_square, asFloat_cplx, asFloat_cplx]
    have : (squareEigs eigvalsh eigvals M').Perm (squareEigs eigvalsh eigvals M) := by
      rw [← Multiset.coe_eq_coe, squareEigs_eq _ _ h1 h2, squareEigs_eq _ _ h1 h2, cplx_charpoly, cplx_charpoly, h]
    rw [npSort_eq_of_perm this]
  exact ⟨key, key _ (Matrix.charpoly_transpose M), fun P => key _ (by rw [Matrix.coe_units_inv]; exact Matrix.charpoly_units_conj P M)⟩

/-- **C136 (triangular).** For a real lower or upper triangular matrix the object holds the sorted diagonal. -/
theorem C136_triangular (eigvalsh : EigSolver) (eigvals : GenSolver) (h1 : ExactSolver eigvalsh) (h2 : ExactGeneral eigvals) (M : Matrix (Fin n) (Fin n) ℝ)
    (hM : (∀ i j, i < j → M i j = 0) ∨ ∀ i j, j < i → M i j = 0) :
    ∃ o, fromMatrix eigvalsh eigvals (cplx M) = .ok o ∧ o.vals = npSort (List.ofFn fun i => M i i) := by
  refine ⟨_, fromMatrix_square _ _ _, ?_⟩
  have hch : M.charpoly = ((Finset.univ.val.map fun i => M i i).map fun a => Polynomial.X - Polynomial.C a).prod := by
    rw [Multiset.map_map]
    rcases hM with h | h
    · rw [charpoly_lower M h]; rfl
    · rw [Matrix.charpoly_of_isUpperTriangular M (fun i j hij => h i j hij)]; rfl
  have hs : M.charpoly.Splits := by
    rw [hch]
    exact Polynomial.Splits.multisetProd (by
      intro f hf
      obtain ⟨a, -, rfl⟩ := Multiset.mem_map.mp hf
      exact Polynomial.Splits.X_sub_C a)
  have hr : M.charpoly.roots = Finset.univ.val.map fun i => M i i := by rw [hch, Polynomial.roots_multiset_prod_X_sub_C]
  rw [asFloat_cplx]
  apply npSort_eq_of_perm
  rw [← Multiset.coe_eq_coe, squareEigs_eq _ _ h1 h2, cplx_charpoly, hs.roots_map, hr, Multiset.map_map, Multiset.map_map]
  simp [List.ofFn_eq_map, ← Multiset.map_coe]

/-- **C136 (shape).** A matrix that is not square raises `LinAlgError`; every square matrix is accepted. -/
theorem C136_shape (eigvalsh : EigSolver) (eigvals : GenSolver) {m : ℕ} (A : Matrix (Fin n) (Fin m) ℂ) :
    (n ≠ m → fromMatrix eigvalsh eigvals A = .error .linAlgError) ∧ (n = m → ∃ o, fromMatrix eigvalsh eigvals A = .ok o) := by
  refine ⟨fun h => by simp [fromMatrix, h], fun h => ?_⟩
  subst h
  exact ⟨_, fromMatrix_square _ _ _⟩

theorem npSort_zeros : npSort [(0 : ℝ), 0] = [0, 0] := npSort_of_ascending _ (by simp [Ascending])

theorem sqrt_neg_one_roots : (Polynomial.X ^ 2 + 1 : Polynomial ℂ).roots.map Complex.re = {0, 0} := by
  have h : (Polynomial.X ^ 2 + 1 : Polynomial ℂ) = (({Complex.I, -Complex.I} : Multiset ℂ).map fun a => Polynomial.X - Polynomial.C a).prod := by
    have e : Polynomial.C Complex.I * Polynomial.C Complex.I = -1 := by rw [← Polynomial.C_mul, Complex.I_mul_I]; simp
    simp only [Multiset.insert_eq_cons, Multiset.map_cons, Multiset.map_singleton, Multiset.prod_cons, Multiset.prod_singleton, Polynomial.C_neg]
    linear_combination e
  rw [h, Polynomial.roots_multiset_prod_X_sub_C]
  simp

/-- The quarter turn, whose eigenvalues are `i` and `-i`. -/
def quarterTurn : Matrix (Fin 2) (Fin 2) ℝ := !![0, -1; 1, 0]

/-- A Hermitian matrix with eigenvalues `1` and `-1`. -/
def pauliY : Matrix (Fin 2) (Fin 2) ℂ := !![0, -Complex.I; Complex.I, 0]

/-- **C136 refuted in general.** With exact routines: for a rotation by a quarter turn (no real eigenvalue) the object holds `0, 0`; for a Hermitian matrix with eigenvalues `-1, 1` it holds `0, 0`: neither
is the spectrum. -/
theorem C136_refuted (eigvalsh : EigSolver) (eigvals : GenSolver) (h1 : ExactSolver eigvalsh) (h2 : ExactGeneral eigvals) :
    (fromMatrix eigvalsh eigvals (cplx quarterTurn) = .ok ⟨[0, 0], [0, 0], none⟩ ∧ ¬ IsSpectrum (cplx quarterTurn) [0, 0]) ∧
    (pauliY.IsHermitian ∧ fromMatrix eigvalsh eigvals pauliY = .ok ⟨[0, 0], [0, 0], none⟩ ∧ IsSpectrum pauliY [-1, 1] ∧ ¬ IsSpectrum pauliY [0, 0]) := by
  have hq : (cplx quarterTurn).charpoly = Polynomial.X ^ 2 + 1 := by
    rw [Matrix.charpoly_fin_two]; simp [cplx, quarterTurn, Matrix.trace_fin_two, Matrix.det_fin_two]
  have hp : pauliY.charpoly = Polynomial.X ^ 2 - 1 := by
    rw [Matrix.charpoly_fin_two]; simp [pauliY, Matrix.trace_fin_two, Matrix.det_fin_two, sub_eq_add_neg]
  have hpr : pauliY.charpoly.roots = {-1, 1} := by
    have : (Polynomial.X ^ 2 - 1 : Polynomial ℂ) = (({-1, 1} : Multiset ℂ).map fun a => Polynomial.X - Polynomial.C a).prod := by
      simp only [Multiset.insert_eq_cons, Multiset.map_cons, Multiset.map_singleton, Multiset.prod_cons, Multiset.prod_singleton, Polynomial.C_neg, Polynomial.C_1]
      ring
    rw [hp, this, Polynomial.roots_multiset_prod_X_sub_C]
  have z0 : ((cplx 0 : Matrix (Fin 2) (Fin 2) ℂ).charpoly.roots.map Complex.re) = {0, 0} := by
    rw [cplx_charpoly, Matrix.charpoly_zero]
    simp [two_nsmul]
  have build : ∀ A : Matrix (Fin 2) (Fin 2) ℂ, (cplx (asFloat A)).charpoly.roots.map Complex.re = {0, 0} →
      fromMatrix eigvalsh eigvals A = .ok ⟨[0, 0], [0, 0], none⟩ := by
    intro A h
    rw [fromMatrix_square]
    have : (squareEigs eigvalsh eigvals (asFloat A)).Perm [0, 0] := by
      rw [← Multiset.coe_eq_coe, squareEigs_eq _ _ h1 h2, h]; rfl
    rw [npSort_eq_of_perm this, npSort_zeros]
  have hY : asFloat pauliY = 0 := by ext i j; fin_cases i <;> fin_cases j <;> simp [asFloat, pauliY]
  refine ⟨⟨build _ (by rw [asFloat_cplx, hq, sqrt_neg_one_roots]), ?_⟩, ?_, build _ (by rw [hY, z0]), ?_, ?_⟩
  · intro h
    rw [IsSpectrum, hq] at h
    have h0 : (0 : ℂ) ∈ (Polynomial.X ^ 2 + 1 : Polynomial ℂ).roots := by rw [← h]; simp
    have := (Polynomial.mem_roots'.mp h0).2
    simp at this
  · ext i j; fin_cases i <;> fin_cases j <;> simp [pauliY]
  · rw [IsSpectrum, hpr]; simp; rfl
  · intro h
    rw [IsSpectrum, hpr] at h
    have h0 : (0 : ℂ) ∈ ({-1, 1} : Multiset ℂ) := by rw [← h]; simp
    simp at h0

-- exact routines exist, a symmetric matrix with off-diagonal entries, a triangular one, a non-symmetric one with real eigenvalues
example : ∃ e g, ExactSolver e ∧ ExactGeneral g :=
  ⟨fun _ M => M.charpoly.roots.toList, fun _ M => (cplx M).charpoly.roots.toList, fun _ _ _ => Multiset.coe_toList _, fun _ _ => Multiset.coe_toList _⟩
example : (!![1, 2; 2, 5] : Matrix (Fin 2) (Fin 2) ℝ).IsSymm := by ext i j; fin_cases i <;> fin_cases j <;> rfl
example : ∀ i j, i < j → (!![1, 0; 2, 5] : Matrix (Fin 2) (Fin 2) ℝ) i j = 0 := by
  intro i j h; fin_cases i <;> fin_cases j <;> simp_all

end Props
end RMT
