import Verif.Lemmas.TridiagonalLaw

/-! # Bidiagonal reduction of a matrix of independent normal entries -/

namespace RMT.Gauss
open MeasureTheory ProbabilityTheory Real Set
open scoped ENNReal

/-- Renaming the coordinates. -/
theorem gau_equiv {ι κ : Type} [Fintype ι] [Fintype κ] (e : ι ≃ κ) (F : (ι → ℝ) → ℝ≥0∞) (hF : Measurable F) : ∫⁻ v, F v ∂gau ι = ∫⁻ w, F (w ∘ e) ∂gau κ := by
  have h : (gau κ).map (fun w => w ∘ e) = gau ι := by
    refine gau_map (fun w => w ∘ e) (fun t => t ∘ e.symm) (measurable_pi_lambda _ fun i => measurable_pi_apply _) ?_ ?_
    · intro x t
      rw [← e.sum_comp]
      simp
    · intro t
      rw [← e.sum_comp]
      simp
  rw [← h, lintegral_map hF (measurable_pi_lambda _ fun i => measurable_pi_apply _)]

/-- The array `v V`. -/
def rmul {N T : ℕ} (v : Fin N × Fin T → ℝ) (V : Matrix (Fin T) (Fin T) ℝ) : Fin N × Fin T → ℝ := fun p => ∑ l, v (p.1, l) * V l p.2

/-- The array `U v`. -/
def lmul {N T : ℕ} (U : Matrix (Fin N) (Fin N) ℝ) (v : Fin N × Fin T → ℝ) : Fin N × Fin T → ℝ := fun p => ∑ l, U p.1 l * v (l, p.2)

theorem matrix_sum {N T : ℕ} (x y : Fin N × Fin T → ℝ) : ∑ p, x p * y p = ((Matrix.of fun i j => x (i, j)) * (Matrix.of fun i j => y (i, j)).transpose).trace := by
  rw [Fintype.sum_prod_type]
  simp [Matrix.trace, Matrix.mul_apply]

theorem of_rmul {N T : ℕ} (v : Fin N × Fin T → ℝ) (V : Matrix (Fin T) (Fin T) ℝ) : (Matrix.of fun i j => rmul v V (i, j)) = (Matrix.of fun i j => v (i, j)) * V := by
  ext i j
  simp [rmul, Matrix.mul_apply]

theorem of_lmul {N T : ℕ} (U : Matrix (Fin N) (Fin N) ℝ) (v : Fin N × Fin T → ℝ) : (Matrix.of fun i j => lmul U v (i, j)) = U * (Matrix.of fun i j => v (i, j)) := by
  ext i j
  simp [lmul, Matrix.mul_apply]

theorem rmul_integral {N T : ℕ} (V : Matrix (Fin T) (Fin T) ℝ) (hV : V ∈ Matrix.orthogonalGroup (Fin T) ℝ) (F : (Fin N × Fin T → ℝ) → ℝ≥0∞) (hF : Measurable F) :
    ∫⁻ v, F (rmul v V) ∂gau (Fin N × Fin T) = ∫⁻ v, F v ∂gau (Fin N × Fin T) := by
  have h1 := (Matrix.mem_orthogonalGroup_iff' (Fin T) ℝ).mp hV
  have hm : Measurable fun v : Fin N × Fin T → ℝ => rmul v V := by
    refine measurable_pi_lambda _ fun p => ?_
    simp only [rmul]
    fun_prop
  have h : (gau (Fin N × Fin T)).map (fun v => rmul v V) = gau (Fin N × Fin T) := by
    refine gau_map _ (fun t => rmul t V.transpose) hm ?_ ?_
    · intro x t
      rw [matrix_sum, matrix_sum, of_rmul, of_rmul]
      simp only [Matrix.transpose_mul, Matrix.transpose_transpose, Matrix.mul_assoc]
    · intro t
      simp only [sq]
      rw [matrix_sum, matrix_sum, of_rmul]
      simp only [Matrix.transpose_mul, Matrix.transpose_transpose, Matrix.mul_assoc]
      rw [← Matrix.mul_assoc V.transpose, h1, Matrix.one_mul]
  conv_rhs => rw [← h, lintegral_map hF hm]

theorem lmul_integral {N T : ℕ} (U : Matrix (Fin N) (Fin N) ℝ) (hU : U ∈ Matrix.orthogonalGroup (Fin N) ℝ) (F : (Fin N × Fin T → ℝ) → ℝ≥0∞) (hF : Measurable F) :
    ∫⁻ v, F (lmul U v) ∂gau (Fin N × Fin T) = ∫⁻ v, F v ∂gau (Fin N × Fin T) := by
  have h2 := (Matrix.mem_orthogonalGroup_iff (Fin N) ℝ).mp hU
  have hm : Measurable fun v : Fin N × Fin T → ℝ => lmul U v := by
    refine measurable_pi_lambda _ fun p => ?_
    simp only [lmul]
    fun_prop
  have h : (gau (Fin N × Fin T)).map (fun v => lmul U v) = gau (Fin N × Fin T) := by
    refine gau_map _ (fun t => lmul U.transpose t) hm ?_ ?_
    · intro x t
      rw [matrix_sum, matrix_sum, of_lmul, of_lmul]
      simp only [Matrix.transpose_mul, Matrix.transpose_transpose]
      rw [Matrix.mul_assoc, Matrix.trace_mul_comm, Matrix.mul_assoc]
    · intro t
      simp only [sq]
      rw [matrix_sum, matrix_sum, of_lmul]
      simp only [Matrix.transpose_mul, Matrix.transpose_transpose]
      generalize (Matrix.of fun i j => t (i, j)) = A
      rw [Matrix.mul_assoc, Matrix.trace_mul_comm]
      simp only [Matrix.mul_assoc]
      rw [h2, Matrix.mul_one]
  conv_rhs => rw [← h, lintegral_map hF hm]

/-! ## Splitting off the first row and column -/

/-- An array by its first row and its other rows. -/
def stack {N T : ℕ} (x : Fin T → ℝ) (R : Fin N × Fin T → ℝ) : Fin (N + 1) × Fin T → ℝ := fun p => Fin.cases (x p.2) (fun i => R (i, p.2)) p.1

/-- An array by its first column and its other columns. -/
def side {N T : ℕ} (c : Fin N → ℝ) (Y : Fin N × Fin T → ℝ) : Fin N × Fin (T + 1) → ℝ := fun p => Fin.cases (c p.1) (fun j => Y (p.1, j)) p.2

/-- A lower triangular bordering. -/
def rect {N T : ℕ} (a : ℝ) (c : Fin N → ℝ) (Y : Fin N × Fin T → ℝ) : Fin (N + 1) × Fin (T + 1) → ℝ := stack (first (T + 1) a) (side c Y)

@[simp] theorem stack_0 {N T : ℕ} (x : Fin T → ℝ) (R : Fin N × Fin T → ℝ) (j : Fin T) : stack x R (0, j) = x j := rfl
@[simp] theorem stack_s {N T : ℕ} (x : Fin T → ℝ) (R : Fin N × Fin T → ℝ) (i : Fin N) (j : Fin T) : stack x R (i.succ, j) = R (i, j) := rfl
@[simp] theorem side_0 {N T : ℕ} (c : Fin N → ℝ) (Y : Fin N × Fin T → ℝ) (i : Fin N) : side c Y (i, 0) = c i := rfl
@[simp] theorem side_s {N T : ℕ} (c : Fin N → ℝ) (Y : Fin N × Fin T → ℝ) (i : Fin N) (j : Fin T) : side c Y (i, j.succ) = Y (i, j) := rfl
@[simp] theorem rect_00 {N T : ℕ} (a : ℝ) (c : Fin N → ℝ) (Y : Fin N × Fin T → ℝ) : rect a c Y (0, 0) = a := by simp [rect, first]
@[simp] theorem rect_0s {N T : ℕ} (a : ℝ) (c : Fin N → ℝ) (Y : Fin N × Fin T → ℝ) (j : Fin T) : rect a c Y (0, j.succ) = 0 := by simp [rect, first]
@[simp] theorem rect_s0 {N T : ℕ} (a : ℝ) (c : Fin N → ℝ) (Y : Fin N × Fin T → ℝ) (i : Fin N) : rect a c Y (i.succ, 0) = c i := rfl
@[simp] theorem rect_ss {N T : ℕ} (a : ℝ) (c : Fin N → ℝ) (Y : Fin N × Fin T → ℝ) (i : Fin N) (j : Fin T) : rect a c Y (i.succ, j.succ) = Y (i, j) := rfl

def rowEquiv (N T : ℕ) : Fin (N + 1) × Fin T ≃ Fin T ⊕ Fin N × Fin T where
  toFun p := Fin.cases (.inl p.2) (fun i => .inr (i, p.2)) p.1
  invFun s := Sum.elim (fun j => (0, j)) (fun p => (p.1.succ, p.2)) s
  left_inv p := by
    obtain ⟨i, j⟩ := p
    refine Fin.cases ?_ (fun i => ?_) i <;> simp
  right_inv s := by rcases s with s | s <;> simp

def colEquiv (N T : ℕ) : Fin N × Fin (T + 1) ≃ Fin N ⊕ Fin N × Fin T where
  toFun p := Fin.cases (.inl p.1) (fun j => .inr (p.1, j)) p.2
  invFun s := Sum.elim (fun i => (i, 0)) (fun p => (p.1, p.2.succ)) s
  left_inv p := by
    obtain ⟨i, j⟩ := p
    refine Fin.cases ?_ (fun j => ?_) j <;> simp
  right_inv s := by rcases s with s | s <;> simp

theorem row_integral {N T : ℕ} (F : (Fin (N + 1) × Fin T → ℝ) → ℝ≥0∞) (hF : Measurable F) :
    ∫⁻ v, F v ∂gau (Fin (N + 1) × Fin T) = ∫⁻ x, ∫⁻ R, F (stack x R) ∂gau (Fin N × Fin T) ∂gau (Fin T) := by
  rw [gau_equiv (rowEquiv N T) F hF, gau_sum (fun w => F (w ∘ rowEquiv N T)) (hF.comp (measurable_pi_lambda _ fun i => measurable_pi_apply _))]
  refine lintegral_congr fun x => lintegral_congr fun R => ?_
  congr 1
  funext p
  obtain ⟨i, j⟩ := p
  refine Fin.cases ?_ (fun i => ?_) i <;> simp [rowEquiv]

theorem col_integral {N T : ℕ} (F : (Fin N × Fin (T + 1) → ℝ) → ℝ≥0∞) (hF : Measurable F) :
    ∫⁻ v, F v ∂gau (Fin N × Fin (T + 1)) = ∫⁻ c, ∫⁻ Y, F (side c Y) ∂gau (Fin N × Fin T) ∂gau (Fin N) := by
  rw [gau_equiv (colEquiv N T) F hF, gau_sum (fun w => F (w ∘ colEquiv N T)) (hF.comp (measurable_pi_lambda _ fun i => measurable_pi_apply _))]
  refine lintegral_congr fun x => lintegral_congr fun R => ?_
  congr 1
  funext p
  obtain ⟨i, j⟩ := p
  refine Fin.cases ?_ (fun j => ?_) j <;> simp [colEquiv]

theorem measurable_stack {N T : ℕ} (x : Fin T → ℝ) : Measurable fun R : Fin N × Fin T → ℝ => stack x R := by
  refine measurable_pi_lambda _ fun p => ?_
  obtain ⟨i, j⟩ := p
  refine Fin.cases ?_ (fun i => ?_) i
  · exact measurable_const
  · exact measurable_pi_apply _

theorem measurable_side {N T : ℕ} (c : Fin N → ℝ) : Measurable fun Y : Fin N × Fin T → ℝ => side c Y := by
  refine measurable_pi_lambda _ fun p => ?_
  obtain ⟨i, j⟩ := p
  refine Fin.cases ?_ (fun j => ?_) j
  · exact measurable_const
  · exact measurable_pi_apply _

/-! ## The reduction -/

/-- Expectation over the random bidiagonal array: the first row and column are drawn, then the rest. -/
noncomputable def bidI : (N T : ℕ) → ((Fin N × Fin T → ℝ) → ℝ≥0∞) → ℝ≥0∞
  | 0, _, F => F 0
  | _ + 1, 0, F => F 0
  | N + 1, T + 1, F => ∫⁻ x, ∫⁻ c, bidI N T (fun Y => F (rect (√(∑ i, x i ^ 2)) (first N (√(∑ i, c i ^ 2))) Y)) ∂gau (Fin N) ∂gau (Fin (T + 1))

/-- `F` does not change when the rows below the first are rotated. -/
def LeftInvariant : {N T : ℕ} → ((Fin N × Fin T → ℝ) → ℝ≥0∞) → Prop
  | 0, _, _ => True
  | N + 1, _, F => ∀ U ∈ Matrix.orthogonalGroup (Fin N) ℝ, ∀ v, F (lmul (ext1 U) v) = F v

theorem stack_rmul {N T : ℕ} (x : Fin T → ℝ) (R : Fin N × Fin T → ℝ) (Q : Matrix (Fin T) (Fin T) ℝ) : rmul (stack x R) Q.transpose = stack (Q.mulVec x) (rmul R Q.transpose) := by
  funext p
  obtain ⟨i, j⟩ := p
  refine Fin.cases ?_ (fun i => ?_) i
  · simp [rmul, Matrix.mulVec, dotProduct, mul_comm]
  · simp [rmul]

theorem rect_lmul {N T : ℕ} (a : ℝ) (c : Fin N → ℝ) (Y : Fin N × Fin T → ℝ) (U : Matrix (Fin N) (Fin N) ℝ) : lmul (ext1 U) (rect a c Y) = rect a (U.mulVec c) (lmul U Y) := by
  funext p
  obtain ⟨i, j⟩ := p
  refine Fin.cases ?_ (fun i => ?_) i <;> refine Fin.cases ?_ (fun j => ?_) j <;>
    simp [lmul, ext1, Fin.sum_univ_succ, Matrix.mulVec, dotProduct]

theorem rect_rmul {N T : ℕ} (a : ℝ) (c : Fin N → ℝ) (Y : Fin N × Fin T → ℝ) (V : Matrix (Fin T) (Fin T) ℝ) : rmul (rect a c Y) (ext1 V) = rect a c (rmul Y V) := by
  funext p
  obtain ⟨i, j⟩ := p
  refine Fin.cases ?_ (fun i => ?_) i <;> refine Fin.cases ?_ (fun j => ?_) j <;>
    simp [rmul, ext1, Fin.sum_univ_succ]

theorem transpose_orthogonal {n : ℕ} (Q : Matrix (Fin n) (Fin n) ℝ) (h : Q ∈ Matrix.orthogonalGroup (Fin n) ℝ) : Q.transpose ∈ Matrix.orthogonalGroup (Fin n) ℝ := by
  rw [Matrix.mem_orthogonalGroup_iff, Matrix.transpose_transpose]
  exact (Matrix.mem_orthogonalGroup_iff' (Fin n) ℝ).mp h

theorem full_eq_bid : ∀ (N T : ℕ) (F : (Fin N × Fin T → ℝ) → ℝ≥0∞), Measurable F → (∀ V ∈ Matrix.orthogonalGroup (Fin T) ℝ, ∀ v, F (rmul v V) = F v) → LeftInvariant F →
    ∫⁻ v, F v ∂gau (Fin N × Fin T) = bidI N T F
  | 0, T, F, _, _, _ => by
    have : ∀ v : Fin 0 × Fin T → ℝ, F v = F 0 := fun v => by
      congr 1
      funext p
      exact p.1.elim0
    simp only [this, lintegral_const, measure_univ, mul_one, bidI]
  | N + 1, 0, F, _, _, _ => by
    have : ∀ v : Fin (N + 1) × Fin 0 → ℝ, F v = F 0 := fun v => by
      congr 1
      funext p
      exact p.2.elim0
    simp only [this, lintegral_const, measure_univ, mul_one, bidI]
  | N + 1, T + 1, F, hF, hR, hL => by
    rw [row_integral F hF, bidI]
    refine lintegral_congr fun x => ?_
    obtain ⟨Q, hQ, hx⟩ := householder x
    have e : ∀ R, F (stack x R) = F (stack (first (T + 1) (√(∑ i, x i ^ 2))) (rmul R Q.transpose)) := fun R => by
      rw [← hx, ← stack_rmul, hR _ (transpose_orthogonal Q hQ)]
    simp only [e]
    generalize √(∑ i, x i ^ 2) = a
    rw [rmul_integral _ (transpose_orthogonal Q hQ) (fun R => F (stack (first (T + 1) a) R)) (hF.comp (measurable_stack _)),
      col_integral (fun R => F (stack (first (T + 1) a) R)) (hF.comp (measurable_stack _))]
    refine lintegral_congr fun c => ?_
    obtain ⟨U, hU, hc⟩ := householder c
    have e2 : ∀ Y, F (stack (first (T + 1) a) (side c Y)) = F (rect a (first N (√(∑ i, c i ^ 2))) (lmul U Y)) := fun Y => by
      rw [← hc, ← rect_lmul]
      exact (hL U hU _).symm
    simp only [e2]
    generalize √(∑ i, c i ^ 2) = d
    have hm : Measurable fun Y : Fin N × Fin T → ℝ => F (rect a (first N d) Y) := hF.comp ((measurable_stack _).comp (measurable_side _))
    rw [lmul_integral U hU _ hm]
    refine full_eq_bid N T _ hm ?_ ?_
    · intro V hV v
      rw [← rect_rmul, hR _ (ext1_orthogonal V hV)]
    · cases N with
      | zero => trivial
      | succ N =>
        intro U' hU' v
        have h1 := hL (ext1 U') (ext1_orthogonal U' hU') (rect a (first (N + 1) d) v)
        rw [rect_lmul, ext1_first] at h1
        exact h1

end RMT.Gauss
