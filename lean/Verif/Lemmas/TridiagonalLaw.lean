import Verif.Lemmas.Gauss
import Verif.Model.Generate
import Verif.Spec.ChiSquare
import Mathlib.LinearAlgebra.UnitaryGroup

/-!
# Tridiagonal reduction of the Gaussian orthogonal ensemble
-/

namespace RMT
namespace Gauss
open MeasureTheory ProbabilityTheory Real Set Gen
open scoped RealInnerProductSpace ENNReal

/-- Independent standard normal coordinates. -/
noncomputable def gau (ι : Type) [Fintype ι] : Measure (ι → ℝ) := Measure.pi fun _ => gaussianReal 0 1

instance (ι : Type) [Fintype ι] : IsProbabilityMeasure (gau ι) := by unfold gau; infer_instance

theorem gau_std (ι : Type) [Fintype ι] : (gau ι).map (WithLp.toLp 2) = stdGaussian (EuclideanSpace ℝ ι) := map_pi_eq_stdGaussian

theorem std_gau (ι : Type) [Fintype ι] : (stdGaussian (EuclideanSpace ℝ ι)).map WithLp.ofLp = gau ι := by
  rw [← gau_std, Measure.map_map (by fun_prop) (by fun_prop)]
  exact Measure.map_id

/-- The image of independent normal coordinates under a map with a norm-preserving adjoint. -/
theorem gau_map {ι κ : Type} [Fintype ι] [Fintype κ] (T : (ι → ℝ) → (κ → ℝ)) (S : (κ → ℝ) → (ι → ℝ)) (hT : Measurable T)
    (hS : ∀ x t, ∑ k, T x k * t k = ∑ i, x i * S t i) (h : ∀ t, ∑ i, S t i ^ 2 = ∑ k, t k ^ 2) : (gau ι).map T = gau κ := by
  have key := map_coisometry (E := EuclideanSpace ℝ ι) (F := EuclideanSpace ℝ κ) (fun v => WithLp.toLp 2 (T v.ofLp)) (fun v => WithLp.toLp 2 (S v.ofLp))
    (by fun_prop) (fun x t => by
      simp only [PiLp.inner_apply, RCLike.inner_apply, conj_trivial]
      simpa [mul_comm] using hS x t)
    (fun t => by
      rw [← sq_eq_sq₀ (norm_nonneg _) (norm_nonneg _), EuclideanSpace.real_norm_sq_eq, EuclideanSpace.real_norm_sq_eq]
      exact h t)
  rw [← std_gau ι, ← std_gau κ, ← key, Measure.map_map hT (by fun_prop), Measure.map_map (by fun_prop) (by fun_prop)]
  rfl

theorem gau_sum {ι κ : Type} [Fintype ι] [Fintype κ] (F : (ι ⊕ κ → ℝ) → ℝ≥0∞) (hF : Measurable F) :
    ∫⁻ v, F v ∂gau (ι ⊕ κ) = ∫⁻ x, ∫⁻ y, F (Sum.elim x y) ∂gau κ ∂gau ι := by
  have h := measurePreserving_sumPiEquivProdPi_symm (ι := ι) (ι' := κ) (X := fun _ => ℝ) (fun _ => gaussianReal 0 1)
  unfold gau
  rw [← h.lintegral_comp hF, lintegral_prod (fun z => F (_)) (hF.comp h.measurable).aemeasurable]
  refine lintegral_congr fun x => lintegral_congr fun y => ?_
  congr 1

theorem gau_unit (F : ℝ → ℝ≥0∞) (hF : Measurable F) : ∫⁻ x, F (x ()) ∂gau Unit = ∫⁻ a, F a ∂gaussianReal 0 1 :=
  (measurePreserving_eval (ι := Unit) (fun _ => gaussianReal 0 1) ()).lintegral_comp hF

theorem gau_cons {n : Nat} (μ : Fin (n + 1) → Measure ℝ) [∀ i, IsProbabilityMeasure (μ i)] (F : (Fin (n + 1) → ℝ) → ℝ≥0∞) (hF : Measurable F) :
    ∫⁻ v, F v ∂Measure.pi μ = ∫⁻ a, ∫⁻ y, F (Fin.cons a y) ∂(Measure.pi fun i => μ i.succ) ∂μ 0 := by
  have h := (measurePreserving_piFinSuccAbove (α := fun _ => ℝ) μ 0).symm
  rw [← h.lintegral_comp hF, lintegral_prod (fun z => F (_)) (hF.comp h.measurable).aemeasurable]
  simp only [Fin.succAbove_zero]
  refine lintegral_congr fun x => lintegral_congr fun y => ?_
  congr 1
  funext i
  simp [MeasurableEquiv.piFinSuccAbove, Fin.insertNthEquiv]

/-! ## Bordered matrices -/

/-- The measurable sets of matrices are those of their entries. -/
local instance matrixMeasurable (n : Nat) : MeasurableSpace (Matrix (Fin n) (Fin n) ℝ) := inferInstanceAs (MeasurableSpace (Fin n → Fin n → ℝ))

theorem measurable_matrix {α : Type} [MeasurableSpace α] {n : Nat} (M : α → Matrix (Fin n) (Fin n) ℝ) (h : ∀ i j, Measurable fun x => M x i j) : Measurable M :=
  measurable_pi_lambda _ fun i => measurable_pi_lambda _ fun j => h i j

theorem measurable_apply {α : Type} [MeasurableSpace α] {n : Nat} (M : α → Matrix (Fin n) (Fin n) ℝ) (h : Measurable M) (i j : Fin n) : Measurable fun x => M x i j :=
  (measurable_pi_apply j).comp ((measurable_pi_apply (X := fun _ : Fin n => Fin n → ℝ) i).comp h)

/-- A symmetric matrix by its corner, first column and remaining block. -/
def bord {n : Nat} (a : ℝ) (b : Fin n → ℝ) (B : Matrix (Fin n) (Fin n) ℝ) : Matrix (Fin (n + 1)) (Fin (n + 1)) ℝ :=
  fun i j => Fin.cases (Fin.cases a b j) (fun i' => Fin.cases (b i') (B i') j) i

@[simp] theorem bord_00 {n : Nat} (a : ℝ) (b : Fin n → ℝ) (B : Matrix (Fin n) (Fin n) ℝ) : bord a b B 0 0 = a := rfl
@[simp] theorem bord_0s {n : Nat} (a : ℝ) (b : Fin n → ℝ) (B : Matrix (Fin n) (Fin n) ℝ) (j : Fin n) : bord a b B 0 j.succ = b j := rfl
@[simp] theorem bord_s0 {n : Nat} (a : ℝ) (b : Fin n → ℝ) (B : Matrix (Fin n) (Fin n) ℝ) (i : Fin n) : bord a b B i.succ 0 = b i := rfl
@[simp] theorem bord_ss {n : Nat} (a : ℝ) (b : Fin n → ℝ) (B : Matrix (Fin n) (Fin n) ℝ) (i j : Fin n) : bord a b B i.succ j.succ = B i j := rfl

/-- The block matrix `1 ⊕ Q`. -/
def ext1 {n : Nat} (Q : Matrix (Fin n) (Fin n) ℝ) : Matrix (Fin (n + 1)) (Fin (n + 1)) ℝ := bord 1 0 Q

theorem ext1_conj {n : Nat} (Q : Matrix (Fin n) (Fin n) ℝ) (a : ℝ) (b : Fin n → ℝ) (B : Matrix (Fin n) (Fin n) ℝ) :
    ext1 Q * bord a b B * (ext1 Q).transpose = bord a (Q.mulVec b) (Q * B * Q.transpose) := by
  ext i j
  refine Fin.cases ?_ (fun i => ?_) i <;> refine Fin.cases ?_ (fun j => ?_) j <;>
    simp [ext1, Matrix.mul_apply, Fin.sum_univ_succ, Matrix.mulVec, dotProduct, mul_comm]

theorem ext1_orthogonal {n : Nat} (Q : Matrix (Fin n) (Fin n) ℝ) (h : Q ∈ Matrix.orthogonalGroup (Fin n) ℝ) : ext1 Q ∈ Matrix.orthogonalGroup (Fin (n + 1)) ℝ := by
  rw [Matrix.mem_orthogonalGroup_iff] at h ⊢
  have e : ext1 Q * (ext1 Q).transpose = ext1 Q * bord 1 0 1 * (ext1 Q).transpose := by
    have : (bord 1 0 1 : Matrix (Fin (n + 1)) (Fin (n + 1)) ℝ) = 1 := by
      ext i j
      refine Fin.cases ?_ (fun i => ?_) i <;> refine Fin.cases ?_ (fun j => ?_) j <;> simp [Matrix.one_apply, eq_comm]
    rw [this, Matrix.mul_one]
  rw [e, ext1_conj, Matrix.mul_one, h]
  ext i j
  refine Fin.cases ?_ (fun i => ?_) i <;> refine Fin.cases ?_ (fun j => ?_) j <;> simp [Matrix.one_apply, eq_comm]

/-- The vector with first entry `r`, the others 0. -/
def first (n : Nat) (r : ℝ) : Fin n → ℝ := fun i => if i.val = 0 then r else 0

theorem ext1_first {n : Nat} (Q : Matrix (Fin n) (Fin n) ℝ) (r : ℝ) : (ext1 Q).mulVec (first (n + 1) r) = first (n + 1) r := by
  funext i
  refine Fin.cases ?_ (fun i => ?_) i <;> simp [ext1, Matrix.mulVec, dotProduct, first]

/-- Every vector is sent to the first axis by an orthogonal matrix. -/
theorem householder {n : Nat} (b : Fin n → ℝ) : ∃ Q ∈ Matrix.orthogonalGroup (Fin n) ℝ, Q.mulVec b = first n (√(∑ i, b i ^ 2)) := by
  cases n with
  | zero => exact ⟨1, one_mem _, funext fun i => i.elim0⟩
  | succ n =>
    set r := √(∑ i, b i ^ 2) with hr
    have hrr : r * r = b ⬝ᵥ b := by
      rw [hr, mul_self_sqrt (Finset.sum_nonneg fun i _ => sq_nonneg _)]
      simp [dotProduct, sq]
    set u := b - first (n + 1) r with hu
    have hfb : ∀ w : Fin (n + 1) → ℝ, first (n + 1) r ⬝ᵥ w = r * w 0 := fun w => by
      simp [dotProduct, first]
    have hub : u ⬝ᵥ b = b ⬝ᵥ b - r * b 0 := by rw [hu, sub_dotProduct, hfb]
    have huu : u ⬝ᵥ u = 2 * (u ⬝ᵥ b) := by
      have : u ⬝ᵥ u = u ⬝ᵥ b - u ⬝ᵥ first (n + 1) r := by rw [← dotProduct_sub]
      rw [this, dotProduct_comm u (first _ _), hfb, hub]
      have : u 0 = b 0 - r := by simp [hu, first]
      rw [this, ← hrr]
      ring
    by_cases h0 : u ⬝ᵥ u = 0
    · have : u = 0 := dotProduct_self_eq_zero.mp h0
      refine ⟨1, one_mem _, ?_⟩
      rw [Matrix.one_mulVec]
      exact sub_eq_zero.mp this
    · refine ⟨1 - (2 / (u ⬝ᵥ u)) • Matrix.vecMulVec u u, ?_, ?_⟩
      · rw [Matrix.mem_orthogonalGroup_iff]
        simp only [Matrix.transpose_sub, Matrix.transpose_one, Matrix.transpose_smul,
          Matrix.transpose_vecMulVec, Matrix.mul_sub, Matrix.sub_mul, Matrix.one_mul, Matrix.mul_one, Matrix.smul_mul, Matrix.mul_smul, Matrix.vecMulVec_mul_vecMulVec]
        ext i j
        simp only [Matrix.sub_apply, Matrix.smul_apply, Matrix.vecMulVec_apply, smul_eq_mul, Pi.smul_apply]
        field_simp
        ring
      · rw [Matrix.sub_mulVec, Matrix.one_mulVec, Matrix.smul_mulVec, Matrix.vecMulVec_mulVec]
        have : u ⬝ᵥ b = (u ⬝ᵥ u) / 2 := by rw [huu]; ring
        rw [this]
        funext i
        simp only [Pi.sub_apply, Pi.smul_apply, smul_eq_mul, MulOpposite.smul_eq_mul_unop, MulOpposite.unop_op]
        have e : 2 / (u ⬝ᵥ u) * (u i * ((u ⬝ᵥ u) / 2)) = u i := by field_simp
        rw [e, hu]
        simp

/-! ## Splitting off the first row and column -/

/-- The coordinates of a square array which make up its bordered symmetric part. -/
noncomputable def splitT {n : Nat} (v : Fin (n + 1) × Fin (n + 1) → ℝ) : Unit ⊕ (Fin n ⊕ Fin n × Fin n) → ℝ :=
  Sum.elim (fun _ => v (0, 0)) (Sum.elim (fun j => (v (0, j.succ) + v (j.succ, 0)) / √2) fun p => v (p.1.succ, p.2.succ))

/-- The adjoint of `splitT`. -/
noncomputable def splitS {n : Nat} (t : Unit ⊕ (Fin n ⊕ Fin n × Fin n) → ℝ) (p : Fin (n + 1) × Fin (n + 1)) : ℝ :=
  Fin.cases (Fin.cases (t (.inl ())) (fun j => t (.inr (.inl j)) / √2) p.2) (fun i => Fin.cases (t (.inr (.inl i)) / √2) (fun j => t (.inr (.inr (i, j)))) p.2) p.1

theorem split_law (n : Nat) : (gau (Fin (n + 1) × Fin (n + 1))).map splitT = gau (Unit ⊕ (Fin n ⊕ Fin n × Fin n)) := by
  have h2 : √2 ^ 2 = (2 : ℝ) := Real.sq_sqrt (by norm_num)
  refine gau_map splitT splitS ?_ ?_ ?_
  · refine measurable_pi_lambda _ fun i => ?_
    rcases i with i | i | i <;> simp only [splitT, Sum.elim_inl, Sum.elim_inr] <;> fun_prop
  · intro x t
    simp only [Fintype.sum_sum_type, Fintype.sum_prod_type, Fin.sum_univ_succ, splitT, splitS, Sum.elim_inl, Sum.elim_inr, Fin.cases_zero, Fin.cases_succ, Finset.sum_add_distrib,
      Finset.univ_unique, Finset.sum_singleton, PUnit.default_eq_unit]
    have : ∀ j : Fin n, (x (0, j.succ) + x (j.succ, 0)) / √2 * t (.inr (.inl j)) = x (0, j.succ) * (t (.inr (.inl j)) / √2) + x (j.succ, 0) * (t (.inr (.inl j)) / √2) := fun j => by ring
    simp only [this, Finset.sum_add_distrib]
    ring
  · intro t
    simp only [Fintype.sum_sum_type, Fintype.sum_prod_type, Fin.sum_univ_succ, splitS, Fin.cases_zero, Fin.cases_succ, Finset.sum_add_distrib,
      Finset.univ_unique, Finset.sum_singleton, PUnit.default_eq_unit]
    simp only [div_pow, h2, ← Finset.sum_div]
    ring

/-- The symmetric matrix made from a square array of draws. -/
noncomputable def sym {n : Nat} (v : Fin n × Fin n → ℝ) : Matrix (Fin n) (Fin n) ℝ := goeOf fun i j => v (i, j)

theorem sym_split {n : Nat} (v : Fin (n + 1) × Fin (n + 1) → ℝ) :
    sym v = bord (√2 * splitT v (.inl ())) (fun j => splitT v (.inr (.inl j))) (sym fun p => splitT v (.inr (.inr p))) := by
  have h2 : √2 * √2 = (2 : ℝ) := mul_self_sqrt (by norm_num)
  have h0 : √(2 : ℝ) ≠ 0 := by positivity
  ext i j
  refine Fin.cases ?_ (fun i => ?_) i <;> refine Fin.cases ?_ (fun j => ?_) j <;> simp [sym, goeOf, splitT]
  · field_simp
    rw [sq, h2]
    ring
  · rw [add_comm]

theorem measurable_bord {n : Nat} {α : Type} [MeasurableSpace α] (a : α → ℝ) (b : α → Fin n → ℝ) (B : α → Matrix (Fin n) (Fin n) ℝ)
    (ha : Measurable a) (hb : Measurable b) (hB : Measurable B) : Measurable fun x => bord (a x) (b x) (B x) := by
  refine measurable_matrix _ fun i j => ?_
  refine Fin.cases ?_ (fun i => ?_) i <;> refine Fin.cases ?_ (fun j => ?_) j
  · exact ha
  · exact (measurable_pi_apply j).comp hb
  · exact (measurable_pi_apply i).comp hb
  · exact measurable_apply B hB i j

theorem measurable_sym {n : Nat} : Measurable fun v : Fin n × Fin n → ℝ => sym v := by
  refine measurable_matrix _ fun i j => ?_
  simp only [sym, goeOf]
  fun_prop

/-- The law of the full matrix, row by row. -/
theorem split_integral {n : Nat} (F : Matrix (Fin (n + 1)) (Fin (n + 1)) ℝ → ℝ≥0∞) (hF : Measurable F) :
    ∫⁻ v, F (sym v) ∂gau (Fin (n + 1) × Fin (n + 1)) =
      ∫⁻ a, ∫⁻ b, ∫⁻ w, F (bord (√2 * a) b (sym w)) ∂gau (Fin n × Fin n) ∂gau (Fin n) ∂gaussianReal 0 1 := by
  have hm : Measurable (splitT (n := n)) := by
    refine measurable_pi_lambda _ fun i => ?_
    rcases i with i | i | i <;> simp only [splitT, Sum.elim_inl, Sum.elim_inr] <;> fun_prop
  set G : (Unit ⊕ (Fin n ⊕ Fin n × Fin n) → ℝ) → ℝ≥0∞ := fun t => F (bord (√2 * t (.inl ())) (fun j => t (.inr (.inl j))) (sym fun p => t (.inr (.inr p)))) with hG
  have hGm : Measurable G := by
    refine hF.comp (measurable_bord (fun t : Unit ⊕ (Fin n ⊕ Fin n × Fin n) → ℝ => √2 * t (.inl ())) (fun t j => t (.inr (.inl j))) (fun t => sym fun p => t (.inr (.inr p))) (by fun_prop) (by fun_prop) ?_)
    exact measurable_sym.comp (f := fun (t : Unit ⊕ (Fin n ⊕ Fin n × Fin n) → ℝ) p => t (.inr (.inr p))) (measurable_pi_lambda _ fun p => measurable_pi_apply _)
  have e : ∀ v, F (sym v) = G (splitT v) := fun v => by rw [hG, sym_split]
  simp only [e]
  rw [← lintegral_map hGm hm, split_law, gau_sum G hGm]
  have e1 : ∀ x : Unit → ℝ, ∫⁻ y, G (Sum.elim x y) ∂gau (Fin n ⊕ Fin n × Fin n) = ∫⁻ b, ∫⁻ w, G (Sum.elim x (Sum.elim b w)) ∂gau (Fin n × Fin n) ∂gau (Fin n) := by
    intro x
    refine gau_sum (fun y => G (Sum.elim x y)) (hGm.comp (measurable_pi_lambda _ fun i => ?_))
    rcases i with i | i
    · exact measurable_const
    · exact measurable_pi_apply i
  simp only [e1]
  refine Eq.trans ?_ (gau_unit (fun a => ∫⁻ b, ∫⁻ w, F (bord (√2 * a) b (sym w)) ∂gau (Fin n × Fin n) ∂gau (Fin n)) ?_)
  · rfl
  · refine Measurable.lintegral_prod_right' (f := fun p : ℝ × (Fin n → ℝ) => ∫⁻ w, F (bord (√2 * p.1) p.2 (sym w)) ∂gau (Fin n × Fin n)) ?_
    refine Measurable.lintegral_prod_right' (f := fun q : (ℝ × (Fin n → ℝ)) × (Fin n × Fin n → ℝ) => F (bord (√2 * q.1.1) q.1.2 (sym q.2))) ?_
    exact hF.comp (measurable_bord (fun q : (ℝ × (Fin n → ℝ)) × (Fin n × Fin n → ℝ) => √2 * q.1.1) (fun q => q.1.2) (fun q => sym q.2) (by fun_prop) (by fun_prop) (measurable_sym.comp measurable_snd))

/-- Conjugation by an orthogonal matrix preserves the law of the full matrix. -/
theorem conj_integral {n : Nat} (Q : Matrix (Fin n) (Fin n) ℝ) (hQ : Q ∈ Matrix.orthogonalGroup (Fin n) ℝ) (F : Matrix (Fin n) (Fin n) ℝ → ℝ≥0∞) (hF : Measurable F) :
    ∫⁻ v, F (Q * sym v * Q.transpose : Matrix _ _ _) ∂gau (Fin n × Fin n) = ∫⁻ v, F (sym v) ∂gau (Fin n × Fin n) := by
  have h1 := (Matrix.mem_orthogonalGroup_iff' (Fin n) ℝ).mp hQ
  have h2 := (Matrix.mem_orthogonalGroup_iff (Fin n) ℝ).mp hQ
  set C : Matrix (Fin n) (Fin n) ℝ → (Fin n × Fin n → ℝ) → (Fin n × Fin n → ℝ) := fun O v p => (O * (Matrix.of fun i j => v (i, j)) * O.transpose) p.1 p.2 with hC
  have hCm : Measurable (C Q) := by
    refine measurable_pi_lambda _ fun p => ?_
    simp only [hC, Matrix.mul_apply, Matrix.of_apply]
    fun_prop
  have hmap : (gau (Fin n × Fin n)).map (C Q) = gau (Fin n × Fin n) := by
    have tr : ∀ x y : Fin n × Fin n → ℝ, ∑ p, x p * y p = ((Matrix.of fun i j => x (i, j)) * (Matrix.of fun i j => y (i, j)).transpose).trace := by
      intro x y
      rw [Fintype.sum_prod_type]
      simp [Matrix.trace, Matrix.mul_apply]
    have hof : ∀ O v, (Matrix.of fun i j => C O v (i, j)) = O * (Matrix.of fun i j => v (i, j)) * O.transpose := fun O v => rfl
    refine gau_map (C Q) (C Q.transpose) hCm ?_ ?_
    · intro x t
      rw [tr, tr, hof, hof]
      simp only [Matrix.transpose_mul, Matrix.transpose_transpose]
      rw [Matrix.mul_assoc, Matrix.mul_assoc, Matrix.trace_mul_comm]
      simp only [Matrix.mul_assoc]
    · intro t
      simp only [sq]
      rw [tr, tr, hof]
      simp only [Matrix.transpose_mul, Matrix.transpose_transpose]
      generalize (Matrix.of fun i j => t (i, j)) = A
      calc (Q.transpose * A * Q * (Q.transpose * (A.transpose * Q))).trace = (Q.transpose * (A * (Q * Q.transpose) * A.transpose * Q)).trace := by simp only [Matrix.mul_assoc]
        _ = (A * A.transpose * (Q * Q.transpose)).trace := by rw [h2, Matrix.trace_mul_comm]; simp only [Matrix.mul_assoc, Matrix.one_mul, h2]
        _ = _ := by rw [h2, Matrix.mul_one]
  have e : ∀ v, (Q * sym v * Q.transpose : Matrix _ _ _) = sym (C Q v) := by
    intro v
    have e0 : ∀ B : Matrix (Fin n) (Fin n) ℝ, goeOf B = (1 / √2) • (B + B.transpose) := fun B => by
      ext i j; simp [goeOf]; ring
    have e1 : sym (C Q v) = goeOf (Q * (Matrix.of fun i j => v (i, j)) * Q.transpose) := rfl
    have e2 : sym v = goeOf (Matrix.of fun i j => v (i, j)) := rfl
    rw [e1, e2, e0, e0]
    simp only [Matrix.transpose_mul, Matrix.transpose_transpose, Matrix.mul_smul, Matrix.smul_mul, Matrix.mul_add, Matrix.add_mul, Matrix.mul_assoc]
  simp only [e]
  exact (lintegral_map (f := fun v => F (sym v)) (hF.comp measurable_sym) hCm).symm.trans (by rw [hmap])

/-! ## The reduction -/

/-- Expectation over the random tridiagonal matrix: the first row is drawn, then the rest. -/
noncomputable def triI : (n : Nat) → (Matrix (Fin n) (Fin n) ℝ → ℝ≥0∞) → ℝ≥0∞
  | 0, F => F 0
  | n + 1, F => ∫⁻ a, ∫⁻ b, triI n (fun B => F (bord (√2 * a) (first n (√(∑ i, b i ^ 2))) B)) ∂gau (Fin n) ∂gaussianReal 0 1

/-- `F` does not change when the rest of the matrix is rotated. -/
def RestInvariant : {n : Nat} → (Matrix (Fin n) (Fin n) ℝ → ℝ≥0∞) → Prop
  | 0, _ => True
  | n + 1, F => ∀ (a : ℝ) (b : Fin n → ℝ) (B Q : Matrix (Fin n) (Fin n) ℝ), Q ∈ Matrix.orthogonalGroup (Fin n) ℝ →
      F (bord a (Q.mulVec b) (Q * B * Q.transpose : Matrix _ _ _)) = F (bord a b B)

theorem full_eq_tri : ∀ (n : Nat) (F : Matrix (Fin n) (Fin n) ℝ → ℝ≥0∞), Measurable F → RestInvariant F → ∫⁻ v, F (sym v) ∂gau (Fin n × Fin n) = triI n F
  | 0, F, _, _ => by
    have : ∀ v : Fin 0 × Fin 0 → ℝ, F (sym v) = F 0 := fun v => by
      congr 1
      funext i
      exact i.elim0
    simp only [this, lintegral_const, measure_univ, mul_one, triI]
  | n + 1, F, hF, hI => by
    rw [split_integral F hF, triI]
    refine lintegral_congr fun a => lintegral_congr fun b => ?_
    obtain ⟨Q, hQ, hb⟩ := householder b
    have e : ∀ w, F (bord (√2 * a) b (sym w)) = F (bord (√2 * a) (first n (√(∑ i, b i ^ 2))) (Q * sym w * Q.transpose : Matrix _ _ _)) := by
      intro w
      rw [← hb]
      exact (hI _ _ _ _ hQ).symm
    simp only [e]
    have hm : Measurable fun B : Matrix (Fin n) (Fin n) ℝ => F (bord (√2 * a) (first n (√(∑ i, b i ^ 2))) B) :=
      hF.comp (measurable_bord _ _ _ measurable_const measurable_const measurable_id)
    rw [conj_integral Q hQ _ hm]
    refine full_eq_tri n _ hm ?_
    cases n with
    | zero => trivial
    | succ n =>
      intro a' b' B' Q' hQ'
      have h1 := hI (√2 * a) (first (n + 1) (√(∑ i, b i ^ 2))) (bord a' b' B') (ext1 Q') (ext1_orthogonal Q' hQ')
      rw [ext1_first, ext1_conj] at h1
      exact h1

/-! ## The tridiagonal matrix -/

open Spec (chiSquared)

instance (d : Nat) : IsProbabilityMeasure (chiSquared d) :=
  Measure.isProbabilityMeasure_map (Finset.measurable_sum _ fun i _ => (measurable_pi_apply i).pow_const 2).aemeasurable

/-- The tridiagonal matrix without the common factor `1 / √2`. -/
noncomputable def triM (n : Nat) (c z : Fin n → ℝ) : Matrix (Fin n) (Fin n) ℝ := fun i j =>
  if i = j then √2 * z i else if i.val = j.val + 1 then √(c j) else if j.val = i.val + 1 then √(c i) else 0

theorem triM_succ (n : Nat) (a d : ℝ) (c z : Fin n → ℝ) : triM (n + 1) (Fin.cons d c) (Fin.cons a z) = bord (√2 * a) (first n (√d)) (triM n c z) := by
  ext i j
  refine Fin.cases ?_ (fun i => ?_) i <;> refine Fin.cases ?_ (fun j => ?_) j
  · simp [triM]
  · simp [triM, first, (Fin.succ_ne_zero j).symm]
  · simp [triM, first, Fin.succ_ne_zero i]
  · simp [triM]

theorem measurable_triM {n : Nat} {α : Type} [MeasurableSpace α] (c z : α → Fin n → ℝ) (hc : Measurable c) (hz : Measurable z) : Measurable fun x => triM n (c x) (z x) := by
  refine measurable_matrix _ fun i j => ?_
  simp only [triM]
  split_ifs
  · exact ((measurable_pi_apply i).comp hz).const_mul _
  · exact ((measurable_pi_apply j).comp hc).sqrt
  · exact ((measurable_pi_apply i).comp hc).sqrt
  · exact measurable_const

/-- The laws of the draws of the off-diagonal. -/
noncomputable def chis (n : Nat) : Measure (Fin n → ℝ) := Measure.pi fun i => chiSquared (n - 1 - i.val)

instance (n : Nat) : IsProbabilityMeasure (chis n) := by unfold chis; infer_instance

theorem chis_cons {n : Nat} (F : (Fin (n + 1) → ℝ) → ℝ≥0∞) (hF : Measurable F) : ∫⁻ c, F c ∂chis (n + 1) = ∫⁻ d, ∫⁻ c, F (Fin.cons d c) ∂chis n ∂chiSquared n := by
  unfold chis
  rw [gau_cons _ F hF]
  have : (fun i : Fin n => chiSquared (n + 1 - 1 - i.succ.val)) = fun i : Fin n => chiSquared (n - 1 - i.val) := by
    funext i
    rw [Fin.val_succ]
    congr 1
    omega
  rw [this]
  simp

theorem measurable_cons {n : Nat} {α : Type} [MeasurableSpace α] (a : α → ℝ) (b : α → Fin n → ℝ) (ha : Measurable a) (hb : Measurable b) :
    Measurable fun x => (Fin.cons (a x) (b x) : Fin (n + 1) → ℝ) := by
  refine measurable_pi_lambda _ fun i => ?_
  refine Fin.cases ?_ (fun i => ?_) i
  · exact ha
  · exact (measurable_pi_apply i).comp hb

theorem tri_eq : ∀ (n : Nat) (F : Matrix (Fin n) (Fin n) ℝ → ℝ≥0∞), Measurable F → ∫⁻ c, ∫⁻ z, F (triM n c z) ∂gau (Fin n) ∂chis n = triI n F
  | 0, F, _ => by
    have : ∀ c z : Fin 0 → ℝ, F (triM 0 c z) = F 0 := fun c z => by
      congr 1
      funext i
      exact i.elim0
    simp only [this, lintegral_const, measure_univ, mul_one, triI]
  | n + 1, F, hF => by
    have h0 : Measurable fun c => ∫⁻ z, F (triM (n + 1) c z) ∂gau (Fin (n + 1)) :=
      Measurable.lintegral_prod_right' (f := fun p : (Fin (n + 1) → ℝ) × (Fin (n + 1) → ℝ) => F (triM (n + 1) p.1 p.2)) (hF.comp (measurable_triM _ _ measurable_fst measurable_snd))
    rw [chis_cons _ h0]
    have h1 : ∀ c, ∫⁻ z, F (triM (n + 1) c z) ∂gau (Fin (n + 1)) = ∫⁻ a, ∫⁻ z, F (triM (n + 1) c (Fin.cons a z)) ∂gau (Fin n) ∂gaussianReal 0 1 := fun c =>
      gau_cons (fun _ => gaussianReal 0 1) (fun z => F (triM (n + 1) c z)) (hF.comp (measurable_triM (fun _ => c) (fun z => z) measurable_const measurable_id))
    simp only [h1, triM_succ]
    -- everything jointly
    have hj : Measurable fun q : (ℝ × ℝ) × ((Fin n → ℝ) × (Fin n → ℝ)) => F (bord (√2 * q.1.2) (first n (√q.1.1)) (triM n q.2.1 q.2.2)) := by
      refine hF.comp (measurable_bord (fun q : (ℝ × ℝ) × ((Fin n → ℝ) × (Fin n → ℝ)) => √2 * q.1.2) (fun q => first n (√q.1.1)) (fun q => triM n q.2.1 q.2.2) (by fun_prop) ?_
        (measurable_triM _ _ (measurable_fst.comp measurable_snd) (measurable_snd.comp measurable_snd)))
      refine measurable_pi_lambda _ fun i => ?_
      simp only [first]
      split_ifs <;> fun_prop
    have hswap : ∀ d : ℝ, ∫⁻ c, ∫⁻ a, ∫⁻ z, F (bord (√2 * a) (first n (√d)) (triM n c z)) ∂gau (Fin n) ∂gaussianReal 0 1 ∂chis n =
        ∫⁻ a, ∫⁻ c, ∫⁻ z, F (bord (√2 * a) (first n (√d)) (triM n c z)) ∂gau (Fin n) ∂chis n ∂gaussianReal 0 1 := by
      intro d
      refine lintegral_lintegral_swap (Measurable.aemeasurable ?_)
      refine Measurable.lintegral_prod_right' (f := fun p : ((Fin n → ℝ) × ℝ) × (Fin n → ℝ) => F (bord (√2 * p.1.2) (first n (√d)) (triM n p.1.1 p.2))) ?_
      exact hj.comp (f := fun p : ((Fin n → ℝ) × ℝ) × (Fin n → ℝ) => ((d, p.1.2), (p.1.1, p.2))) (by fun_prop)
    simp only [hswap]
    have ih : ∀ d a : ℝ, ∫⁻ c, ∫⁻ z, F (bord (√2 * a) (first n (√d)) (triM n c z)) ∂gau (Fin n) ∂chis n = triI n fun B => F (bord (√2 * a) (first n (√d)) B) := fun d a =>
      tri_eq n (fun B => F (bord (√2 * a) (first n (√d)) B)) (hF.comp (measurable_bord _ _ _ measurable_const measurable_const measurable_id))
    have hm : Measurable fun p : ℝ × ℝ => triI n fun B => F (bord (√2 * p.2) (first n (√p.1)) B) := by
      simp only [← ih]
      refine Measurable.lintegral_prod_right' (f := fun p : (ℝ × ℝ) × (Fin n → ℝ) => ∫⁻ z, F (bord (√2 * p.1.2) (first n (√p.1.1)) (triM n p.2 z)) ∂gau (Fin n)) ?_
      refine Measurable.lintegral_prod_right' (f := fun p : ((ℝ × ℝ) × (Fin n → ℝ)) × (Fin n → ℝ) => F (bord (√2 * p.1.1.2) (first n (√p.1.1.1)) (triM n p.1.2 p.2))) ?_
      exact hj.comp (f := fun p : ((ℝ × ℝ) × (Fin n → ℝ)) × (Fin n → ℝ) => (p.1.1, (p.1.2, p.2))) (by fun_prop)
    simp only [ih]
    rw [lintegral_lintegral_swap hm.aemeasurable, triI]
    refine lintegral_congr fun a => ?_
    have hma : Measurable fun d => triI n fun B => F (bord (√2 * a) (first n (√d)) B) := hm.comp (f := fun d => (d, a)) (by fun_prop)
    rw [chiSquared, lintegral_map hma (by fun_prop)]
    rfl

/-- **The reduction**: full and tridiagonal random matrices give the same expectation to every measurable function which rotations do not change. -/
theorem reduction {n : Nat} (F : Matrix (Fin n) (Fin n) ℝ → ℝ≥0∞) (hF : Measurable F)
    (hI : ∀ M O : Matrix (Fin n) (Fin n) ℝ, O ∈ Matrix.orthogonalGroup (Fin n) ℝ → F (O * M * O.transpose) = F M) :
    ∫⁻ v, F (sym v) ∂gau (Fin n × Fin n) = ∫⁻ c, ∫⁻ z, F (triM n c z) ∂gau (Fin n) ∂chis n := by
  rw [tri_eq n F hF]
  refine full_eq_tri n F hF ?_
  cases n with
  | zero => trivial
  | succ n =>
    intro a b B Q hQ
    rw [← ext1_conj]
    exact hI _ _ (ext1_orthogonal Q hQ)

end Gauss
end RMT
