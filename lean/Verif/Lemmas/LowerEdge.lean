import Verif.Lemmas.NoiseEdge
import Verif.Lemmas.DataRank

/-! # Small eigenvalues of spectra of noise -/

namespace RMT.Edge
open MeasureTheory ProbabilityTheory Real Spec Filter Topology Gauss Inertia Props
open scoped ENNReal

/-! ## Tails of the chi-square law -/

theorem inv_le_exp (x : ℝ) (hx : |x| ≤ 1 / 2) : exp (-x - x ^ 2) ≤ 1 - x := by
  obtain ⟨h1, h2⟩ := abs_le.mp hx
  have hp : 0 < 1 - x := by linarith
  have key : (1 - x)⁻¹ ≤ exp (x + x ^ 2) := by
    rw [inv_le_iff_one_le_mul₀ hp]
    rcases le_total x 0 with h | h
    · have := add_one_le_exp (x + x ^ 2)
      nlinarith [pow_nonneg (neg_nonneg.mpr h) 3]
    · have := quadratic_le_exp_of_nonneg (show 0 ≤ x + x ^ 2 by positivity)
      have h3 : 0 ≤ x ^ 2 * (1 - x - x ^ 2 - x ^ 3) := by
        refine mul_nonneg (sq_nonneg _) ?_
        nlinarith [mul_nonneg h h, mul_nonneg (mul_nonneg h h) h]
      have h4 := mul_le_mul_of_nonneg_right this hp.le
      nlinarith
  have e : exp (-x - x ^ 2) = (exp (x + x ^ 2))⁻¹ := by
    rw [← exp_neg]
    congr 1
    ring
  rw [e]
  exact inv_le_of_inv_le₀ hp key

theorem chernoff (d : ℕ) (M t δ : ℝ) (hd : (d : ℝ) ≤ M) (ht : |t| ≤ 1 / 4) : chiSquared d {y | |t| * δ ≤ t * (y - d)} ≤ ENNReal.ofReal (exp (2 * M * t ^ 2 - |t| * δ)) := by
  obtain ⟨h1, h2⟩ := abs_le.mp ht
  obtain ⟨hi, he⟩ := chi_exp d t (by linarith)
  have hs : (√(1 - 2 * t))⁻¹ ≤ exp (t + 2 * t ^ 2) := by
    have := inv_le_exp (2 * t) (by rw [abs_mul]; norm_num; linarith)
    have h3 : exp (-t - 2 * t ^ 2) ≤ √(1 - 2 * t) := by
      refine le_sqrt_of_sq_le (le_trans (le_of_eq ?_) this)
      rw [← exp_nat_mul]
      congr 1
      push_cast
      ring
    have e : exp (t + 2 * t ^ 2) = (exp (-t - 2 * t ^ 2))⁻¹ := by
      rw [← exp_neg]
      congr 1
      ring
    rw [e]
    exact inv_anti₀ (exp_pos _) h3
  have hsub : {y : ℝ | |t| * δ ≤ t * (y - d)} = {y | exp (|t| * δ + t * d) ≤ exp (t * y)} := by
    ext y
    simp only [Set.mem_ofPred_eq, exp_le_exp]
    constructor <;> intro h <;> linarith
  have hP : IsProbabilityMeasure (chiSquared d) := by
    rw [chiSquared]
    exact Measure.isProbabilityMeasure_map (Measurable.aemeasurable (by fun_prop))
  have hmk := mul_meas_ge_le_integral_of_nonneg (Eventually.of_forall fun y => (exp_pos (t * y)).le) hi (exp (|t| * δ + t * d))
  rw [he] at hmk
  rw [hsub, ← ofReal_measureReal]
  refine ENNReal.ofReal_le_ofReal ?_
  have h4 : (√(1 - 2 * t))⁻¹ ^ d ≤ exp (d * (t + 2 * t ^ 2)) := by
    rw [exp_nat_mul]
    exact pow_le_pow_left₀ (by positivity) hs d
  have h5 := hmk.trans h4
  rw [mul_comm, ← le_div_iff₀ (exp_pos _), ← exp_sub] at h5
  refine h5.trans (exp_le_exp.mpr ?_)
  nlinarith [sq_nonneg t]

theorem chi_tail (d : ℕ) (M ε : ℝ) (hd : (d : ℝ) ≤ M) (h0 : 0 < ε) (h1 : ε ≤ 1) : gau (Fin d) {x | ε * M ≤ |∑ i, x i ^ 2 - d|} ≤ ENNReal.ofReal (2 * exp (-(M * ε ^ 2 / 8))) := by
  have hm : Measurable fun x : Fin d → ℝ => ∑ i, x i ^ 2 := by fun_prop
  have hms : MeasurableSet {y : ℝ | ε * M ≤ |y - d|} := measurableSet_le measurable_const (by fun_prop)
  have e : gau (Fin d) {x | ε * M ≤ |∑ i, x i ^ 2 - d|} = chiSquared d {y | ε * M ≤ |y - d|} := by
    rw [chiSquared, Measure.map_apply hm hms]
    rfl
  rw [e]
  have a1 : |ε / 4| = ε / 4 := abs_of_pos (by positivity)
  have a2 : |-(ε / 4)| = ε / 4 := by rw [abs_neg, a1]
  have c1 := chernoff d M (ε / 4) (ε * M) hd (by rw [a1]; linarith)
  have c2 := chernoff d M (-(ε / 4)) (ε * M) hd (by rw [a2]; linarith)
  rw [a1] at c1
  rw [a2] at c2
  have ex1 : exp (2 * M * (ε / 4) ^ 2 - ε / 4 * (ε * M)) = exp (-(M * ε ^ 2 / 8)) := by
    congr 1
    ring
  have ex2 : exp (2 * M * (-(ε / 4)) ^ 2 - ε / 4 * (ε * M)) = exp (-(M * ε ^ 2 / 8)) := by
    congr 1
    ring
  rw [ex1] at c1
  rw [ex2] at c2
  have hsub : {y : ℝ | ε * M ≤ |y - d|} ⊆ {y | ε / 4 * (ε * M) ≤ ε / 4 * (y - d)} ∪ {y | ε / 4 * (ε * M) ≤ -(ε / 4) * (y - d)} := by
    intro y hy
    rw [Set.mem_ofPred_eq] at hy
    rcases le_abs.mp hy with h | h
    · exact Or.inl (mul_le_mul_of_nonneg_left h (by positivity))
    · right
      rw [Set.mem_ofPred_eq, neg_mul, ← mul_neg]
      exact mul_le_mul_of_nonneg_left h (by positivity)
  refine (measure_mono hsub).trans ((measure_union_le _ _).trans ((add_le_add c1 c2).trans_eq ?_))
  rw [← ENNReal.ofReal_add (exp_pos _).le (exp_pos _).le]
  congr 1
  ring

/-! ## Small values of the quadratic form -/

/-- Some vector is made short by the transpose of the array. -/
def Small {N T : ℕ} (b : ℝ) (v : Fin N × Fin T → ℝ) : Prop := ∃ w : Fin N → ℝ, ∑ j, (∑ i, v (i, j) * w i) ^ 2 < b * ∑ i, w i ^ 2

theorem small_open {N T : ℕ} (b : ℝ) : IsOpen {v : Fin N × Fin T → ℝ | Small b v} := by
  have : {v : Fin N × Fin T → ℝ | Small b v} = ⋃ w : Fin N → ℝ, {v | ∑ j, (∑ i, v (i, j) * w i) ^ 2 < b * ∑ i, w i ^ 2} := by
    ext v
    simp [Small]
  rw [this]
  exact isOpen_iUnion fun w => isOpen_lt (by fun_prop) continuous_const

theorem orth_sq {n : ℕ} (V : Matrix (Fin n) (Fin n) ℝ) (h : V * V.transpose = 1) (y : Fin n → ℝ) : ∑ j, (∑ l, y l * V l j) ^ 2 = ∑ l, y l ^ 2 := by
  have e : ∀ z : Fin n → ℝ, ∑ l, z l ^ 2 = z ⬝ᵥ z := fun z => by simp [dotProduct, sq]
  have e2 : (fun j => ∑ l, y l * V l j) = Matrix.vecMul y V := by
    funext j
    simp [Matrix.vecMul, dotProduct]
  refine (e (fun j => ∑ l, y l * V l j)).trans ?_
  rw [e2, e, ← Matrix.dotProduct_mulVec, ← Matrix.vecMul_transpose, Matrix.vecMul_vecMul, h, Matrix.vecMul_one]

theorem small_rmul {N T : ℕ} (b : ℝ) (v : Fin N × Fin T → ℝ) (V : Matrix (Fin T) (Fin T) ℝ) (hV : V ∈ Matrix.orthogonalGroup (Fin T) ℝ) : Small b (rmul v V) ↔ Small b v := by
  have h := (Matrix.mem_orthogonalGroup_iff (Fin T) ℝ).mp hV
  have e : ∀ w : Fin N → ℝ, ∑ j, (∑ i, rmul v V (i, j) * w i) ^ 2 = ∑ j, (∑ i, v (i, j) * w i) ^ 2 := by
    intro w
    rw [← orth_sq V h fun j => ∑ i, v (i, j) * w i]
    refine Finset.sum_congr rfl fun j _ => ?_
    congr 1
    simp only [rmul, Finset.sum_mul]
    rw [Finset.sum_comm]
    exact Finset.sum_congr rfl fun l _ => Finset.sum_congr rfl fun i _ => by ring
  simp only [Small, e]

theorem small_lmul_imp {N T : ℕ} (b : ℝ) (v : Fin N × Fin T → ℝ) (U : Matrix (Fin N) (Fin N) ℝ) (hU : U * U.transpose = 1) (h : Small b (lmul U v)) : Small b v := by
  obtain ⟨w, hw⟩ := h
  refine ⟨fun l => ∑ i, w i * U i l, ?_⟩
  rw [orth_sq U hU]
  refine lt_of_eq_of_lt ?_ hw
  refine Finset.sum_congr rfl fun j _ => ?_
  congr 1
  simp only [lmul, Finset.sum_mul, Finset.mul_sum]
  rw [Finset.sum_comm]
  exact Finset.sum_congr rfl fun l _ => Finset.sum_congr rfl fun i _ => by ring

theorem small_lmul {N T : ℕ} (b : ℝ) (v : Fin N × Fin T → ℝ) (U : Matrix (Fin N) (Fin N) ℝ) (hU : U ∈ Matrix.orthogonalGroup (Fin N) ℝ) : Small b (lmul U v) ↔ Small b v := by
  have h1 := (Matrix.mem_orthogonalGroup_iff (Fin N) ℝ).mp hU
  have h2 := (Matrix.mem_orthogonalGroup_iff' (Fin N) ℝ).mp hU
  refine ⟨small_lmul_imp b v U h1, fun h => ?_⟩
  refine small_lmul_imp b (lmul U v) U.transpose (by rw [Matrix.transpose_transpose]; exact h2) ?_
  have : lmul U.transpose (lmul U v) = v := by
    have e : (Matrix.of fun i j => lmul U.transpose (lmul U v) (i, j)) = Matrix.of fun i j => v (i, j) := by
      rw [of_lmul, of_lmul, ← Matrix.mul_assoc, show U.transpose * U = 1 from h2, Matrix.one_mul]
    funext p
    exact congrFun (congrFun e p.1) p.2
  rwa [this]

/-! ## The bidiagonal array -/

/-- How many diagonal entries are far from their means. -/
noncomputable def BD {N T : ℕ} (δ : ℝ) (v : Fin N × Fin T → ℝ) : ℝ≥0∞ := ∑ i : Fin N, ∑ j : Fin T, if i.val = j.val ∧ δ ≤ |v (i, j) ^ 2 - ((T : ℝ) - j.val)| then 1 else 0

/-- How many entries below the diagonal are far from their means. -/
noncomputable def BS {N T : ℕ} (δ : ℝ) (v : Fin N × Fin T → ℝ) : ℝ≥0∞ := ∑ i : Fin N, ∑ j : Fin T, if i.val = j.val + 1 ∧ δ ≤ |v (i, j) ^ 2 - ((N : ℝ) - 1 - j.val)| then 1 else 0

theorem BD_rect {N T : ℕ} (δ a : ℝ) (c : Fin N → ℝ) (Y : Fin N × Fin T → ℝ) : BD δ (rect a c Y) = (if δ ≤ |a ^ 2 - ((T + 1 : ℕ) : ℝ)| then 1 else 0) + BD δ Y := by
  have e : ∀ j : Fin T, ((T + 1 : ℕ) : ℝ) - ((j.val + 1 : ℕ) : ℝ) = (T : ℝ) - j.val := fun j => by push_cast; ring
  simp only [BD, Fin.sum_univ_succ, rect_00, rect_0s, rect_s0, rect_ss, Fin.val_succ, Fin.val_zero, e, Nat.add_right_cancel_iff]
  simp

theorem one_sum' {n : ℕ} (p : Fin n → Prop) [DecidablePred p] (hp : ∀ a b, p a → p b → a = b) (q : Prop) [Decidable q] : ∑ j, (if p j ∧ q then (1 : ℝ≥0∞) else 0) ≤ if q then 1 else 0 := by
  by_cases h : q
  · simp only [h, and_true, if_true]
    rw [← Finset.sum_filter, Finset.sum_const, nsmul_eq_mul, mul_one]
    have : (Finset.univ.filter p).card ≤ 1 := Finset.card_le_one.mpr fun a ha b hb => hp a b (Finset.mem_filter.mp ha).2 (Finset.mem_filter.mp hb).2
    exact_mod_cast this
  · simp [h]

theorem BS_rect {N T : ℕ} (δ a d : ℝ) (Y : Fin N × Fin T → ℝ) : BS δ (rect a (first N d) Y) ≤ (if δ ≤ |d ^ 2 - (N : ℝ)| then 1 else 0) + BS δ Y := by
  have e : ∀ j : Fin T, ((N + 1 : ℕ) : ℝ) - 1 - ((j.val + 1 : ℕ) : ℝ) = (N : ℝ) - 1 - j.val := fun j => by push_cast; ring
  have e0 : ((N + 1 : ℕ) : ℝ) - 1 - ((0 : ℕ) : ℝ) = (N : ℝ) := by push_cast; ring
  have h : BS δ (rect a (first N d) Y) = (∑ i : Fin N, if i.val = 0 ∧ δ ≤ |d ^ 2 - (N : ℝ)| then (1 : ℝ≥0∞) else 0) + BS δ Y := by
    simp only [BS, Fin.sum_univ_succ, rect_00, rect_0s, rect_s0, rect_ss, Fin.val_succ, Fin.val_zero, e, e0, Nat.add_right_cancel_iff, Finset.sum_add_distrib]
    simp
    congr 1
    ext i
    by_cases hi : i.val = 0
    · simp [first, hi]
    · simp [hi]
  rw [h]
  exact add_le_add_left (one_sum' (fun i : Fin N => i.val = 0) (fun a b h h' => Fin.ext (by omega)) _) _

theorem chi_bad (d : ℕ) (δ : ℝ) (p K : ℝ≥0∞) (h : gau (Fin d) {x | δ ≤ |∑ i, x i ^ 2 - d|} ≤ p) :
    ∫⁻ x, (K + if δ ≤ |√(∑ i, x i ^ 2) ^ 2 - (d : ℝ)| then 1 else 0) ∂gau (Fin d) ≤ K + p := by
  have e : ∀ x : Fin d → ℝ, √(∑ i, x i ^ 2) ^ 2 = ∑ i, x i ^ 2 := fun x => sq_sqrt (Finset.sum_nonneg fun i _ => sq_nonneg _)
  have hm : MeasurableSet {x : Fin d → ℝ | δ ≤ |∑ i, x i ^ 2 - (d : ℝ)|} := measurableSet_le measurable_const (by fun_prop)
  simp only [e]
  rw [lintegral_add_left measurable_const, lintegral_const, measure_univ, mul_one]
  refine add_le_add_right ?_ _
  have e2 : (fun x : Fin d → ℝ => if δ ≤ |∑ i, x i ^ 2 - (d : ℝ)| then (1 : ℝ≥0∞) else 0) = {x : Fin d → ℝ | δ ≤ |∑ i, x i ^ 2 - (d : ℝ)|}.indicator 1 := by
    funext x
    simp [Set.indicator_apply]
  rw [e2, lintegral_indicator_one hm]
  exact h

theorem bidI_bad (M : ℕ) (δ : ℝ) (p : ℝ≥0∞) (h : ∀ d ≤ M, gau (Fin d) {x | δ ≤ |∑ i, x i ^ 2 - d|} ≤ p) :
    ∀ (N T : ℕ) (K : ℝ≥0∞), N ≤ M → T ≤ M → bidI N T (fun v => K + BD δ v + BS δ v) ≤ K + N * (2 * p) := by
  intro N
  induction N with
  | zero =>
    intro T K _ _
    simp [bidI, BD, BS]
  | succ N ih =>
    intro T K hN hT
    cases T with
    | zero => simp [bidI, BD, BS]
    | succ T =>
      simp only [bidI]
      have step : ∀ a d : ℝ, bidI N T (fun Y => K + BD δ (rect a (first N d) Y) + BS δ (rect a (first N d) Y)) ≤
          (K + N * (2 * p) + if δ ≤ |a ^ 2 - ((T + 1 : ℕ) : ℝ)| then 1 else 0) + if δ ≤ |d ^ 2 - (N : ℝ)| then 1 else 0 := by
        intro a d
        refine (bidI_mono N T _ (fun Y => (K + (if δ ≤ |a ^ 2 - ((T + 1 : ℕ) : ℝ)| then 1 else 0) + if δ ≤ |d ^ 2 - (N : ℝ)| then 1 else 0) + BD δ Y + BS δ Y) fun Y _ => ?_).trans ?_
        · rw [BD_rect]
          refine (add_le_add_right (BS_rect δ a d Y) _).trans_eq ?_
          ring
        · refine (ih T _ (by omega) (by omega)).trans_eq ?_
          ring
      calc _ ≤ ∫⁻ x : Fin (T + 1) → ℝ, ∫⁻ c : Fin N → ℝ, ((K + N * (2 * p) + if δ ≤ |√(∑ i, x i ^ 2) ^ 2 - ((T + 1 : ℕ) : ℝ)| then 1 else 0) + if δ ≤ |√(∑ i, c i ^ 2) ^ 2 - (N : ℝ)| then 1 else 0) ∂gau (Fin N) ∂gau (Fin (T + 1)) :=
            lintegral_mono fun x => lintegral_mono fun c => step _ _
        _ ≤ ∫⁻ x : Fin (T + 1) → ℝ, ((K + N * (2 * p) + p) + if δ ≤ |√(∑ i, x i ^ 2) ^ 2 - ((T + 1 : ℕ) : ℝ)| then 1 else 0) ∂gau (Fin (T + 1)) := by
            refine lintegral_mono fun x => (chi_bad N δ p _ (h N (by omega))).trans_eq ?_
            ring
        _ ≤ (K + N * (2 * p) + p) + p := chi_bad (T + 1) δ p _ (h (T + 1) hT)
        _ = _ := by
            push_cast
            ring

theorem one_sq {n : ℕ} (p : Fin n → Prop) [DecidablePred p] (hp : ∀ a b, p a → p b → a = b) (f : Fin n → ℝ) : (∑ j, if p j then f j else 0) ^ 2 = ∑ j, if p j then f j ^ 2 else 0 := by
  by_cases h : ∃ j, p j
  · obtain ⟨j, hj⟩ := h
    have e : ∀ k, p k ↔ k = j := fun k => ⟨fun hk => hp k j hk hj, fun h => h ▸ hj⟩
    simp [e]
  · push Not at h
    simp [h]

/-- A bidiagonal array with entries near their means does not make vectors short. -/
theorem bid_not_small {N T : ℕ} (hNT : N ≤ T) (v : Fin N × Fin T → ℝ) (hv : Bid v) (δ κ b : ℝ) (hδ : 0 ≤ δ) (hκ : 0 < κ) (hκ1 : κ ≤ 1) (hb : b ≤ (1 - κ) * (T - δ - (N + δ) / κ))
    (h1 : ∀ (i : Fin N) (j : Fin T), i.val = j.val → |v (i, j) ^ 2 - ((T : ℝ) - j.val)| < δ) (h2 : ∀ (i : Fin N) (j : Fin T), i.val = j.val + 1 → |v (i, j) ^ 2 - ((N : ℝ) - 1 - j.val)| < δ) : ¬ Small b v := by
  rintro ⟨w, hw⟩
  refine absurd hw (not_lt.mpr ?_)
  have hk2 : 0 ≤ 1 / κ - 1 := by
    have := (one_le_div hκ).mpr hκ1
    linarith
  -- each column
  have col : ∀ j : Fin T, (1 - κ) * (∑ i, if i.val = j.val then (v (i, j) * w i) ^ 2 else 0) - (1 / κ - 1) * (∑ i, if i.val = j.val + 1 then (v (i, j) * w i) ^ 2 else 0) ≤ (∑ i, v (i, j) * w i) ^ 2 := by
    intro j
    rw [← one_sq (fun i : Fin N => i.val = j.val) (fun a b h h' => Fin.ext (by omega)), ← one_sq (fun i : Fin N => i.val = j.val + 1) (fun a b h h' => Fin.ext (by omega))]
    have e : ∑ i, v (i, j) * w i = (∑ i : Fin N, if i.val = j.val then v (i, j) * w i else 0) + ∑ i : Fin N, if i.val = j.val + 1 then v (i, j) * w i else 0 := by
      rw [← Finset.sum_add_distrib]
      refine Finset.sum_congr rfl fun i _ => ?_
      by_cases c1 : i.val = j.val
      · rw [if_pos c1, if_neg (by omega), add_zero]
      · by_cases c2 : i.val = j.val + 1
        · rw [if_neg c1, if_pos c2, zero_add]
        · rw [if_neg c1, if_neg c2, add_zero, (hv i j).2 c1 c2, zero_mul]
    rw [e]
    generalize (∑ i : Fin N, if i.val = j.val then v (i, j) * w i else 0) = A
    generalize (∑ i : Fin N, if i.val = j.val + 1 then v (i, j) * w i else 0) = B
    have h3 : (A + B) ^ 2 - ((1 - κ) * A ^ 2 - (1 / κ - 1) * B ^ 2) = (κ * A + B) ^ 2 / κ := by
      field_simp
      ring
    have : 0 ≤ (κ * A + B) ^ 2 / κ := by positivity
    linarith
  have hsum := Finset.sum_le_sum fun j (_ : j ∈ Finset.univ) => col j
  refine le_trans ?_ hsum
  rw [Finset.sum_sub_distrib, ← Finset.mul_sum, ← Finset.mul_sum, Finset.sum_comm, Finset.sum_comm (f := fun (j : Fin T) (i : Fin N) => if i.val = j.val + 1 then (v (i, j) * w i) ^ 2 else 0)]
  rw [Finset.mul_sum, Finset.mul_sum, Finset.mul_sum, ← Finset.sum_sub_distrib]
  refine Finset.sum_le_sum fun i _ => ?_
  have hi := i.isLt
  have d1 : ((T : ℝ) - i.val - δ) * w i ^ 2 ≤ ∑ j : Fin T, if i.val = j.val then (v (i, j) * w i) ^ 2 else 0 := by
    have h3 := Finset.single_le_sum (f := fun j : Fin T => if i.val = j.val then (v (i, j) * w i) ^ 2 else 0) (fun j _ => by
      split_ifs
      · positivity
      · exact le_rfl) (Finset.mem_univ (⟨i.val, by omega⟩ : Fin T))
    simp only [if_true] at h3
    refine le_trans ?_ h3
    rw [mul_pow]
    refine mul_le_mul_of_nonneg_right ?_ (sq_nonneg _)
    have := abs_lt.mp (h1 i ⟨i.val, by omega⟩ rfl)
    linarith [this.1]
  have d2 : (∑ j : Fin T, if i.val = j.val + 1 then (v (i, j) * w i) ^ 2 else 0) ≤ ((N : ℝ) - i.val + δ) * w i ^ 2 := by
    have hnn : 0 ≤ ((N : ℝ) - i.val + δ) * w i ^ 2 := by
      have : (i.val : ℝ) ≤ N := by exact_mod_cast hi.le
      exact mul_nonneg (by linarith) (sq_nonneg _)
    refine le_trans (Finset.sum_le_sum fun j _ => ?_) (one_sum (fun j : Fin T => i.val = j.val + 1) _ hnn fun a b h h' => Fin.ext (by omega))
    split_ifs with c
    · rw [mul_pow]
      refine mul_le_mul_of_nonneg_right ?_ (sq_nonneg _)
      have := abs_lt.mp (h2 i j c)
      have hc : (i.val : ℝ) = j.val + 1 := by exact_mod_cast c
      linarith [this.2]
    · exact le_rfl
  have d3 := mul_le_mul_of_nonneg_left d1 (show 0 ≤ 1 - κ by linarith)
  have d4 := mul_le_mul_of_nonneg_left d2 hk2
  have d5 : b * w i ^ 2 ≤ ((1 - κ) * ((T : ℝ) - i.val - δ) - (1 / κ - 1) * ((N : ℝ) - i.val + δ)) * w i ^ 2 := by
    refine mul_le_mul_of_nonneg_right (hb.trans ?_) (sq_nonneg _)
    have e : (1 - κ) * ((T : ℝ) - i.val - δ) - (1 / κ - 1) * ((N : ℝ) - i.val + δ) = (1 - κ) * (T - δ - (N + δ) / κ) + (1 - κ) * (1 / κ - 1) * i.val := by
      field_simp
      ring
    rw [e]
    have : 0 ≤ (1 - κ) * (1 / κ - 1) * (i.val : ℝ) := mul_nonneg (mul_nonneg (by linarith) hk2) (Nat.cast_nonneg _)
    linarith
  linarith

theorem one_le_BD {N T : ℕ} (δ : ℝ) (v : Fin N × Fin T → ℝ) (i : Fin N) (j : Fin T) (h : i.val = j.val) (h' : δ ≤ |v (i, j) ^ 2 - ((T : ℝ) - j.val)|) : 1 ≤ BD δ v := by
  have h1 := Finset.single_le_sum (f := fun j : Fin T => if i.val = j.val ∧ δ ≤ |v (i, j) ^ 2 - ((T : ℝ) - j.val)| then (1 : ℝ≥0∞) else 0) (fun _ _ => zero_le) (Finset.mem_univ j)
  have h2 := Finset.single_le_sum (f := fun i : Fin N => ∑ j : Fin T, if i.val = j.val ∧ δ ≤ |v (i, j) ^ 2 - ((T : ℝ) - j.val)| then (1 : ℝ≥0∞) else 0) (fun _ _ => zero_le) (Finset.mem_univ i)
  rw [if_pos ⟨h, h'⟩] at h1
  exact h1.trans h2

theorem one_le_BS {N T : ℕ} (δ : ℝ) (v : Fin N × Fin T → ℝ) (i : Fin N) (j : Fin T) (h : i.val = j.val + 1) (h' : δ ≤ |v (i, j) ^ 2 - ((N : ℝ) - 1 - j.val)|) : 1 ≤ BS δ v := by
  have h1 := Finset.single_le_sum (f := fun j : Fin T => if i.val = j.val + 1 ∧ δ ≤ |v (i, j) ^ 2 - ((N : ℝ) - 1 - j.val)| then (1 : ℝ≥0∞) else 0) (fun _ _ => zero_le) (Finset.mem_univ j)
  have h2 := Finset.single_le_sum (f := fun i : Fin N => ∑ j : Fin T, if i.val = j.val + 1 ∧ δ ≤ |v (i, j) ^ 2 - ((N : ℝ) - 1 - j.val)| then (1 : ℝ≥0∞) else 0) (fun _ _ => zero_le) (Finset.mem_univ i)
  rw [if_pos ⟨h, h'⟩] at h1
  exact h1.trans h2

theorem ind_congr {α : Type} (s : Set α) {x y : α} (h : x ∈ s ↔ y ∈ s) : s.indicator (1 : α → ℝ≥0∞) x = s.indicator 1 y := by
  by_cases hx : x ∈ s
  · rw [Set.indicator_of_mem hx, Set.indicator_of_mem (h.mp hx)]
    rfl
  · rw [Set.indicator_of_notMem hx, Set.indicator_of_notMem fun hy => hx (h.mpr hy)]

/-- The probability that a matrix of independent normal entries makes some vector short. -/
theorem small_prob (N T : ℕ) (hNT : N ≤ T) (δ κ b : ℝ) (hδ : 0 ≤ δ) (hκ : 0 < κ) (hκ1 : κ ≤ 1) (hb : b ≤ (1 - κ) * (T - δ - (N + δ) / κ)) (p : ℝ≥0∞)
    (h : ∀ d ≤ T, gau (Fin d) {x | δ ≤ |∑ i, x i ^ 2 - d|} ≤ p) : gau (Fin N × Fin T) {v | Small b v} ≤ N * (2 * p) := by
  have hm : MeasurableSet {v : Fin N × Fin T → ℝ | Small b v} := (small_open b).measurableSet
  have hmi : Measurable ({v : Fin N × Fin T → ℝ | Small b v}.indicator (1 : (Fin N × Fin T → ℝ) → ℝ≥0∞)) := measurable_one.indicator hm
  rw [← lintegral_indicator_one hm, full_eq_bid N T _ hmi (fun V hV v => ind_congr _ (small_rmul b v V hV)) (by
      cases N with
      | zero => trivial
      | succ N =>
        intro U hU v
        exact ind_congr _ (small_lmul b v _ (ext1_orthogonal U hU)))]
  refine (bidI_mono N T _ (fun v => 0 + BD δ v + BS δ v) fun v hv => ?_).trans ((bidI_bad T δ p h N T 0 hNT le_rfl).trans_eq (zero_add _))
  rw [zero_add]
  by_cases hs : Small b v
  · rw [Set.indicator_of_mem (show v ∈ {v | Small b v} from hs), Pi.one_apply]
    by_contra hcon
    rw [not_le] at hcon
    refine bid_not_small hNT v hv δ κ b hδ hκ hκ1 hb (fun i j hij => ?_) (fun i j hij => ?_) hs
    · by_contra hc
      exact absurd ((one_le_BD δ v i j hij (not_lt.mp hc)).trans le_self_add) (not_le.mpr hcon)
    · by_contra hc
      exact absurd ((one_le_BS δ v i j hij (not_lt.mp hc)).trans le_add_self) (not_le.mpr hcon)
  · rw [Set.indicator_of_notMem (show v ∉ {v | Small b v} from hs)]
    exact zero_le

/-! ## Counting eigenvalues -/

theorem small_of_cnt {N T : ℕ} (Y : Fin N × Fin T → ℝ) (b b' : ℝ) (hb : b < b') (h : cnt (mat Y * (mat Y).transpose) b < N) : Small b' Y := by
  have hM : (mat Y * (mat Y).transpose).IsHermitian := herm_mul_transpose _
  rw [cnt_eq _ hM] at h
  have : ∃ i, ¬ b < hM.eigenvalues i := by
    by_contra hcon
    push Not at hcon
    have : Fintype.card {i // b < hM.eigenvalues i} = N := by
      rw [Fintype.card_subtype, Finset.filter_true_of_mem fun i _ => hcon i]
      simp
    omega
  obtain ⟨i, hi⟩ := this
  obtain ⟨U, hU, -, hUA⟩ := diagonal_form _ hM
  refine ⟨U.mulVec (Pi.single i 1), ?_⟩
  have h1 := hUA (Pi.single i 1)
  have h2 : ∑ j, hM.eigenvalues j * (Pi.single i (1 : ℝ) : Fin N → ℝ) j ^ 2 = hM.eigenvalues i := by
    rw [Finset.sum_eq_single i]
    · simp
    · intro j _ hj
      simp [Pi.single_eq_of_ne hj]
    · simp
  rw [h2] at h1
  generalize hw : U.mulVec (Pi.single i (1 : ℝ)) = w at h1
  have h3 : ∑ i, w i ^ 2 = 1 := by
    have e : ∑ i, w i ^ 2 = w ⬝ᵥ w := by simp [dotProduct, sq]
    rw [e, ← hw, Matrix.dotProduct_mulVec, ← Matrix.mulVec_transpose, Matrix.mulVec_mulVec, hU, Matrix.one_mulVec]
    simp
  have h4 : ∑ j, (∑ i, Y (i, j) * w i) ^ 2 = w ⬝ᵥ ((mat Y * (mat Y).transpose).mulVec w) := by
    rw [← Matrix.mulVec_mulVec, Matrix.dotProduct_mulVec, ← Matrix.mulVec_transpose]
    simp [dotProduct, Matrix.mulVec, mat, sq]
  rw [h3, h4, h1]
  linarith

/-- The transposed array. -/
def flip {N T : ℕ} (Y : Fin N × Fin T → ℝ) : Fin T × Fin N → ℝ := fun p => Y (p.2, p.1)

theorem cnt_swap {N T : ℕ} (A : Matrix (Fin N) (Fin T) ℝ) (b : ℝ) (hb : 0 ≤ b) : cnt (A * A.transpose) b = cnt (A.transpose * A) b := by
  have e : ∀ s : Multiset ℝ, s.countP (b < ·) = (s.filter (0 < ·)).countP (b < ·) := by
    intro s
    rw [Multiset.countP_filter]
    refine Multiset.countP_congr rfl fun x _ => ?_
    rw [eq_iff_iff]
    exact ⟨fun h => ⟨h, hb.trans_lt h⟩, fun h => h.1⟩
  rw [cnt, cnt, e, e (A.transpose * A).charpoly.roots, positive_swap]

theorem small_flip {N T : ℕ} (Y : Fin N × Fin T → ℝ) (b b' : ℝ) (h0 : 0 ≤ b) (hb : b < b') (h : cnt (mat Y * (mat Y).transpose) b < T) : Small b' (flip Y) := by
  refine small_of_cnt (flip Y) b b' hb ?_
  rw [cnt_swap _ b h0] at h
  exact h

theorem flip_prob (N T : ℕ) (b : ℝ) : gau (Fin N × Fin T) {v | Small b (flip v)} = gau (Fin T × Fin N) {v | Small b v} := by
  have hm : MeasurableSet {v : Fin T × Fin N → ℝ | Small b v} := (small_open b).measurableSet
  rw [← lintegral_indicator_one hm, gau_equiv (Equiv.prodComm (Fin T) (Fin N)) _ (measurable_one.indicator hm)]
  have hm' : MeasurableSet {v : Fin N × Fin T → ℝ | Small b (flip v)} := by
    refine (IsOpen.preimage (f := fun v : Fin N × Fin T → ℝ => flip v) ?_ (small_open b)).measurableSet
    unfold flip
    fun_prop
  rw [← lintegral_indicator_one hm']
  rfl

/-! ## Centring -/

/-- The array without its first column. -/
def cols {N T : ℕ} (v : Fin N × Fin (T + 1) → ℝ) : Fin N × Fin T → ℝ := fun p => v (p.1, p.2.succ)

/-- Centring the rows amounts, after a rotation of the samples, to dropping a column. -/
theorem centred_cols (N T : ℕ) : ∃ V ∈ Matrix.orthogonalGroup (Fin (T + 1)) ℝ, ∀ v : Fin N × Fin (T + 1) → ℝ,
    centred (mat v) * (centred (mat v)).transpose = mat (cols (rmul v V)) * (mat (cols (rmul v V))).transpose := by
  obtain ⟨Q, hQ, h1⟩ := householder (fun _ : Fin (T + 1) => (1 : ℝ))
  have hQ1 := (Matrix.mem_orthogonalGroup_iff (Fin (T + 1)) ℝ).mp hQ
  have hQ2 := (Matrix.mem_orthogonalGroup_iff' (Fin (T + 1)) ℝ).mp hQ
  set r := √(∑ _i : Fin (T + 1), (1 : ℝ) ^ 2) with hr
  have hr2 : r ^ 2 = T + 1 := by
    rw [hr, sq_sqrt (by positivity)]
    simp
  have hr0 : r ≠ 0 := by
    intro h
    rw [h] at hr2
    have : (0 : ℝ) ≤ T := Nat.cast_nonneg T
    nlinarith
  have hrow : ∀ i : Fin (T + 1), ∑ l, Q i l = if i.val = 0 then r else 0 := fun i => by
    have := congrFun h1 i
    simpa [Matrix.mulVec, dotProduct, first] using this
  have hfirst : ∀ l, Q 0 l = 1 / r := by
    intro l
    have h2 : Q.transpose.mulVec (Q.mulVec fun _ => (1 : ℝ)) = fun _ => 1 := by
      rw [Matrix.mulVec_mulVec, show Q.transpose * Q = 1 from hQ2, Matrix.one_mulVec]
    rw [h1] at h2
    have h3 := congrFun h2 l
    simp only [Matrix.mulVec, dotProduct, first, Matrix.transpose_apply, Fin.sum_univ_succ, Fin.val_zero, Fin.val_succ, if_true] at h3
    simp at h3
    rw [eq_div_iff hr0]
    exact h3
  refine ⟨Q.transpose, transpose_orthogonal Q hQ, fun v => ?_⟩
  have e1 : centred (mat v) * (centred (mat v)).transpose = (centred (mat v) * Q.transpose) * (centred (mat v) * Q.transpose).transpose := by
    rw [Matrix.transpose_mul, Matrix.transpose_transpose, Matrix.mul_assoc, ← Matrix.mul_assoc Q.transpose, show Q.transpose * Q = 1 from hQ2, Matrix.one_mul]
  rw [e1]
  have c0 : ∀ i, (centred (mat v) * Q.transpose) i 0 = 0 := by
    intro i
    rw [Matrix.mul_apply]
    simp only [Matrix.transpose_apply, hfirst]
    rw [← Finset.sum_mul]
    simp only [centred, Finset.sum_sub_distrib, Finset.sum_const, Finset.card_univ, Fintype.card_fin, nsmul_eq_mul]
    rw [mul_div_cancel₀ _ (by positivity), sub_self, zero_mul]
  have cs : ∀ i (j : Fin T), (centred (mat v) * Q.transpose) i j.succ = cols (rmul v Q.transpose) (i, j) := by
    intro i j
    rw [Matrix.mul_apply]
    have h0 := hrow j.succ
    rw [if_neg (by simp)] at h0
    simp only [centred, Matrix.transpose_apply, sub_mul, Finset.sum_sub_distrib, ← Finset.mul_sum, h0, mul_zero, sub_zero]
    rfl
  ext i k
  rw [Matrix.mul_apply, Matrix.mul_apply, Fin.sum_univ_succ]
  simp only [Matrix.transpose_apply, c0, cs, zero_mul, zero_add]
  rfl

theorem cols_prob (N T : ℕ) (V : Matrix (Fin (T + 1)) (Fin (T + 1)) ℝ) (hV : V ∈ Matrix.orthogonalGroup (Fin (T + 1)) ℝ) (S : Set (Fin N × Fin T → ℝ)) (hS : MeasurableSet S) :
    gau (Fin N × Fin (T + 1)) {v | cols (rmul v V) ∈ S} = gau (Fin N × Fin T) S := by
  have hmc : Measurable fun v : Fin N × Fin (T + 1) → ℝ => cols v := measurable_pi_lambda _ fun p => measurable_pi_apply _
  have hmr : Measurable fun v : Fin N × Fin (T + 1) → ℝ => rmul v V := by
    refine measurable_pi_lambda _ fun p => ?_
    simp only [rmul]
    fun_prop
  have hm : MeasurableSet {v : Fin N × Fin (T + 1) → ℝ | cols (rmul v V) ∈ S} := (hmc.comp hmr) hS
  have hm2 : MeasurableSet {v : Fin N × Fin (T + 1) → ℝ | cols v ∈ S} := hmc hS
  rw [← lintegral_indicator_one hm]
  have e := rmul_integral V hV ({v : Fin N × Fin (T + 1) → ℝ | cols v ∈ S}.indicator (1 : (Fin N × Fin (T + 1) → ℝ) → ℝ≥0∞)) (measurable_one.indicator hm2)
  refine e.trans ?_
  rw [col_integral _ (measurable_one.indicator hm2)]
  have e2 : ∀ c : Fin N → ℝ, ∫⁻ Y, {v : Fin N × Fin (T + 1) → ℝ | cols v ∈ S}.indicator (1 : (Fin N × Fin (T + 1) → ℝ) → ℝ≥0∞) (side c Y) ∂gau (Fin N × Fin T) = gau (Fin N × Fin T) S := by
    intro c
    rw [← lintegral_indicator_one hS]
    rfl
  simp only [e2, lintegral_const, measure_univ, mul_one]

end RMT.Edge
