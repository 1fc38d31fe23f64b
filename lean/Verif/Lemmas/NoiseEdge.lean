import Verif.Lemmas.BidiagonalLaw
import Verif.Lemmas.EdgeMoments
import Verif.Lemmas.CovarianceLaw

/-! # High moments of spectra of noise -/

namespace RMT.Edge
open MeasureTheory ProbabilityTheory Real Spec Filter Topology Gauss
open scoped ENNReal

/-- Non-negative entries on the diagonal and below it, zeros elsewhere. -/
def Bid {N T : ℕ} (v : Fin N × Fin T → ℝ) : Prop := ∀ i j, 0 ≤ v (i, j) ∧ (i.val ≠ j.val → i.val ≠ j.val + 1 → v (i, j) = 0)

theorem bid_rect {N T : ℕ} (a d : ℝ) (ha : 0 ≤ a) (hd : 0 ≤ d) (Y : Fin N × Fin T → ℝ) (hY : Bid Y) : Bid (rect a (first N d) Y) := by
  intro i j
  refine Fin.cases ?_ (fun i => ?_) i <;> refine Fin.cases ?_ (fun j => ?_) j
  · simp [ha]
  · simp
  · simp only [rect_s0, first, Fin.val_succ, Fin.val_zero]
    split_ifs with h
    · exact ⟨hd, fun _ h2 => absurd (by omega) h2⟩
    · exact ⟨le_rfl, fun _ _ => rfl⟩
  · simp only [rect_ss, Fin.val_succ]
    exact ⟨(hY i j).1, fun h1 h2 => (hY i j).2 (by omega) (by omega)⟩

theorem bidI_mono : ∀ (N T : ℕ) (F G : (Fin N × Fin T → ℝ) → ℝ≥0∞), (∀ v, Bid v → F v ≤ G v) → bidI N T F ≤ bidI N T G
  | 0, _, F, G, h => h 0 fun i _ => i.elim0
  | _ + 1, 0, F, G, h => h 0 fun _ j => j.elim0
  | N + 1, T + 1, F, G, h => by
    simp only [bidI]
    refine lintegral_mono fun x => lintegral_mono fun c => ?_
    exact bidI_mono N T _ _ fun Y hY => h _ (bid_rect _ _ (sqrt_nonneg _) (sqrt_nonneg _) Y hY)

/-- The powers of the diagonal entries. -/
noncomputable def Dg {N T : ℕ} (k : ℕ) (v : Fin N × Fin T → ℝ) : ℝ := ∑ i : Fin N, ∑ j : Fin T, if i.val = j.val then v (i, j) ^ (2 * k) else 0

/-- The powers of the entries below the diagonal. -/
noncomputable def Sb {N T : ℕ} (k : ℕ) (v : Fin N × Fin T → ℝ) : ℝ := ∑ i : Fin N, ∑ j : Fin T, if i.val = j.val + 1 then v (i, j) ^ (2 * k) else 0

theorem Dg_nonneg {N T : ℕ} (k : ℕ) (v : Fin N × Fin T → ℝ) : 0 ≤ Dg k v :=
  Finset.sum_nonneg fun i _ => Finset.sum_nonneg fun j _ => by
    split_ifs
    · rw [pow_mul]; positivity
    · exact le_rfl

theorem Sb_nonneg {N T : ℕ} (k : ℕ) (v : Fin N × Fin T → ℝ) : 0 ≤ Sb k v :=
  Finset.sum_nonneg fun i _ => Finset.sum_nonneg fun j _ => by
    split_ifs
    · rw [pow_mul]; positivity
    · exact le_rfl

theorem Dg_le {N T : ℕ} (k : ℕ) (v : Fin N × Fin T → ℝ) (i : Fin N) (j : Fin T) (h : i.val = j.val) : v (i, j) ^ (2 * k) ≤ Dg k v := by
  have h0 : ∀ i : Fin N, ∀ j : Fin T, 0 ≤ (if i.val = j.val then v (i, j) ^ (2 * k) else 0) := fun i j => by
    split_ifs
    · rw [pow_mul]; positivity
    · exact le_rfl
  have h1 := Finset.single_le_sum (f := fun j : Fin T => if i.val = j.val then v (i, j) ^ (2 * k) else 0) (fun j _ => h0 i j) (Finset.mem_univ j)
  have h2 := Finset.single_le_sum (f := fun i : Fin N => ∑ j : Fin T, if i.val = j.val then v (i, j) ^ (2 * k) else 0) (fun i _ => Finset.sum_nonneg fun j _ => h0 i j) (Finset.mem_univ i)
  simp only [if_pos h] at h1
  exact h1.trans h2

theorem Sb_le {N T : ℕ} (k : ℕ) (v : Fin N × Fin T → ℝ) (i : Fin N) (j : Fin T) (h : i.val = j.val + 1) : v (i, j) ^ (2 * k) ≤ Sb k v := by
  have h0 : ∀ i : Fin N, ∀ j : Fin T, 0 ≤ (if i.val = j.val + 1 then v (i, j) ^ (2 * k) else 0) := fun i j => by
    split_ifs
    · rw [pow_mul]; positivity
    · exact le_rfl
  have h1 := Finset.single_le_sum (f := fun j : Fin T => if i.val = j.val + 1 then v (i, j) ^ (2 * k) else 0) (fun j _ => h0 i j) (Finset.mem_univ j)
  have h2 := Finset.single_le_sum (f := fun i : Fin N => ∑ j : Fin T, if i.val = j.val + 1 then v (i, j) ^ (2 * k) else 0) (fun i _ => Finset.sum_nonneg fun j _ => h0 i j) (Finset.mem_univ i)
  simp only [if_pos h] at h1
  exact h1.trans h2

theorem Dg_rect {N T : ℕ} (k : ℕ) (a : ℝ) (c : Fin N → ℝ) (Y : Fin N × Fin T → ℝ) : Dg k (rect a c Y) = a ^ (2 * k) + Dg k Y := by
  simp [Dg, Fin.sum_univ_succ]

theorem Sb_rect {N T : ℕ} (k : ℕ) (a d : ℝ) (Y : Fin N × Fin T → ℝ) : Sb k (rect a (first N d) Y) ≤ d ^ (2 * k) + Sb k Y := by
  have e : Sb k (rect a (first N d) Y) = (∑ i : Fin N, if i.val = 0 then d ^ (2 * k) else 0) + Sb k Y := by
    simp only [Sb, Fin.sum_univ_succ, rect_s0, rect_ss, Fin.val_succ, Fin.val_zero, Finset.sum_add_distrib]
    simp only [Nat.add_right_cancel_iff, Nat.add_eq_right]
    simp [first]
    refine Finset.sum_congr rfl fun i _ => ?_
    split_ifs <;> rfl
  rw [e]
  have := one_sum (fun i : Fin N => i.val = 0) (d ^ (2 * k)) (by rw [pow_mul]; positivity) (fun a b h h' => Fin.ext (by omega))
  linarith

theorem chi_lint (d k : ℕ) (K w m : ℝ) (hK : 0 ≤ K) (hw : 0 ≤ w) (hm : ∫ y, y ^ k ∂(chiSquared d) ≤ m) :
    ∫⁻ x, ENNReal.ofReal (K + w * (√(∑ i, x i ^ 2)) ^ (2 * k)) ∂gau (Fin d) ≤ ENNReal.ofReal (K + w * m) := by
  have hs : Measurable fun x : Fin d → ℝ => ∑ i, x i ^ 2 := by fun_prop
  have e : ∀ x : Fin d → ℝ, (√(∑ i, x i ^ 2)) ^ (2 * k) = (∑ i, x i ^ 2) ^ k := fun x => by
    rw [pow_mul, sq_sqrt (Finset.sum_nonneg fun i _ => sq_nonneg _)]
  have hl : chiSquared d = (gau (Fin d)).map fun x => ∑ i, x i ^ 2 := rfl
  have hi := chi_pow_integrable d k
  rw [hl] at hi hm
  rw [integral_map hs.aemeasurable (by fun_prop)] at hm
  have hi' : Integrable (fun x : Fin d → ℝ => (∑ i, x i ^ 2) ^ k) (gau (Fin d)) := hi.comp_measurable hs
  simp only [e]
  have key := ofReal_integral_eq_lintegral_ofReal (f := fun x : Fin d → ℝ => K + w * (∑ i, x i ^ 2) ^ k) ((integrable_const K).add (hi'.const_mul w)) (Eventually.of_forall fun x => by
    have : 0 ≤ ∑ i, x i ^ 2 := Finset.sum_nonneg fun i _ => sq_nonneg _
    positivity)
  rw [← key]
  refine ENNReal.ofReal_le_ofReal ?_
  rw [integral_add (integrable_const K) (hi'.const_mul w), integral_const_mul, integral_const]
  simp only [probReal_univ, one_smul]
  have := mul_le_mul_of_nonneg_left hm hw
  linarith

theorem bidI_sum (k N0 T0 : ℕ) (u w m1 m2 : ℝ) (hu : 0 ≤ u) (hw : 0 ≤ w) (h1 : ∀ d ≤ T0, ∫ y, y ^ k ∂(chiSquared d) ≤ m1) (h2 : ∀ d ≤ N0, ∫ y, y ^ k ∂(chiSquared d) ≤ m2)
    (hm1 : 0 ≤ m1) (hm2 : 0 ≤ m2) :
    ∀ (N T : ℕ) (K : ℝ), 0 ≤ K → N ≤ N0 → T ≤ T0 → bidI N T (fun v => ENNReal.ofReal (K + u * Dg k v + w * Sb k v)) ≤ ENNReal.ofReal (K + N * (u * m1 + w * m2)) := by
  intro N
  induction N with
  | zero =>
    intro T K hK _ _
    simp [bidI, Dg, Sb]
  | succ N ih =>
    intro T K hK hN hT
    cases T with
    | zero =>
      simp only [bidI, Dg, Sb, Finset.univ_eq_empty, Finset.sum_empty, Finset.sum_const_zero, mul_zero, add_zero]
      refine ENNReal.ofReal_le_ofReal ?_
      have : 0 ≤ ((N + 1 : ℕ) : ℝ) * (u * m1 + w * m2) := by positivity
      linarith
    | succ T =>
      simp only [bidI]
      have step : ∀ a d : ℝ, bidI N T (fun Y => ENNReal.ofReal (K + u * Dg k (rect a (first N d) Y) + w * Sb k (rect a (first N d) Y))) ≤
          ENNReal.ofReal ((K + N * (u * m1 + w * m2) + u * a ^ (2 * k)) + w * d ^ (2 * k)) := by
        intro a d
        have pa : 0 ≤ a ^ (2 * k) := by rw [pow_mul]; positivity
        have pd : 0 ≤ d ^ (2 * k) := by rw [pow_mul]; positivity
        refine (bidI_mono N T _ (fun Y => ENNReal.ofReal ((K + u * a ^ (2 * k) + w * d ^ (2 * k)) + u * Dg k Y + w * Sb k Y)) fun Y _ => ?_).trans ?_
        · refine ENNReal.ofReal_le_ofReal ?_
          have := mul_le_mul_of_nonneg_left (Sb_rect k a d Y) hw
          rw [Dg_rect]
          linarith
        · refine (ih T (K + u * a ^ (2 * k) + w * d ^ (2 * k)) (by positivity) (by omega) (by omega)).trans (ENNReal.ofReal_le_ofReal ?_)
          linarith
      have hK2 : 0 ≤ K + N * (u * m1 + w * m2) := by positivity
      calc _ ≤ ∫⁻ x : Fin (T + 1) → ℝ, ∫⁻ c : Fin N → ℝ, ENNReal.ofReal ((K + N * (u * m1 + w * m2) + u * (√(∑ i, x i ^ 2)) ^ (2 * k)) + w * (√(∑ i, c i ^ 2)) ^ (2 * k)) ∂gau (Fin N) ∂gau (Fin (T + 1)) :=
            lintegral_mono fun x => lintegral_mono fun c => step _ _
        _ ≤ ∫⁻ x : Fin (T + 1) → ℝ, ENNReal.ofReal ((K + N * (u * m1 + w * m2) + w * m2) + u * (√(∑ i, x i ^ 2)) ^ (2 * k)) ∂gau (Fin (T + 1)) := by
            refine lintegral_mono fun x => ?_
            have hx : 0 ≤ (√(∑ i, x i ^ 2)) ^ (2 * k) := by positivity
            refine (chi_lint N k (K + N * (u * m1 + w * m2) + u * (√(∑ i, x i ^ 2)) ^ (2 * k)) w m2 (by positivity) hw (h2 N (by omega))).trans (ENNReal.ofReal_le_ofReal ?_)
            linarith
        _ ≤ ENNReal.ofReal ((K + N * (u * m1 + w * m2) + w * m2) + u * m1) := chi_lint (T + 1) k _ u m1 (by positivity) hu (h1 (T + 1) hT)
        _ ≤ _ := by
            refine ENNReal.ofReal_le_ofReal ?_
            push_cast
            linarith

/-- Row sums of powers of a matrix with non-negative entries. -/
theorem row_sums {N : ℕ} (S : Matrix (Fin N) (Fin N) ℝ) (R : ℝ) (h0 : ∀ i j, 0 ≤ S i j) (hr : ∀ i, ∑ j, S i j ≤ R) (k : ℕ) : (∀ i j, 0 ≤ (S ^ k) i j) ∧ ∀ i, ∑ j, (S ^ k) i j ≤ R ^ k := by
  induction k with
  | zero =>
    refine ⟨fun i j => ?_, fun i => ?_⟩
    · simp only [pow_zero, Matrix.one_apply]
      split_ifs <;> norm_num
    · simp [Matrix.one_apply]
  | succ k ih =>
    refine ⟨fun i j => ?_, fun i => ?_⟩
    · rw [pow_succ, Matrix.mul_apply]
      exact Finset.sum_nonneg fun l _ => mul_nonneg (ih.1 i l) (h0 l j)
    · have hR : 0 ≤ R := (Finset.sum_nonneg fun j _ => h0 i j).trans (hr i)
      simp only [pow_succ, Matrix.mul_apply]
      rw [Finset.sum_comm]
      simp only [← Finset.mul_sum]
      calc ∑ l, (S ^ k) i l * ∑ j, S l j ≤ ∑ l, (S ^ k) i l * R := Finset.sum_le_sum fun l _ => mul_le_mul_of_nonneg_left (hr l) (ih.1 i l)
        _ = (∑ l, (S ^ k) i l) * R := by rw [Finset.sum_mul]
        _ ≤ R ^ k * R := mul_le_mul_of_nonneg_right (ih.2 i) hR

/-- The matrix with the entries of an array. -/
def mat {N T : ℕ} (v : Fin N × Fin T → ℝ) : Matrix (Fin N) (Fin T) ℝ := Matrix.of fun i j => v (i, j)

theorem trace_bid {N T : ℕ} (v : Fin N × Fin T → ℝ) (hv : Bid v) (k : ℕ) (hk : 1 ≤ k) (s : ℝ) (h0 : 0 < s) (h1 : s < 1) :
    ((mat v * (mat v).transpose) ^ k).trace ≤ N * ((1 - s) * ((1 / (1 - s)) ^ 2) ^ k * Dg k v + s * ((1 / s) ^ 2) ^ k * Sb k v) := by
  have h1' : 0 < 1 - s := by linarith
  have hk2 : 2 * k ≠ 0 := by omega
  have root : ∀ D : ℝ, 0 ≤ D → ∃ A : ℝ, 0 ≤ A ∧ A ^ (2 * k) = D := fun D hD => ⟨D ^ (((2 * k : ℕ) : ℝ)⁻¹), by positivity, rpow_inv_natCast_pow hD hk2⟩
  obtain ⟨A, hA0, hA⟩ := root _ (Dg_nonneg k v)
  obtain ⟨D, hD0, hD⟩ := root _ (Sb_nonneg k v)
  have bA : ∀ (i : Fin N) (j : Fin T), i.val = j.val → v (i, j) ≤ A := fun i j h => by
    have := Dg_le k v i j h
    rw [← hA] at this
    exact (pow_le_pow_iff_left₀ (hv i j).1 hA0 hk2).mp this
  have bD : ∀ (i : Fin N) (j : Fin T), i.val = j.val + 1 → v (i, j) ≤ D := fun i j h => by
    have := Sb_le k v i j h
    rw [← hD] at this
    exact (pow_le_pow_iff_left₀ (hv i j).1 hD0 hk2).mp this
  have ent : ∀ (i : Fin N) (j : Fin T), v (i, j) ≤ (if i.val = j.val then A else 0) + (if i.val = j.val + 1 then D else 0) := by
    intro i j
    by_cases c1 : i.val = j.val
    · rw [if_pos c1, if_neg (by omega), add_zero]
      exact bA i j c1
    · by_cases c2 : i.val = j.val + 1
      · rw [if_neg c1, if_pos c2, zero_add]
        exact bD i j c2
      · rw [if_neg c1, if_neg c2, add_zero]
        exact ((hv i j).2 c1 c2).le
  have hrow : ∀ i : Fin N, ∑ j, v (i, j) ≤ A + D := fun i => by
    refine (Finset.sum_le_sum fun j _ => ent i j).trans ?_
    rw [Finset.sum_add_distrib]
    exact add_le_add (one_sum _ _ hA0 fun a b h h' => Fin.ext (by omega)) (one_sum _ _ hD0 fun a b h h' => Fin.ext (by omega))
  have hcol : ∀ j : Fin T, ∑ i, v (i, j) ≤ A + D := fun j => by
    refine (Finset.sum_le_sum fun i _ => ent i j).trans ?_
    rw [Finset.sum_add_distrib]
    exact add_le_add (one_sum _ _ hA0 fun a b h h' => Fin.ext (by omega)) (one_sum _ _ hD0 fun a b h h' => Fin.ext (by omega))
  have hS : ∀ i j, (mat v * (mat v).transpose) i j = ∑ l, v (i, l) * v (j, l) := fun i j => by simp [mat, Matrix.mul_apply]
  obtain ⟨g1, g2⟩ := row_sums (mat v * (mat v).transpose) ((A + D) ^ 2) (fun i j => by
      rw [hS]
      exact Finset.sum_nonneg fun l _ => mul_nonneg (hv i l).1 (hv j l).1)
    (fun i => by
      simp only [hS]
      rw [Finset.sum_comm]
      simp only [← Finset.mul_sum]
      calc ∑ l, v (i, l) * ∑ j, v (j, l) ≤ ∑ l, v (i, l) * (A + D) := Finset.sum_le_sum fun l _ => mul_le_mul_of_nonneg_left (hcol l) (hv i l).1
        _ = (∑ l, v (i, l)) * (A + D) := by rw [Finset.sum_mul]
        _ ≤ (A + D) * (A + D) := mul_le_mul_of_nonneg_right (hrow i) (by positivity)
        _ = (A + D) ^ 2 := by ring) k
  have htr : ((mat v * (mat v).transpose) ^ k).trace ≤ N * (A + D) ^ (2 * k) := by
    rw [Matrix.trace]
    calc ∑ i, ((mat v * (mat v).transpose) ^ k).diag i ≤ ∑ _i : Fin N, (A + D) ^ (2 * k) := Finset.sum_le_sum fun i _ => by
          rw [pow_mul]
          exact (Finset.single_le_sum (f := fun j => ((mat v * (mat v).transpose) ^ k) i j) (fun j _ => g1 i j) (Finset.mem_univ i)).trans (g2 i)
      _ = N * (A + D) ^ (2 * k) := by simp
  refine htr.trans (mul_le_mul_of_nonneg_left ?_ (by positivity))
  have hcv := (convexOn_pow (𝕜 := ℝ) (2 * k)).2 (x := A / (1 - s)) (y := D / s) (Set.mem_Ici.mpr (by positivity)) (Set.mem_Ici.mpr (by positivity)) h1'.le h0.le (by ring)
  simp only [smul_eq_mul] at hcv
  have e1 : (1 - s) * (A / (1 - s)) + s * (D / s) = A + D := by field_simp
  rw [e1] at hcv
  refine hcv.trans_eq ?_
  rw [← hA, ← hD, div_pow, div_pow, ← pow_mul, ← pow_mul, div_pow, div_pow, one_pow]
  ring

theorem measurable_pow_entry {Ω' : Type} [MeasurableSpace Ω'] {N : ℕ} (S : Ω' → Matrix (Fin N) (Fin N) ℝ) (h : ∀ i j, Measurable fun ω => S ω i j) (k : ℕ) : ∀ i j, Measurable fun ω => (S ω ^ k) i j := by
  induction k with
  | zero =>
    intro i j
    simp only [pow_zero]
    exact measurable_const
  | succ k ih =>
    intro i j
    simp only [pow_succ, Matrix.mul_apply]
    exact Finset.measurable_sum _ fun l _ => (ih i l).mul (h l j)

/-- The expected trace of a power of `X Xᵀ`. -/
theorem trace_full (N T k : ℕ) (hk : 1 ≤ k) (s u w m1 m2 : ℝ) (h0 : 0 < s) (h1 : s < 1) (hu : u = (1 - s) * ((1 / (1 - s)) ^ 2) ^ k) (hw : w = s * ((1 / s) ^ 2) ^ k)
    (hm1 : 0 ≤ m1) (hm2 : 0 ≤ m2) (g1 : ∀ d ≤ T, ∫ y, y ^ k ∂(chiSquared d) ≤ m1) (g2 : ∀ d ≤ N, ∫ y, y ^ k ∂(chiSquared d) ≤ m2) :
    ∫⁻ v, ENNReal.ofReal ((mat v * (mat v).transpose) ^ k).trace ∂gau (Fin N × Fin T) ≤ ENNReal.ofReal (N * (N * (u * m1 + w * m2))) := by
  have h1' : 0 < 1 - s := by linarith
  have hu0 : 0 ≤ u := by rw [hu]; positivity
  have hw0 : 0 ≤ w := by rw [hw]; positivity
  have hm : Measurable fun v : Fin N × Fin T → ℝ => ENNReal.ofReal ((mat v * (mat v).transpose) ^ k).trace := by
    refine ENNReal.measurable_ofReal.comp (Finset.measurable_sum _ fun i _ => ?_)
    refine measurable_pow_entry (fun v : Fin N × Fin T → ℝ => mat v * (mat v).transpose) (fun i j => ?_) k i i
    simp only [Matrix.mul_apply, mat, Matrix.transpose_apply, Matrix.of_apply]
    fun_prop
  have conj : ∀ (U S : Matrix (Fin N) (Fin N) ℝ), U ∈ Matrix.orthogonalGroup (Fin N) ℝ → ((U * S * U.transpose) ^ k).trace = (S ^ k).trace := by
    intro U S hU
    have h2 := (Matrix.mem_orthogonalGroup_iff (Fin N) ℝ).mp hU
    have h3 := (Matrix.mem_orthogonalGroup_iff' (Fin N) ℝ).mp hU
    have : ∀ k, (U * S * U.transpose) ^ k = U * S ^ k * U.transpose := by
      intro k
      induction k with
      | zero => simp [h2]
      | succ k ih =>
        rw [pow_succ, ih, pow_succ]
        calc U * S ^ k * U.transpose * (U * S * U.transpose) = U * S ^ k * (U.transpose * U) * S * U.transpose := by simp only [Matrix.mul_assoc]
          _ = _ := by rw [h3, Matrix.mul_one]; simp only [Matrix.mul_assoc]
    rw [this, Matrix.trace_mul_comm, ← Matrix.mul_assoc, h3, Matrix.one_mul]
  rw [full_eq_bid N T _ hm (fun V hV v => by
      have h2 := (Matrix.mem_orthogonalGroup_iff (Fin T) ℝ).mp hV
      have : mat (rmul v V) = mat v * V := of_rmul v V
      rw [this, Matrix.transpose_mul, Matrix.mul_assoc, ← Matrix.mul_assoc V, h2, Matrix.one_mul]) (by
      cases N with
      | zero => trivial
      | succ N =>
        intro U hU v
        have : mat (lmul (ext1 U) v) = ext1 U * mat v := of_lmul _ v
        have e : mat (lmul (ext1 U) v) * (mat (lmul (ext1 U) v)).transpose = ext1 U * (mat v * (mat v).transpose) * (ext1 U).transpose := by
          rw [this, Matrix.transpose_mul]
          simp only [Matrix.mul_assoc]
        change ENNReal.ofReal ((mat (lmul (ext1 U) v) * (mat (lmul (ext1 U) v)).transpose) ^ k).trace = ENNReal.ofReal ((mat v * (mat v).transpose) ^ k).trace
        rw [e, conj _ _ (ext1_orthogonal U hU)])]
  refine (bidI_mono N T _ (fun v => ENNReal.ofReal (0 + (N * u) * Dg k v + (N * w) * Sb k v)) fun v hv => ENNReal.ofReal_le_ofReal ?_).trans ?_
  · have := trace_bid v hv k hk s h0 h1
    rw [← hu, ← hw] at this
    linarith
  · refine (bidI_sum k N T (N * u) (N * w) m1 m2 (by positivity) (by positivity) g1 g2 hm1 hm2 N T 0 le_rfl le_rfl le_rfl).trans (ENNReal.ofReal_le_ofReal ?_)
    linarith

open Semi Gauss.Wishart in
/-- The expected trace of the `k`-th power of `X Xᵀ`, for `k` small compared with the sizes of `X`. -/
theorem noise_moment (N T k : ℕ) (hk : 1 ≤ k) (hN : 0 < N) (hT : 0 < T) (η : ℝ) (hη : 0 < η) (kN : 2 * (k : ℝ) ≤ η * N) (kT : 2 * (k : ℝ) ≤ η * T) :
    Wishart.W N (1 : Matrix (Fin T) (Fin T) ℝ) [k] ≤ N * (N * ((1 + η) * (√N + √T) ^ 2) ^ k) := by
  have hN' : (0 : ℝ) < √N := sqrt_pos.mpr (by exact_mod_cast hN)
  have hT' : (0 : ℝ) < √T := sqrt_pos.mpr (by exact_mod_cast hT)
  have hN2 : √(N : ℝ) ^ 2 = N := sq_sqrt (by positivity)
  have hT2 : √(T : ℝ) ^ 2 = T := sq_sqrt (by positivity)
  set s := √(N : ℝ) / (√N + √T) with hs
  have hs1 : 1 - s = √T / (√N + √T) := by
    rw [hs]
    field_simp
    ring
  have h0 : 0 < s := by positivity
  have h1 : s < 1 := by
    have : 0 < 1 - s := by rw [hs1]; positivity
    linarith
  have main := trace_full N T k hk s _ _ (((1 + η) * T) ^ k) (((1 + η) * N) ^ k) h0 h1 rfl rfl (by positivity) (by positivity)
    (fun d hd => chi_pow_large T d k hd hT η hη kT) (fun d hd => chi_pow_large N d k hd hN η hη kN)
  have e : (1 - s) * ((1 / (1 - s)) ^ 2) ^ k * ((1 + η) * T) ^ k + s * ((1 / s) ^ 2) ^ k * ((1 + η) * N) ^ k = ((1 + η) * (√N + √T) ^ 2) ^ k := by
    have e1 : ((1 / (1 - s)) ^ 2) ^ k * ((1 + η) * T) ^ k = ((1 + η) * (√N + √T) ^ 2) ^ k := by
      rw [← mul_pow, hs1, show (1 + η) * (T : ℝ) = (1 + η) * √(T : ℝ) ^ 2 by rw [hT2]]
      congr 1
      field_simp
    have e2 : ((1 / s) ^ 2) ^ k * ((1 + η) * N) ^ k = ((1 + η) * (√N + √T) ^ 2) ^ k := by
      rw [← mul_pow, hs, show (1 + η) * (N : ℝ) = (1 + η) * √(N : ℝ) ^ 2 by rw [hN2]]
      congr 1
      field_simp
    rw [mul_assoc, mul_assoc, e1, e2]
    ring
  rw [e] at main
  have hev : ∀ v : Fin N × Fin T → ℝ, MvPolynomial.eval v (ts N (1 : Matrix (Fin T) (Fin T) ℝ) k) = ((mat v * (mat v).transpose) ^ k).trace := by
    intro v
    have hb : (bm N (1 : Matrix (Fin T) (Fin T) ℝ)).map (MvPolynomial.eval v) = mat v := by
      ext i a
      simp [bm, mat, Matrix.one_apply]
    have hsm : (sm N (1 : Matrix (Fin T) (Fin T) ℝ)).map (MvPolynomial.eval v) = mat v * (mat v).transpose := by
      rw [sm, Matrix.map_mul, Matrix.transpose_map, hb]
    rw [ts, AddMonoidHom.map_trace (MvPolynomial.eval v), ← hsm]
    congr 1
    exact map_pow (MvPolynomial.eval v).mapMatrix (sm N 1) k
  have hnn : ∀ v : Fin N × Fin T → ℝ, 0 ≤ ((mat v * (mat v).transpose) ^ k).trace := by
    intro v
    have := (Matrix.posSemidef_self_mul_conjTranspose (mat v)).pow k
    rw [Matrix.conjTranspose_eq_transpose_of_trivial] at this
    exact this.trace_nonneg
  have hW : Wishart.W N (1 : Matrix (Fin T) (Fin T) ℝ) [k] = ∫ v, ((mat v * (mat v).transpose) ^ k).trace ∂gau (Fin N × Fin T) := by
    rw [Wishart.W, pw, ex]
    simp only [List.map_cons, List.map_nil, List.prod_cons, List.prod_nil, mul_one, hev]
    rfl
  have hint : Integrable (fun v => ((mat v * (mat v).transpose) ^ k).trace) (gau (Fin N × Fin T)) := by
    simp only [← hev]
    exact poly_integrable _
  rw [hW]
  rw [← ofReal_integral_eq_lintegral_ofReal hint (Eventually.of_forall hnn)] at main
  exact (ENNReal.ofReal_le_ofReal_iff (by positivity)).mp main

/-- The moments grow with the number of samples. -/
theorem W_mono (N T : ℕ) {Q Q' : Matrix (Fin T) (Fin T) ℝ} (hs : Q.IsSymm) (hq : Q * Q = Q) (hs' : Q'.IsSymm) (hq' : Q' * Q' = Q') (h0 : 0 ≤ Q.trace) (h : Q.trace ≤ Q'.trace) (l : List ℕ) :
    0 ≤ Wishart.W N Q l ∧ Wishart.W N Q l ≤ Wishart.W N Q' l := by
  induction hm : l.sum using Nat.strong_induction_on generalizing l with
  | _ m ihm =>
    induction l with
    | nil => simp [Wishart.W_nil]
    | cons a l ihl =>
      rcases a with - | k
      · obtain ⟨h1, h2⟩ := ihl (by simpa using hm)
        rw [Wishart.W_zero, Wishart.W_zero]
        exact ⟨mul_nonneg (Nat.cast_nonneg _) h1, mul_le_mul_of_nonneg_left h2 (Nat.cast_nonneg _)⟩
      · have hsum : k + 1 + l.sum = m := by simpa using hm
        have ih : ∀ l' : List ℕ, l'.sum < m → 0 ≤ Wishart.W N Q l' ∧ Wishart.W N Q l' ≤ Wishart.W N Q' l' := fun l' h => ihm l'.sum h l' rfl
        rw [Wishart.W_succ hs hq, Wishart.W_succ hs' hq']
        obtain ⟨a1, a2⟩ := ih (k :: l) (by simp; omega)
        have s1 : ∀ j ∈ Finset.range k, 0 ≤ Wishart.W N Q (j :: (k - j) :: l) ∧ Wishart.W N Q (j :: (k - j) :: l) ≤ Wishart.W N Q' (j :: (k - j) :: l) := fun j hj => ih _ (by
          rw [Finset.mem_range] at hj
          simp
          omega)
        have s3 : ∀ p ∈ splits l, 0 ≤ 2 * (p.1 : ℝ) * Wishart.W N Q ((k + (p.1 - 1) + 1) :: p.2) ∧ 2 * (p.1 : ℝ) * Wishart.W N Q ((k + (p.1 - 1) + 1) :: p.2) ≤ 2 * (p.1 : ℝ) * Wishart.W N Q' ((k + (p.1 - 1) + 1) :: p.2) := by
          intro p hp
          obtain ⟨-, h2⟩ := splits_mem l p hp
          by_cases hp0 : p.1 = 0
          · simp [hp0]
          · obtain ⟨h3, h4⟩ := ih ((k + (p.1 - 1) + 1) :: p.2) (by simp; omega)
            have hc : (0 : ℝ) ≤ 2 * (p.1 : ℝ) := mul_nonneg zero_le_two (Nat.cast_nonneg _)
            exact ⟨mul_nonneg hc h3, mul_le_mul_of_nonneg_left h4 hc⟩
        have t1 := Finset.sum_nonneg fun j hj => (s1 j hj).1
        have t2 := Finset.sum_le_sum fun j hj => (s1 j hj).2
        have t3 : 0 ≤ ((splits l).map fun p => 2 * (p.1 : ℝ) * Wishart.W N Q ((k + (p.1 - 1) + 1) :: p.2)).sum := List.sum_nonneg (by
          intro x hx
          obtain ⟨p, hp, rfl⟩ := List.mem_map.mp hx
          exact (s3 p hp).1)
        have t4 : ((splits l).map fun p => 2 * (p.1 : ℝ) * Wishart.W N Q ((k + (p.1 - 1) + 1) :: p.2)).sum ≤ ((splits l).map fun p => 2 * (p.1 : ℝ) * Wishart.W N Q' ((k + (p.1 - 1) + 1) :: p.2)).sum :=
          List.sum_le_sum fun p hp => (s3 p hp).2
        have u1 : Q.trace * Wishart.W N Q (k :: l) ≤ Q'.trace * Wishart.W N Q' (k :: l) := mul_le_mul h a2 a1 (h0.trans h)
        have u2 : (k : ℝ) * Wishart.W N Q (k :: l) ≤ k * Wishart.W N Q' (k :: l) := mul_le_mul_of_nonneg_left a2 (Nat.cast_nonneg _)
        have u3 : 0 ≤ Q.trace * Wishart.W N Q (k :: l) := mul_nonneg h0 a1
        have u4 : 0 ≤ (k : ℝ) * Wishart.W N Q (k :: l) := mul_nonneg (Nat.cast_nonneg _) a1
        exact ⟨add_nonneg (add_nonneg (add_nonneg u3 u4) t1) t3, add_le_add (add_le_add (add_le_add u1 u2) t2) t4⟩

end RMT.Edge
