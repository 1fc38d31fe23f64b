import Verif.Lemmas.LoopEquations

/-! # The loop equations for the traces of powers of `X Q Xᵀ`, with `X` Gaussian and `Q` a projection -/

namespace RMT.Gauss.Wishart
open MvPolynomial Matrix

variable {N T : ℕ}

/-- Polynomials in the `N T` draws. -/
abbrev PolW (N T : ℕ) : Type := MvPolynomial (Fin N × Fin T) ℝ

/-- The data matrix, projected. -/
noncomputable def bm (N : ℕ) (Q : Matrix (Fin T) (Fin T) ℝ) : Matrix (Fin N) (Fin T) (PolW N T) := Matrix.of fun i a => ∑ b, X (i, b) * C (Q b a)

/-- The matrix `X Q Xᵀ`. -/
noncomputable def sm (N : ℕ) (Q : Matrix (Fin T) (Fin T) ℝ) : Matrix (Fin N) (Fin N) (PolW N T) := bm N Q * (bm N Q)ᵀ

theorem sm_symm (Q : Matrix (Fin T) (Fin T) ℝ) : (sm N Q).IsSymm := by
  rw [sm, Matrix.IsSymm, Matrix.transpose_mul, Matrix.transpose_transpose]

theorem swap (Q : Matrix (Fin T) (Fin T) ℝ) (k : ℕ) (i j : Fin N) : (sm N Q ^ k) i j = (sm N Q ^ k) j i := ((sm_symm Q).pow k).apply j i

theorem bm_proj {Q : Matrix (Fin T) (Fin T) ℝ} (hq : Q * Q = Q) (i : Fin N) (a : Fin T) : ∑ b, bm N Q i b * C (Q b a) = bm N Q i a := by
  simp only [bm, Matrix.of_apply, Finset.sum_mul]
  rw [Finset.sum_comm]
  refine Finset.sum_congr rfl fun c _ => ?_
  have h : Q c a = ∑ b, Q c b * Q b a := by conv_lhs => rw [← hq, Matrix.mul_apply]
  rw [h, map_sum, Finset.mul_sum]
  exact Finset.sum_congr rfl fun b _ => by rw [C_mul]; ring

theorem deriv_bm {Q : Matrix (Fin T) (Fin T) ℝ} (i x : Fin N) (a b : Fin T) : pderiv (i, a) (bm N Q x b) = if x = i then C (Q a b) else 0 := by
  simp only [bm, Matrix.of_apply, map_sum, Derivation.leibniz, pderiv_C, smul_zero, zero_add, pderiv_X, smul_eq_mul, Pi.single_apply, Prod.mk.injEq]
  by_cases h : x = i
  · simp [h]
  · simp [h]

theorem deriv_sm {Q : Matrix (Fin T) (Fin T) ℝ} (hs : Q.IsSymm) (hq : Q * Q = Q) (i : Fin N) (a : Fin T) (x y : Fin N) :
    pderiv (i, a) (sm N Q x y) = (if x = i then bm N Q y a else 0) + if y = i then bm N Q x a else 0 := by
  have e : ∀ z, ∑ b, bm N Q z b * C (Q a b) = bm N Q z a := by
    intro z
    rw [← bm_proj hq z a]
    exact Finset.sum_congr rfl fun b _ => by rw [hs.apply b a]
  rw [sm, Matrix.mul_apply, map_sum]
  simp only [Derivation.leibniz, smul_eq_mul, Matrix.transpose_apply, deriv_bm]
  rw [Finset.sum_add_distrib, add_comm]
  congr 1
  · by_cases h : x = i
    · simp only [h, if_true, e]
    · simp [h]
  · by_cases h : y = i
    · simp only [h, if_true, e]
    · simp [h]

/-- The powers times the data matrix. -/
noncomputable def pb (N : ℕ) (Q : Matrix (Fin T) (Fin T) ℝ) (k : ℕ) : Matrix (Fin N) (Fin T) (PolW N T) := sm N Q ^ k * bm N Q

theorem pb_sum (Q : Matrix (Fin T) (Fin T) ℝ) (k : ℕ) (y : Fin N) (a : Fin T) : ∑ z, bm N Q z a * (sm N Q ^ k) z y = pb N Q k y a := by
  rw [pb, Matrix.mul_apply]
  exact Finset.sum_congr rfl fun z _ => by rw [swap Q k z y, mul_comm]

theorem deriv_pow {Q : Matrix (Fin T) (Fin T) ℝ} (hs : Q.IsSymm) (hq : Q * Q = Q) (i : Fin N) (a : Fin T) (k : ℕ) (x y : Fin N) : pderiv (i, a) ((sm N Q ^ k) x y) =
    ∑ j ∈ Finset.range k, ((sm N Q ^ j) x i * pb N Q (k - 1 - j) y a + pb N Q j x a * (sm N Q ^ (k - 1 - j)) i y) := by
  induction k generalizing x y with
  | zero =>
    simp only [pow_zero, Matrix.one_apply, Finset.range_zero, Finset.sum_empty]
    split_ifs <;> simp
  | succ k ih =>
    rw [pow_succ, Matrix.mul_apply, map_sum]
    simp only [Derivation.leibniz, smul_eq_mul, ih, deriv_sm hs hq]
    rw [Finset.sum_add_distrib, Finset.sum_range_succ]
    have e1 : ∑ z, (sm N Q ^ k) x z * ((if z = i then bm N Q y a else 0) + if y = i then bm N Q z a else 0) =
        (sm N Q ^ k) x i * pb N Q (k + 1 - 1 - k) y a + pb N Q k x a * (sm N Q ^ (k + 1 - 1 - k)) i y := by
      rw [show k + 1 - 1 - k = 0 by omega, pow_zero, Matrix.one_apply, pb, pow_zero, Matrix.one_mul, pb, Matrix.mul_apply]
      simp only [mul_add, Finset.sum_add_distrib, mul_ite, mul_zero, Finset.sum_ite_eq', Finset.mem_univ, if_true]
      congr 1
      by_cases h : y = i
      · simp [h]
      · simp [h, Ne.symm h]
    have e2 : ∑ z, sm N Q z y * ∑ j ∈ Finset.range k, ((sm N Q ^ j) x i * pb N Q (k - 1 - j) z a + pb N Q j x a * (sm N Q ^ (k - 1 - j)) i z) =
        ∑ j ∈ Finset.range k, ((sm N Q ^ j) x i * pb N Q (k + 1 - 1 - j) y a + pb N Q j x a * (sm N Q ^ (k + 1 - 1 - j)) i y) := by
      simp only [Finset.mul_sum]
      rw [Finset.sum_comm]
      refine Finset.sum_congr rfl fun j hj => ?_
      rw [Finset.mem_range] at hj
      have h1 : k + 1 - 1 - j = k - 1 - j + 1 := by omega
      have h2 : pb N Q (k - 1 - j + 1) y a = ∑ z, sm N Q z y * pb N Q (k - 1 - j) z a := by
        rw [pb, pow_succ', Matrix.mul_assoc, ← pb, Matrix.mul_apply]
        exact Finset.sum_congr rfl fun z _ => by rw [(sm_symm Q).apply z y]
      have h3 : (sm N Q ^ (k - 1 - j + 1)) i y = ∑ z, sm N Q z y * (sm N Q ^ (k - 1 - j)) i z := by
        rw [pow_succ, Matrix.mul_apply]
        exact Finset.sum_congr rfl fun z _ => mul_comm _ _
      rw [h1, h2, h3, Finset.mul_sum, Finset.mul_sum, ← Finset.sum_add_distrib]
      exact Finset.sum_congr rfl fun z _ => by ring
    rw [e1, e2]
    ring

/-- The trace of the `k`-th power. -/
noncomputable def ts (N : ℕ) (Q : Matrix (Fin T) (Fin T) ℝ) (k : ℕ) : PolW N T := (sm N Q ^ k).trace

theorem ts_zero (Q : Matrix (Fin T) (Fin T) ℝ) : ts N Q 0 = N := by simp [ts]

theorem sum_pb_pb (Q : Matrix (Fin T) (Fin T) ℝ) (j l : ℕ) : ∑ i, ∑ a, pb N Q j i a * pb N Q l i a = ts N Q (j + l + 1) := by
  have h : ts N Q (j + l + 1) = (pb N Q j * (pb N Q l)ᵀ).trace := by
    rw [pb, pb, Matrix.transpose_mul, ((sm_symm Q).pow l).eq, ts, Matrix.mul_assoc, ← Matrix.mul_assoc (bm N Q), ← sm, ← pow_succ', ← pow_add, add_assoc]
  rw [h, Matrix.trace]
  simp only [Matrix.diag_apply, Matrix.mul_apply, Matrix.transpose_apply]

theorem ts_succ {Q : Matrix (Fin T) (Fin T) ℝ} (hs : Q.IsSymm) (hq : Q * Q = Q) (k : ℕ) : ts N Q (k + 1) = ∑ i, ∑ a, X (i, a) * pb N Q k i a := by
  have h := sum_pb_pb (N := N) Q 0 k
  rw [zero_add] at h
  rw [← h]
  refine Finset.sum_congr rfl fun i _ => ?_
  have hb : ∀ a, pb N Q 0 i a = ∑ b, X (i, b) * C (Q b a) := by
    intro a; rw [pb, pow_zero, Matrix.one_mul]; rfl
  have hp : ∀ b, ∑ a, C (Q b a) * pb N Q k i a = pb N Q k i b := by
    intro b
    simp only [pb, Matrix.mul_apply, Finset.mul_sum]
    rw [Finset.sum_comm]
    refine Finset.sum_congr rfl fun z _ => ?_
    rw [← bm_proj hq z b, Finset.mul_sum]
    exact Finset.sum_congr rfl fun a _ => by rw [hs.apply a b]; ring
  simp only [hb, Finset.sum_mul]
  rw [Finset.sum_comm]
  refine Finset.sum_congr rfl fun b _ => ?_
  rw [← hp b, Finset.mul_sum]
  exact Finset.sum_congr rfl fun a _ => by ring

theorem sum_deriv_pb {Q : Matrix (Fin T) (Fin T) ℝ} (hs : Q.IsSymm) (hq : Q * Q = Q) (k : ℕ) : ∑ i, ∑ a, pderiv (i, a) (pb N Q k i a) =
    (C Q.trace : PolW N T) * ts N Q k + (k : PolW N T) * ts N Q k + ∑ j ∈ Finset.range k, ts N Q j * ts N Q (k - j) := by
  have h1 : ∀ i a, pderiv (i, a) (pb N Q k i a) = C (Q a a) * (sm N Q ^ k) i i +
      ∑ j ∈ Finset.range k, ((sm N Q ^ j) i i * ∑ z, bm N Q z a * pb N Q (k - 1 - j) z a + pb N Q j i a * pb N Q (k - 1 - j) i a) := by
    intro i a
    rw [pb, Matrix.mul_apply, map_sum]
    simp only [Derivation.leibniz, smul_eq_mul, deriv_bm, deriv_pow hs hq]
    rw [Finset.sum_add_distrib]
    congr 1
    · simp [mul_comm]
    · simp only [Finset.mul_sum]
      rw [Finset.sum_comm]
      refine Finset.sum_congr rfl fun j _ => ?_
      have : pb N Q (k - 1 - j) i a = ∑ z, bm N Q z a * (sm N Q ^ (k - 1 - j)) i z := by
        rw [← pb_sum]
        exact Finset.sum_congr rfl fun z _ => by rw [swap]
      rw [this, Finset.mul_sum, ← Finset.sum_add_distrib]
      exact Finset.sum_congr rfl fun z _ => by ring
  have h2 : ∀ l, ∑ a, ∑ z, bm N Q z a * pb N Q l z a = ts N Q (l + 1) := by
    intro l
    have h := sum_pb_pb (N := N) Q 0 l
    rw [zero_add] at h
    rw [← h, Finset.sum_comm]
    simp only [pb, pow_zero, Matrix.one_mul]
  simp only [h1, Finset.sum_add_distrib]
  rw [add_assoc]
  congr 1
  · simp only [← Finset.sum_mul, ← Finset.mul_sum, ← map_sum]
    rfl
  · have h3 : ∀ j ∈ Finset.range k, ∑ i, ∑ a, ((sm N Q ^ j) i i * ∑ z, bm N Q z a * pb N Q (k - 1 - j) z a + pb N Q j i a * pb N Q (k - 1 - j) i a) = ts N Q j * ts N Q (k - j) + ts N Q k := by
      intro j hj
      rw [Finset.mem_range] at hj
      simp only [Finset.sum_add_distrib, ← Finset.mul_sum, h2, ← Finset.sum_mul]
      rw [sum_pb_pb, show k - 1 - j + 1 = k - j by omega, show j + (k - 1 - j) + 1 = k by omega]
      rfl
    have h4 : ∀ i : Fin N, ∑ a, ∑ j ∈ Finset.range k, ((sm N Q ^ j) i i * ∑ z, bm N Q z a * pb N Q (k - 1 - j) z a + pb N Q j i a * pb N Q (k - 1 - j) i a) =
        ∑ j ∈ Finset.range k, ∑ a, ((sm N Q ^ j) i i * ∑ z, bm N Q z a * pb N Q (k - 1 - j) z a + pb N Q j i a * pb N Q (k - 1 - j) i a) := fun i => Finset.sum_comm
    simp only [← Finset.sum_add_distrib]
    simp only [h4]
    rw [Finset.sum_comm, Finset.sum_congr rfl h3, Finset.sum_add_distrib]
    simp
    ring

theorem deriv_ts {Q : Matrix (Fin T) (Fin T) ℝ} (hs : Q.IsSymm) (hq : Q * Q = Q) (i : Fin N) (a : Fin T) (l : ℕ) : pderiv (i, a) (ts N Q l) = 2 * (l * pb N Q (l - 1) i a) := by
  rw [ts, Matrix.trace, map_sum]
  simp only [Matrix.diag_apply, deriv_pow hs hq]
  rw [Finset.sum_comm]
  have hp : ∀ j m, ∑ x, (sm N Q ^ j) x i * pb N Q m x a = pb N Q (j + m) i a := by
    intro j m
    rw [pb, pb, pow_add, Matrix.mul_assoc, Matrix.mul_apply]
    exact Finset.sum_congr rfl fun x _ => by rw [swap]
  have h : ∀ j ∈ Finset.range l, ∑ x, ((sm N Q ^ j) x i * pb N Q (l - 1 - j) x a + pb N Q j x a * (sm N Q ^ (l - 1 - j)) i x) = 2 * pb N Q (l - 1) i a := by
    intro j hj
    rw [Finset.mem_range] at hj
    have h2 : ∀ x, pb N Q j x a * (sm N Q ^ (l - 1 - j)) i x = (sm N Q ^ (l - 1 - j)) x i * pb N Q j x a := fun x => by rw [swap, mul_comm]
    simp only [h2]
    rw [Finset.sum_add_distrib, hp, hp, show j + (l - 1 - j) = l - 1 by omega, show l - 1 - j + j = l - 1 by omega]
    ring
  rw [Finset.sum_congr rfl h]
  simp
  ring

/-- The product of the traces of the powers in `l`. -/
noncomputable def pw (N : ℕ) (Q : Matrix (Fin T) (Fin T) ℝ) (l : List ℕ) : PolW N T := (l.map (ts N Q)).prod

theorem deriv_pw {Q : Matrix (Fin T) (Fin T) ℝ} (i : Fin N × Fin T) (l : List ℕ) : pderiv i (pw N Q l) = ((splits l).map fun p => pderiv i (ts N Q p.1) * pw N Q p.2).sum := by
  induction l with
  | nil => simp [pw, splits]
  | cons a l ih =>
    have : pw N Q (a :: l) = ts N Q a * pw N Q l := by simp [pw]
    rw [this, Derivation.leibniz, ih]
    simp only [smul_eq_mul, splits, List.map_cons, List.sum_cons, List.map_map, Function.comp_def]
    rw [← List.sum_map_mul_left]
    have h2 : ∀ p : ℕ × List ℕ, ts N Q a * (pderiv i (ts N Q p.1) * pw N Q p.2) = pderiv i (ts N Q p.1) * pw N Q (a :: p.2) := by
      intro p; simp only [pw, List.map_cons, List.prod_cons]; ring
    simp only [h2]
    ring

theorem sum_listW {α κ : Type} (s : Finset κ) (l : List α) (f : κ → α → PolW N T) : ∑ i ∈ s, (l.map (f i)).sum = (l.map fun p => ∑ i ∈ s, f i p).sum := by
  induction l with
  | nil => simp
  | cons a l ih => simp [Finset.sum_add_distrib, ih]

theorem loop_poly {Q : Matrix (Fin T) (Fin T) ℝ} (hs : Q.IsSymm) (hq : Q * Q = Q) (k : ℕ) (l : List ℕ) : ∑ i, ∑ a, pderiv (i, a) (pb N Q k i a * pw N Q l) =
    (C Q.trace : PolW N T) * pw N Q (k :: l) + (k : PolW N T) * pw N Q (k :: l) + (∑ j ∈ Finset.range k, pw N Q (j :: (k - j) :: l)) +
      ((splits l).map fun p => 2 * (p.1 : PolW N T) * pw N Q ((k + (p.1 - 1) + 1) :: p.2)).sum := by
  have h1 : ∀ i a, pderiv (i, a) (pb N Q k i a * pw N Q l) = pderiv (i, a) (pb N Q k i a) * pw N Q l +
      ((splits l).map fun p => 2 * p.1 * pw N Q p.2 * (pb N Q k i a * pb N Q (p.1 - 1) i a)).sum := by
    intro i a
    rw [Derivation.leibniz, deriv_pw, smul_eq_mul, smul_eq_mul, add_comm, mul_comm (pw N Q l), ← List.sum_map_mul_left]
    congr 3
    ext p
    rw [deriv_ts hs hq]
    ring_nf
  simp only [h1, Finset.sum_add_distrib, ← Finset.sum_mul]
  rw [sum_deriv_pb hs hq]
  congr 1
  · rw [add_mul, add_mul, Finset.sum_mul]
    simp only [pw, List.map_cons, List.prod_cons]
    congr 1
    · ring
    · exact Finset.sum_congr rfl fun j _ => by ring
  · simp only [sum_listW]
    congr 2
    ext1 p
    simp only [← Finset.mul_sum, sum_pb_pb]
    simp only [pw, List.map_cons, List.prod_cons]
    ring

/-- The expected product of traces of powers. -/
noncomputable def W (N : ℕ) (Q : Matrix (Fin T) (Fin T) ℝ) (l : List ℕ) : ℝ := ex (pw N Q l)

theorem W_zero (Q : Matrix (Fin T) (Fin T) ℝ) (l : List ℕ) : W N Q (0 :: l) = N * W N Q l := by
  have : pw N Q (0 :: l) = C (N : ℝ) * pw N Q l := by simp [pw, ts_zero]
  rw [W, this, ex_C_mul, W]

theorem W_nil (Q : Matrix (Fin T) (Fin T) ℝ) : W N Q [] = 1 := by
  simp [W, pw, ex]

theorem W_succ {Q : Matrix (Fin T) (Fin T) ℝ} (hs : Q.IsSymm) (hq : Q * Q = Q) (k : ℕ) (l : List ℕ) : W N Q ((k + 1) :: l) =
    Q.trace * W N Q (k :: l) + k * W N Q (k :: l) + (∑ j ∈ Finset.range k, W N Q (j :: (k - j) :: l)) +
      ((splits l).map fun p => 2 * (p.1 : ℝ) * W N Q ((k + (p.1 - 1) + 1) :: p.2)).sum := by
  have h1 : pw N Q ((k + 1) :: l) = ∑ i, ∑ a, X (i, a) * (pb N Q k i a * pw N Q l) := by
    have h2 : pw N Q ((k + 1) :: l) = ts N Q (k + 1) * pw N Q l := by simp [pw]
    rw [h2, ts_succ hs hq, Finset.sum_mul]
    simp only [Finset.sum_mul, mul_assoc]
  rw [W, h1, ← exl_apply, map_sum]
  simp only [map_sum, exl_apply, ex_X_mul]
  simp only [← exl_apply, ← map_sum]
  rw [loop_poly hs hq, map_add, map_add, map_add, map_sum, map_list_sum, List.map_map]
  simp only [exl_apply, Function.comp_def]
  congr 1
  · congr 1
    congr 1
    · rw [ex_C_mul]; rfl
    · rw [W, ← ex_C_mul, map_natCast]
  · congr 2
    ext p
    simp only [W]
    rw [← ex_C_mul, C_mul, map_natCast, show (C 2 : PolW N T) = 2 from map_ofNat C 2]

end RMT.Gauss.Wishart
