import Verif.Lemmas.Generate
import Mathlib.MeasureTheory.Integral.Bochner.Basic
import Mathlib.Data.Finset.Sum
import Mathlib.Algebra.BigOperators.Intervals

/-!
# Properties C47 - C50, C77: random matrices
-/

set_option linter.unusedSectionVars false

namespace RMT
namespace Props
open Gen EigValsM EigM Unfold MeasureTheory

variable {σ : Type}

/-! ## C47, C48 -/

/-- **C47.** With a seed, the result (and the random state afterwards) does not depend on the random state before, nor on entropy, for every kind, size and
option. For `'uniform'` and invalid kinds, which draw nothing, only the result is the same (an exception). -/
theorem C47_seeded (R : Rng σ) (eh : EigSolver) (ehC : (n : Nat) → Matrix (Fin n) (Fin n) ℂ → List ℝ)
    (n : Nat) (kind : KindArg) (k : Nat) (tri : Bool) (e e' s s' : σ) :
    (generate R eh ehC n kind (some k) tri e s).1 = (generate R eh ehC n kind (some k) tri e' s').1 ∧
    (∀ r, (generate R eh ehC n kind (some k) tri e s).1 = .ok r →
      (generate R eh ehC n kind (some k) tri e s).2 = (generate R eh ehC n kind (some k) tri e' s').2) := by
  unfold generate
  rcases kind.validate with err | k'
  · exact ⟨rfl, fun r h => by cases h⟩
  · cases k' with
    | goe =>
      simp only [goeMatrix]
      by_cases h : n > 500 ∧ tri = true
      · simp only [if_pos h, generateGOETridiagonal, seedIfGiven]
        exact ⟨trivial, fun _ _ => trivial⟩
      · simp only [if_neg h, generateGOEMatrix, seedIfGiven]
        exact ⟨trivial, fun _ _ => trivial⟩
    | gue => exact ⟨rfl, fun _ _ => rfl⟩
    | poisson => exact ⟨rfl, fun _ _ => rfl⟩
    | uniform => exact ⟨rfl, fun r h => by cases h⟩

/-- **C48 (partial).** For the kinds GOE and GUE, without a seed, the result and the new random state are functions of the random state before: entropy plays no role. -/
theorem C48_unseeded_partial (R : Rng σ) (eh : EigSolver) (ehC : (n : Nat) → Matrix (Fin n) (Fin n) ℂ → List ℝ)
    (n : Nat) (kind : KindArg) (hk : kind.validate ≠ .ok .poisson) (tri : Bool) (e e' s : σ) :
    generate R eh ehC n kind none tri e s = generate R eh ehC n kind none tri e' s := by
  unfold generate
  rcases h : kind.validate with err | k'
  · rfl
  · cases k' with
    | poisson => exact absurd h hk
    | goe => rfl
    | gue => rfl
    | uniform => rfl

/-- **C48 (GOE and GUE continue the stream).** Calling `np.random.seed(k)` and then generating without a seed is generating with seed `k`, for all kinds but
Poisson. -/
theorem C48_reseed_partial (R : Rng σ) (eh : EigSolver) (ehC : (n : Nat) → Matrix (Fin n) (Fin n) ℂ → List ℝ)
    (n : Nat) (kind : KindArg) (hk : kind.validate ≠ .ok .poisson) (tri : Bool) (k : Nat) (e s : σ) :
    (generate R eh ehC n kind none tri e (R.seed k)).1 = (generate R eh ehC n kind (some k) tri e s).1 := by
  unfold generate
  rcases h : kind.validate with err | k'
  · rfl
  · cases k' with
    | poisson => exact absurd h hk
    | goe =>
      simp only [goeMatrix]
      by_cases h : n > 500 ∧ tri = true
      · simp only [if_pos h, generateGOETridiagonal, seedIfGiven]
      · simp only [if_neg h, generateGOEMatrix, seedIfGiven]
    | gue => rfl
    | uniform => rfl

/-- **C48 (what happens for Poisson).** Without a seed the Poisson kind ignores the random state altogether: the result depends on entropy only, and the state the caller had set is
lost. -/
theorem C48_poisson (R : Rng σ) (eh : EigSolver) (ehC : (n : Nat) → Matrix (Fin n) (Fin n) ℂ → List ℝ)
    (n : Nat) (kind : KindArg) (hk : kind.validate = .ok .poisson) (tri : Bool) (e s s' : σ) :
    generate R eh ehC n kind none tri e s = generate R eh ehC n kind none tri e s' := by
  unfold generate
  rw [hk]

/-- **C48 (refuted).** Two calls from the same random state, without a seed, can give different eigenvalues. -/
theorem C48_refuted : ∃ (R : Rng ℝ) (e e' s : ℝ), ∀ eh ehC,
    (generate R eh ehC 1 (.str "poisson") none true e s).1 ≠ (generate R eh ehC 1 (.str "poisson") none true e' s).1 := by
  refine ⟨⟨fun _ => 0, fun s => (s, s), fun _ s => (s, s)⟩, 1, 2, 0, fun eh ehC => ?_⟩
  have hv : (KindArg.str "poisson").validate = .ok .poisson := by decide
  simp only [generate, hv, normals, mkGenerated, initEigVals1d_ok, bind, Except.bind]
  rw [npSort_of_ascending [1] (by simp), npSort_of_ascending [2] (by simp), npSort_of_ascending [1] (by simp),
    npSort_of_ascending [2] (by simp)]
  intro h
  simp only [Except.ok.injEq, Prod.mk.injEq, Obj.mk.injEq, List.cons.injEq] at h
  norm_num at h

/-! ## C49 -/

/-- **C49 (symmetry).** For every random state, the GOE matrix (full or tridiagonal) is symmetric and the GUE matrix is Hermitian. -/
theorem C49_symmetric (R : Rng σ) (n : Nat) (seed : Option Nat) (tri : Bool) (s : σ) :
    (goeMatrix R n seed tri s).1.IsSymm ∧ (generateGUE R n seed s).1.IsHermitian := by
  constructor
  · unfold goeMatrix
    split_ifs
    · exact tridiagonalOf_symm _ _ _
    · exact goeOf_symm _
  · exact gueOf_hermitian _ _

/-- **C49 (tridiagonal).** The matrix used for GOE with `matsize > 500` and `use_tridiagonal` vanishes off the three central diagonals. -/
theorem C49_tridiagonal (R : Rng σ) (n : Nat) (seed : Option Nat) (s : σ) (hn : 500 < n) (i j : Fin n)
    (hij : i.val + 1 < j.val ∨ j.val + 1 < i.val) : (goeMatrix R n seed true s).1 i j = 0 := by
  rw [goeMatrix, if_pos ⟨hn, rfl⟩]
  simp only [generateGOETridiagonal, tridiagonalOf]
  rw [if_neg (by omega), if_neg (by omega), if_neg (by omega)]

/-- **C49 (full).** Otherwise the full matrix is used: entry `(i, j)` is `(m_ij + m_ji)/√2` for the `n²` normal draws `m` in row-major order. -/
theorem C49_full (R : Rng σ) (n : Nat) (seed : Option Nat) (tri : Bool) (s : σ) (h : n ≤ 500 ∨ tri = false) (i j : Fin n) :
    let z := (normals R (n * n) (seedIfGiven R seed s)).1
    z.length = n * n ∧
    (goeMatrix R n seed tri s).1 i j = (z.getD (i.val * n + j.val) 0 + z.getD (j.val * n + i.val) 0) / Real.sqrt 2 := by
  refine ⟨normals_length R _ _, ?_⟩
  rw [goeMatrix, if_neg (by rintro ⟨h1, h2⟩; rcases h with h | h; omega; rw [h2] at h; cases h)]
  rfl

/-- **C49 (kinds).** A string is accepted exactly if it is `goe`, `gue`, `poisson` or `uniform`; other strings (also `gde`) raise `ValueError`; `uniform` raises `NotImplementedError`; the others succeed,
and the resulting object has that kind. -/
theorem C49_kinds (R : Rng σ) (eh : EigSolver) (ehC : (n : Nat) → Matrix (Fin n) (Fin n) ℂ → List ℝ)
    (n : Nat) (str : String) (seed : Option Nat) (tri : Bool) (e s : σ) :
    ((str = "goe" ∨ str = "gue" ∨ str = "poisson") ↔
      ∃ o k, (generate R eh ehC n (.str str) seed tri e s).1 = .ok (o, k) ∧ k.value = str) ∧
    (str = "uniform" ↔ (generate R eh ehC n (.str str) seed tri e s).1 = .error .notImplementedError) ∧
    ((str ≠ "goe" ∧ str ≠ "gue" ∧ str ≠ "poisson" ∧ str ≠ "uniform") ↔
      (generate R eh ehC n (.str str) seed tri e s).1 = .error .valueError) := by
  by_cases h1 : str = "goe"
  · subst h1
    have hv : (KindArg.str "goe").validate = .ok .goe := by decide
    simp only [generate, hv, mkGenerated, initEigVals1d_ok, bind, Except.bind]
    refine ⟨⟨fun _ => ⟨_, _, rfl, rfl⟩, fun _ => by simp⟩, ?_, ?_⟩ <;> simp
  · by_cases h2 : str = "gue"
    · subst h2
      have hv : (KindArg.str "gue").validate = .ok .gue := by decide
      simp only [generate, hv, mkGenerated, initEigVals1d_ok, bind, Except.bind]
      refine ⟨⟨fun _ => ⟨_, _, rfl, rfl⟩, fun _ => by simp⟩, ?_, ?_⟩ <;> simp
    · by_cases h3 : str = "poisson"
      · subst h3
        have hv : (KindArg.str "poisson").validate = .ok .poisson := by decide
        simp only [generate, hv, mkGenerated, initEigVals1d_ok, bind, Except.bind]
        refine ⟨⟨fun _ => ⟨_, _, rfl, rfl⟩, fun _ => by simp⟩, ?_, ?_⟩ <;> simp
      · by_cases h4 : str = "uniform"
        · subst h4
          have hv : (KindArg.str "uniform").validate = .ok .uniform := by decide
          simp only [generate, hv]
          simp
        · have hv : (KindArg.str str).validate = .error .valueError := by
            simp [KindArg.validate, validateKind, allKinds, MatrixKind.value, Ne.symm h1, Ne.symm h2, Ne.symm h3, Ne.symm h4]
          simp only [generate, hv]
          simp [h1, h2, h3, h4]

/-- **C49 (values).** The generated object holds the eigenvalues of the matrix in ascending order; for Poisson the sorted normal draws, `matsize` of them. -/
theorem C49_values (R : Rng σ) (eh : EigSolver) (ehC : (n : Nat) → Matrix (Fin n) (Fin n) ℂ → List ℝ)
    (n : Nat) (seed : Option Nat) (tri : Bool) (e s : σ) :
    (∃ o, (generate R eh ehC n (.kind .goe) seed tri e s).1 = .ok (o, .goe) ∧
      o.vals = npSort (eh n (goeMatrix R n seed tri s).1)) ∧
    (∃ o, (generate R eh ehC n (.kind .gue) seed tri e s).1 = .ok (o, .gue) ∧
      o.vals = npSort (ehC n (generateGUE R n seed s).1)) ∧
    (∃ o, (generate R eh ehC n (.kind .poisson) seed tri e s).1 = .ok (o, .poisson) ∧ o.vals.length = n ∧
      o.vals = npSort (normals R n (match seed with | none => e | some k => R.seed k)).1) := by
  refine ⟨?_, ?_, ?_⟩
  · simp only [generate, KindArg.validate, mkGenerated, initEigVals1d_ok, bind, Except.bind]
    exact ⟨_, rfl, rfl⟩
  · simp only [generate, KindArg.validate, mkGenerated, initEigVals1d_ok, bind, Except.bind]
    exact ⟨_, rfl, rfl⟩
  · simp only [generate, KindArg.validate, mkGenerated, initEigVals1d_ok, bind, Except.bind]
    refine ⟨_, rfl, ?_, ?_⟩
    · simp only [(npSort_perm _).length_eq, normals_length]
    · exact npSort_of_ascending _ (npSort_ascending _)

/-- The random state after `k` normal draws. -/
def stateAfter (R : Rng σ) (s : σ) : Nat → σ
  | 0 => s
  | k + 1 => (R.normal (stateAfter R s k)).2

/-- The `k`-th normal draw (from 0), each draw made from the state which the one before left. -/
def draw (R : Rng σ) (s : σ) (k : Nat) : ℝ := (R.normal (stateAfter R s k)).1

theorem stateAfter_step (R : Rng σ) (s : σ) (k : Nat) : stateAfter R (R.normal s).2 k = stateAfter R s (k + 1) := by
  induction k with
  | zero => rfl
  | succ k ih => rw [stateAfter, ih]; rfl

theorem stateAfter_add (R : Rng σ) (s : σ) (a b : Nat) : stateAfter R (stateAfter R s a) b = stateAfter R s (a + b) := by
  induction b with
  | zero => rfl
  | succ b ih => rw [stateAfter, ih]; rfl

theorem normals_draws (R : Rng σ) (n : Nat) : ∀ s, normals R n s = ((List.range n).map (draw R s), stateAfter R s n) := by
  induction n with
  | zero => intro s; rfl
  | succ n ih =>
    intro s
    simp only [normals, ih, List.range_succ_eq_map, List.map_cons, List.map_map]
    refine Prod.ext ?_ (stateAfter_step R s n)
    simp only [List.cons.injEq]
    refine ⟨rfl, List.map_congr_left fun k _ => ?_⟩
    simp only [Function.comp, draw, stateAfter_step]

theorem entry_lt {n : Nat} (i j : Fin n) : i.val * n + j.val < n * n := by
  have h1 := i.isLt
  have h2 := j.isLt
  calc i.val * n + j.val < i.val * n + n := by omega
    _ = (i.val + 1) * n := by ring
    _ ≤ n * n := Nat.mul_le_mul_right n h1

theorem ofRowMajor_draws (n : Nat) (f : Nat → ℝ) (i j : Fin n) :
    ofRowMajor n ((List.range (n * n)).map f) i j = f (i.val * n + j.val) := by
  simp [ofRowMajor, List.getD_eq_getElem?_getD, entry_lt i j]

/-- **C49 (GUE entries).** Let `x₀, x₁, …` be the successive normal draws from the (seeded) random state. Entry `(i, j)` of the GUE matrix has real part `(x_{in+j} + x_{jn+i})/2`
and imaginary part `(x_{n²+in+j} - x_{n²+jn+i})/2`: `2n²` different draws are used. -/
theorem C49_gue (R : Rng σ) (n : Nat) (seed : Option Nat) (s : σ) (i j : Fin n) :
    let x := draw R (seedIfGiven R seed s)
    ((generateGUE R n seed s).1 i j).re = (x (i.val * n + j.val) + x (j.val * n + i.val)) / 2 ∧
    ((generateGUE R n seed s).1 i j).im = (x (n * n + (i.val * n + j.val)) - x (n * n + (j.val * n + i.val))) / 2 := by
  intro x
  have hx : ∀ k, draw R (stateAfter R (seedIfGiven R seed s) (n * n)) k = x (n * n + k) := fun k => by
    simp only [draw, stateAfter_add, x]
  simp only [generateGUE, normals_draws, gueOf, ofRowMajor_draws, hx]
  constructor
  · simp [x]
  · simp
    ring

/-- **C49 (GOE entries).** Entry `(i, j)` of the full GOE matrix is `(x_{in+j} + x_{jn+i})/√2`. -/
theorem C49_goe (R : Rng σ) (n : Nat) (seed : Option Nat) (tri : Bool) (s : σ) (h : n ≤ 500 ∨ tri = false) (i j : Fin n) :
    let x := draw R (seedIfGiven R seed s)
    (goeMatrix R n seed tri s).1 i j = (x (i.val * n + j.val) + x (j.val * n + i.val)) / Real.sqrt 2 := by
  intro x
  rw [goeMatrix, if_neg (by rintro ⟨h1, h2⟩; rcases h with h | h; omega; rw [h2] at h; cases h)]
  simp only [generateGOEMatrix, normals_draws, goeOf, ofRowMajor_draws]
  rfl

/-- **C49 (Poisson values).** The `matsize` values are the successive normal draws, sorted. -/
theorem C49_poisson (R : Rng σ) (eh : EigSolver) (ehC : (n : Nat) → Matrix (Fin n) (Fin n) ℂ → List ℝ)
    (n : Nat) (k : Nat) (tri : Bool) (e s : σ) :
    ∃ o, (generate R eh ehC n (.kind .poisson) (some k) tri e s).1 = .ok (o, .poisson) ∧
      o.vals.Perm ((List.range n).map (draw R (R.seed k))) ∧ o.vals.Pairwise (· ≤ ·) := by
  obtain ⟨-, -, o, h1, -, h3⟩ := C49_values R eh ehC n (some k) tri e s
  refine ⟨o, h1, ?_, ?_⟩
  · rw [h3]; simp only [normals_draws]; exact npSort_perm _
  · rw [h3]; exact npSort_ascending _

/-- **C48 (consecutive calls).** Every successful call moves the global random state past exactly the draws it used (`n²` for the full GOE matrix, `2n²` for GUE, `n` for Poisson), so that a following unseeded call uses
new draws. -/
theorem C48_state (R : Rng σ) (eh : EigSolver) (ehC : (n : Nat) → Matrix (Fin n) (Fin n) ℂ → List ℝ)
    (n : Nat) (seed : Option Nat) (tri : Bool) (e s : σ) :
    (n ≤ 500 ∨ tri = false → (generate R eh ehC n (.kind .goe) seed tri e s).2 = stateAfter R (seedIfGiven R seed s) (n * n)) ∧
    (generate R eh ehC n (.kind .gue) seed tri e s).2 = stateAfter R (seedIfGiven R seed s) (2 * (n * n)) ∧
    (generate R eh ehC n (.kind .poisson) seed tri e s).2 = stateAfter R (seedIfGiven R seed e) n := by
  refine ⟨fun h => ?_, ?_, ?_⟩
  · simp only [generate, KindArg.validate, goeMatrix]
    rw [if_neg (by rintro ⟨h1, h2⟩; rcases h with h | h; omega; rw [h2] at h; cases h)]
    simp only [generateGOEMatrix, normals_draws]
  · simp only [generate, KindArg.validate, generateGUE, normals_draws, stateAfter_add]
    rw [two_mul]
  · simp only [generate, KindArg.validate, normals_draws]
    cases seed <;> rfl

-- a counter as random state: the draws are 0, 1, 2, …
example : (List.range 4).map (draw (⟨fun _ => 0, fun s => ((s : ℝ), s + 1), fun _ s => (0, s)⟩ : Rng Nat) 0) = [0, 1, 2, 3] := by
  simp [List.range_succ, draw, stateAfter]

/-! ## C50 -/

/-- Random variables with the second moments of `n²` independent standard normal draws. -/
structure NormalArray {Ω : Type} [MeasurableSpace Ω] (P : Measure Ω) (n : Nat) (A : Fin n → Fin n → Ω → ℝ) : Prop where
  integrable : ∀ i j k l, Integrable (fun ω => A i j ω * A k l ω) P
  diag : ∀ i j, ∫ ω, A i j ω * A i j ω ∂P = 1
  off : ∀ i j k l, (i ≠ k ∨ j ≠ l) → ∫ ω, A i j ω * A k l ω ∂P = 0

/-- **C50 (full matrix).** The expected sum of squared eigenvalues (the trace of the square) of the full GOE matrix of size `n` is `n² + n`. -/
theorem C50_full_moment {Ω : Type} [MeasurableSpace Ω] (P : Measure Ω) (n : Nat) (A : Fin n → Fin n → Ω → ℝ)
    (hA : NormalArray P n A) :
    ∫ ω, (goeOf (Matrix.of fun i j => A i j ω) * goeOf (Matrix.of fun i j => A i j ω)).trace ∂P = (n : ℝ) ^ 2 + n := by
  simp only [trace_goeOf, Matrix.of_apply]
  have hint : ∀ i j : Fin n, Integrable (fun ω => (A i j ω * A i j ω + 2 * (A i j ω * A j i ω) + A j i ω * A j i ω) / 2) P := by
    intro i j
    exact (((hA.integrable i j i j).add ((hA.integrable i j j i).const_mul 2)).add (hA.integrable j i j i)).div_const 2
  rw [integral_finsetSum _ (fun i _ => integrable_finsetSum _ (fun j _ => hint i j))]
  have hval : ∀ i j : Fin n, ∫ ω, (A i j ω * A i j ω + 2 * (A i j ω * A j i ω) + A j i ω * A j i ω) / 2 ∂P =
      1 + if i = j then 1 else 0 := by
    intro i j
    have hi2 : Integrable (fun ω => A i j ω * A i j ω + 2 * (A i j ω * A j i ω)) P :=
      (hA.integrable i j i j).add ((hA.integrable i j j i).const_mul 2)
    rw [integral_div, integral_add hi2 (hA.integrable j i j i),
      integral_add (hA.integrable i j i j) ((hA.integrable i j j i).const_mul 2), integral_const_mul, hA.diag, hA.diag]
    by_cases h : i = j
    · subst h; rw [hA.diag]; norm_num
    · rw [hA.off i j j i (Or.inl h), if_neg h]; norm_num
  have hrow : ∀ i : Fin n, ∫ ω, ∑ j, (A i j ω * A i j ω + 2 * (A i j ω * A j i ω) + A j i ω * A j i ω) / 2 ∂P = n + 1 := by
    intro i
    rw [integral_finsetSum _ (fun j _ => hint i j)]
    simp only [hval, Finset.sum_add_distrib]
    simp
  simp only [hrow]
  simp
  ring

/-- **C50 (tridiagonal matrix).** The expected sum of squared eigenvalues of the tridiagonal matrix of size `n`, from `n` standard normal draws and chi-square draws with `n-1, n-2, …, 1` degrees of freedom (mean = degrees of freedom), is
`(n² + n)/2`. -/
theorem C50_tridiagonal_moment {Ω : Type} [MeasurableSpace Ω] (P : Measure Ω) (n : Nat)
    (chi2 z : Nat → Ω → ℝ) (hc : ∀ k ω, 0 ≤ chi2 k ω) (hci : ∀ k, Integrable (chi2 k) P)
    (hcm : ∀ k, k < n - 1 → ∫ ω, chi2 k ω ∂P = ((chiRange n).getD k 0 : ℝ))
    (hzi : ∀ k, Integrable (fun ω => z k ω ^ 2) P) (hz : ∀ k, k < n → ∫ ω, z k ω ^ 2 ∂P = 1) :
    ∫ ω, (tridiagonalOf n ((List.range (n - 1)).map fun (k : Nat) => chi2 k ω) ((List.range n).map fun (k : Nat) => z k ω) *
      tridiagonalOf n ((List.range (n - 1)).map fun (k : Nat) => chi2 k ω) ((List.range n).map fun (k : Nat) => z k ω)).trace ∂P =
      ((n : ℝ) ^ 2 + n) / 2 := by
  have e : ∀ ω, (tridiagonalOf n ((List.range (n - 1)).map fun (k : Nat) => chi2 k ω) ((List.range n).map fun (k : Nat) => z k ω) *
      tridiagonalOf n ((List.range (n - 1)).map fun (k : Nat) => chi2 k ω) ((List.range n).map fun (k : Nat) => z k ω)).trace =
      ∑ i ∈ Finset.range n, z i ω ^ 2 + ∑ k ∈ Finset.range (n - 1), chi2 k ω :=
    fun ω => trace_tridiagonalOf n (fun k => chi2 k ω) (fun k => z k ω) (fun k => hc k ω)
  simp only [e]
  rw [integral_add (integrable_finsetSum _ fun i _ => hzi i) (integrable_finsetSum _ fun i _ => hci i),
    integral_finsetSum _ (fun i _ => hzi i), integral_finsetSum _ (fun i _ => hci i),
    Finset.sum_congr rfl (fun i hi => hz i (Finset.mem_range.mp hi)),
    Finset.sum_congr rfl (fun i hi => hcm i (Finset.mem_range.mp hi))]
  have hd : ∀ k ∈ Finset.range (n - 1), (((chiRange n).getD k 0 : Nat) : ℝ) = (n : ℝ) - 1 - k := by
    intro k hk
    have hk := Finset.mem_range.mp hk
    have : (chiRange n).getD k 0 = n - 1 - k := by simp [chiRange, List.getD_eq_getElem?_getD, hk]
    rw [this, Nat.cast_sub (by omega), Nat.cast_sub (by omega)]
    simp
  rw [Finset.sum_congr rfl hd]
  cases n with
  | zero => simp
  | succ n =>
    have hg : ∀ m : ℕ, ∑ k ∈ Finset.range m, (k : ℝ) = (m : ℝ) * (m - 1) / 2 := by
      intro m
      induction m with
      | zero => simp
      | succ m ih => rw [Finset.sum_range_succ, ih]; push_cast; ring
    rw [Nat.add_sub_cancel, Finset.sum_sub_distrib, hg]
    simp
    ring

/-- **C50 (refuted).** The two expectations differ for every size `n ≥ 1`: the full matrix has twice the expected sum of squared eigenvalues of the tridiagonal one, so the
spectra are not equally distributed; they are on scales differing by `√2`. -/
theorem C50_refuted {Ω Ω' : Type} [MeasurableSpace Ω] [MeasurableSpace Ω'] (P : Measure Ω) (P' : Measure Ω') (n : Nat) (hn : 0 < n)
    (A : Fin n → Fin n → Ω → ℝ) (hA : NormalArray P n A)
    (chi2 z : Nat → Ω' → ℝ) (hc : ∀ k ω, 0 ≤ chi2 k ω) (hci : ∀ k, Integrable (chi2 k) P')
    (hcm : ∀ k, k < n - 1 → ∫ ω, chi2 k ω ∂P' = ((chiRange n).getD k 0 : ℝ))
    (hzi : ∀ k, Integrable (fun ω => z k ω ^ 2) P') (hz : ∀ k, k < n → ∫ ω, z k ω ^ 2 ∂P' = 1) :
    let full := ∫ ω, (goeOf (Matrix.of fun i j => A i j ω) * goeOf (Matrix.of fun i j => A i j ω)).trace ∂P
    let tri := ∫ ω, (tridiagonalOf n ((List.range (n - 1)).map fun (k : Nat) => chi2 k ω) ((List.range n).map fun (k : Nat) => z k ω) *
      tridiagonalOf n ((List.range (n - 1)).map fun (k : Nat) => chi2 k ω) ((List.range n).map fun (k : Nat) => z k ω)).trace ∂P'
    full = 2 * tri ∧ full ≠ tri := by
  intro full tri
  have h1 : full = (n : ℝ) ^ 2 + n := C50_full_moment P n A hA
  have h2 : tri = ((n : ℝ) ^ 2 + n) / 2 := C50_tridiagonal_moment P' n chi2 z hc hci hcm hzi hz
  have hp : (0 : ℝ) < n := by exact_mod_cast hn
  rw [h1, h2]
  constructor
  · ring
  · intro h; nlinarith

/-! ## C77 -/

/-- **C77 (rows).** For `0 ≤ percent` and any permutation drawn, `correlated_eigs` changes `min(⌊percent·n/100⌋, n-1)` distinct rows, none of them row 0. -/
theorem C77_rows (n : Nat) (hn : 0 < n) (perm : List Nat) (hp : perm.Perm (List.range (n - 1))) (percent : ℚ) (h0 : 0 ≤ percent) :
    (corrIndices n perm percent).Nodup ∧ (∀ i ∈ corrIndices n perm percent, 0 < i ∧ i < n) ∧
    (corrIndices n perm percent).length = min ⌊percent * n / 100⌋.toNat (n - 1) := by
  have hfl : (0 : ℤ) ≤ ⌊percent / 100 * n⌋ := Int.floor_nonneg.mpr (by positivity)
  have hsub : (corrIndices n perm percent).Sublist (perm.map (· + 1)) :=
    (List.drop_sublist _ _).trans (List.take_sublist _ _)
  have hnd : (perm.map (· + 1)).Nodup :=
    (hp.nodup_iff.mpr List.nodup_range).map (fun a b h => by simpa using h)
  have hlen : perm.length = n - 1 := by rw [hp.length_eq, List.length_range]
  refine ⟨hnd.sublist hsub, ?_, ?_⟩
  · intro i hi
    have := hsub.subset hi
    simp only [List.mem_map] at this
    obtain ⟨a, ha, rfl⟩ := this
    have := List.mem_range.mp (hp.mem_iff.mp ha)
    omega
  · have e : percent / 100 * n = percent * n / 100 := by ring
    rw [e] at hfl
    simp only [corrIndices, e, pySlice, List.length_drop, List.length_take, List.length_map, hlen]
    have h1 : pyBound (n - 1) 0 = 0 := by simp [pyBound]
    have h2 : pyBound (n - 1) ⌊percent * n / 100⌋ = min ⌊percent * n / 100⌋.toNat (n - 1) := by
      rw [pyBound, if_neg (not_lt.mpr hfl)]
      rw [if_neg (not_lt.mpr hfl)]
      split_ifs <;> omega
    rw [h1, h2]
    omega

theorem correlateRows_spec (scale : Nat → ℝ) (noise : Nat → List ℝ) : ∀ (idx : List Nat) (A : List (List ℝ)),
    idx.Nodup → (∀ i ∈ idx, 0 < i ∧ i < A.length) →
    (correlateRows scale noise A idx).length = A.length ∧
    (∀ i, i ∉ idx → (correlateRows scale noise A idx)[i]? = A[i]?) ∧
    (∀ i ∈ idx, (correlateRows scale noise A idx)[i]? =
      some ((List.zipWith (· + ·) (A.headD []) (noise i)).map (scale i * ·))) := by
  intro idx
  induction idx with
  | nil => intro A _ _; simp [correlateRows]
  | cons k idx ih =>
    intro A hnd hin
    have hk := hin k (by simp)
    have hnd' := List.nodup_cons.mp hnd
    set row := (List.zipWith (· + ·) (A.headD []) (noise k)).map (scale k * ·) with hrow
    have hhead : (A.set k row).headD [] = A.headD [] := by
      cases A with
      | nil => simp at hk
      | cons a A =>
        obtain ⟨k', rfl⟩ : ∃ k', k = k' + 1 := ⟨k - 1, by omega⟩
        simp
    have hstep : correlateRows scale noise A (k :: idx) = correlateRows scale noise (A.set k row) idx := rfl
    obtain ⟨i1, i2, i3⟩ := ih (A.set k row) hnd'.2 (fun i hi => by
      rw [List.length_set]; exact hin i (by simp [hi]))
    rw [hstep]
    refine ⟨by rw [i1, List.length_set], ?_, ?_⟩
    · intro i hi
      simp only [List.mem_cons, not_or] at hi
      rw [i2 i hi.2, List.getElem?_set_ne (Ne.symm hi.1)]
    · intro i hi
      rcases List.mem_cons.mp hi with rfl | hi
      · rw [i2 i hnd'.1, List.getElem?_set_self hk.2]
      · rw [i3 i hi, hhead]

/-- **C77 (unchanged rows).** Row 0 and all rows not selected are unchanged, and each selected row `i` becomes `scale_i · (row 0 + noise_i)` for the original row 0. -/
theorem C77_update (n : Nat) (hn : 0 < n) (perm : List Nat) (hp : perm.Perm (List.range (n - 1))) (percent : ℚ) (h0 : 0 ≤ percent)
    (scale : Nat → ℝ) (noise : Nat → List ℝ) (A : List (List ℝ)) (hA : A.length = n) :
    let B := correlateRows scale noise A (corrIndices n perm percent)
    B.length = n ∧ B[0]? = A[0]? ∧
    (∀ i, i ∉ corrIndices n perm percent → B[i]? = A[i]?) ∧
    (∀ i ∈ corrIndices n perm percent, B[i]? = some ((List.zipWith (· + ·) (A.headD []) (noise i)).map (scale i * ·))) := by
  obtain ⟨h1, h2, -⟩ := C77_rows n hn perm hp percent h0
  obtain ⟨g1, g2, g3⟩ := correlateRows_spec scale noise (corrIndices n perm percent) A h1 (fun i hi => by rw [hA]; exact h2 i hi)
  exact ⟨by rw [g1, hA], g2 0 (fun hm => absurd (h2 0 hm).1 (lt_irrefl 0)), g2, g3⟩

-- C50: the hypotheses on the full matrix hold for the uniform distribution on the n² positions with A_ij = n at (i,j), else 0 (here n = 1: a sign)
example : NormalArray (Measure.dirac ()) 1 (fun _ _ _ => 1) := by
  refine ⟨fun i j k l => by simp, fun i j => by simp, fun i j k l h => ?_⟩
  rcases h with h | h <;> exact absurd (Subsingleton.elim _ _) h
example : ([1, 0, 2] : List Nat).Perm (List.range (4 - 1)) := by decide
example : corrIndices 4 [1, 0, 2] 50 = [2, 1] := by decide +kernel

end Props
end RMT
