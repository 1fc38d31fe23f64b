import Verif.Lemmas.Rigidity
import Verif.Spec.Counting

/-!
# Properties C07-C12: straight-line fit, integrators, rigidity samples
-/

namespace RMT
namespace Props
open Rigidity Spec

variable {K : Type} [Field K] [LinearOrder K] [IsStrictOrderedRing K]

/-- **C07.** The slope/intercept pair computed by the rigidity code has the least sum of squared deviations
among all lines, for all data (also when all abscissae coincide). -/
theorem C07_line_optimal (x y : List K) (hx : x ≠ []) (hl : x.length = y.length) (a b : K) :
    sse x y (slope x y) (intercept x y (slope x y)) ≤ sse x y a b := by
  rw [sse_decomp x y hl hx a b]
  have h1 := mul_nonneg (sq_nonneg (slope x y - a)) (var_nonneg x)
  have h2 : (0 : K) ≤ (x.length : K) * (mean y - a * mean x - b) ^ 2 := by positivity
  linarith

/-- **C07 (uniqueness).** If the abscissae are not all equal every other line is strictly worse. -/
theorem C07_line_unique (x y : List K) (hl : x.length = y.length) (hne : ¬ AllEqual x)
    (a b : K) (hab : (a, b) ≠ (slope x y, intercept x y (slope x y))) :
    sse x y (slope x y) (intercept x y (slope x y)) < sse x y a b := by
  have hx : x ≠ [] := by
    rintro rfl
    exact hne (by intro a ha; simp at ha)
  rw [sse_decomp x y hl hx a b]
  have hv : 0 < (List.zipWith (· * ·) (x.map (· - mean x)) (x.map (· - mean x))).sum :=
    lt_of_le_of_ne (var_nonneg x) (fun h => hne ((var_eq_zero_iff x hx).mp h.symm))
  have hn : (0 : K) < x.length := by exact_mod_cast List.length_pos_iff.mpr hx
  have h1 := mul_nonneg (sq_nonneg (slope x y - a)) (var_nonneg x)
  have h2 : (0 : K) ≤ (x.length : K) * (mean y - a * mean x - b) ^ 2 := by positivity
  by_cases ha : slope x y = a
  · have hb : mean y - a * mean x - b ≠ 0 := by
      intro h
      apply hab
      rw [Prod.mk.injEq]
      refine ⟨ha.symm, ?_⟩
      rw [ha]
      unfold intercept
      linear_combination -h
    have : 0 < (x.length : K) * (mean y - a * mean x - b) ^ 2 := by positivity
    linarith
  · have : slope x y - a ≠ 0 := sub_ne_zero.mpr ha
    have : 0 < (slope x y - a) ^ 2 * (List.zipWith (· * ·) (x.map (· - mean x)) (x.map (· - mean x))).sum := by
      positivity
    linarith

/-- **C07 (recovery).** Data on the line `t ↦ a t + b` with abscissae not all equal give back `a` and `b`. -/
theorem C07_line_recovers (x : List K) (hne : ¬ AllEqual x) (a b : K) :
    slope x (x.map fun t => a * t + b) = a ∧
      intercept x (x.map fun t => a * t + b) (slope x (x.map fun t => a * t + b)) = b := by
  set y := x.map fun t => a * t + b with hy
  have hl : x.length = y.length := by simp [hy]
  have h0 : sse x y a b = 0 := by
    unfold sse
    rw [hy, List.zipWith_map_right, List.zipWith_self]
    simp
  have hnn : 0 ≤ sse x y (slope x y) (intercept x y (slope x y)) := by
    unfold sse
    apply List.sum_nonneg
    intro v hv
    obtain ⟨i, hi, rfl⟩ := List.mem_iff_getElem.mp hv
    rw [List.getElem_zipWith]
    positivity
  by_contra hcon
  have := C07_line_unique x y hl hne a b (by
    intro h
    rw [Prod.mk.injEq] at h
    exact hcon ⟨h.1.symm, h.2.symm⟩)
  linarith

example : slope [(0:ℚ), 1, 3] [1, 3, 7] = 2 ∧ intercept [(0:ℚ), 1, 3] [1, 3, 7] 2 = 1 ∧
    slope [(2:ℚ), 2] [1, 5] = 0 ∧ intercept [(2:ℚ), 2] [1, 5] 0 = 3 := by
  decide +kernel

omit [LinearOrder K] [IsStrictOrderedRing K] in
/-- **C08 (exact on lines).** For every non-empty grid, whatever its spacing or order, the trapezoid rule integrates
`q t + r` exactly. -/
theorem C08_trapz_affine [CharZero K] (grid : List K) (hg : grid ≠ []) (q r : K) :
    integrateFast grid (grid.map (quad 0 q r)) =
      quadIntegral 0 q r (grid.head hg) (grid.getLast hg) := by
  rw [integrateFast_eq _ _ (by simp)]
  induction grid with
  | nil => exact absurd rfl hg
  | cons a l ih =>
    cases l with
    | nil => simp [trapzS, quadIntegral]
    | cons b l =>
      have := ih (by simp)
      simp only [List.map_cons, List.head_cons] at this ⊢
      have hlast : (a :: b :: l).getLast hg = (b :: l).getLast (by simp) := List.getLast_cons _
      rw [trapzS, this, hlast]
      unfold quad quadIntegral
      field_simp
      ring

omit [LinearOrder K] [IsStrictOrderedRing K] in
/-- **C08 (additivity).** Splitting the grid at a node splits the integral. -/
theorem C08_trapz_additive (l₁ l₂ m₁ m₂ : List K) (g v : K) (h₁ : m₁.length = l₁.length)
    (h₂ : m₂.length = l₂.length) :
    integrateFast (l₁ ++ g :: l₂) (m₁ ++ v :: m₂) =
      integrateFast (l₁ ++ [g]) (m₁ ++ [v]) + integrateFast (g :: l₂) (v :: m₂) := by
  rw [integrateFast_eq _ _ (by simp [h₁, h₂]), integrateFast_eq _ _ (by simp [h₁]),
    integrateFast_eq _ _ (by simp [h₂])]
  induction l₁ generalizing m₁ with
  | nil =>
    cases m₁ with
    | nil => simp [trapzS]
    | cons u m => simp at h₁
  | cons a l ih =>
    cases m₁ with
    | nil => simp at h₁
    | cons u m =>
      have ih' := ih m (by simpa using h₁)
      cases l with
      | nil =>
        cases m with
        | nil => simp [trapzS]
        | cons w m => simp at h₁
      | cons b l =>
        cases m with
        | nil => simp at h₁
        | cons w m =>
          simp only [List.cons_append] at ih' ⊢
          rw [trapzS, trapzS, ih', add_assoc]

/-- **C08 (sign).** Non-negative values on an ascending grid have a non-negative integral. -/
theorem C08_trapz_nonneg (grid vals : List K) (hg : Ascending grid) (hv : ∀ v ∈ vals, 0 ≤ v) :
    0 ≤ integrateFast grid vals :=
  trapzFrom_nonneg grid vals
    (fun i h => List.pairwise_iff_getElem.mp hg i (i + 1) (by omega) h (by omega)) hv 0 0 (le_refl _)

example : integrateFast [(0:ℚ), 3, 1] [1, 7, 3] = 2 ∧ quadIntegral 0 2 1 (0:ℚ) 1 = 2 := by
  constructor
  · decide +kernel
  · norm_num [quadIntegral]

omit [LinearOrder K] [IsStrictOrderedRing K] in
/-- **C09.** The Simpson integrator is exact for every quadratic `p t² + q t + r` on every grid of at
least three nodes (any spacing, odd or even number of nodes) whose neighbouring nodes are distinct. -/
theorem C09_simps_quadratic [CharZero K] (grid : List K) (hg : grid ≠ []) (h3 : 3 ≤ grid.length)
    (hd : LocallyDistinct grid) (p q r : K) :
    intSimpsNonunif grid (grid.map (quad p q r)) =
      quadIntegral p q r (grid.head hg) (grid.getLast hg) :=
  intSimps_exact grid p q r hd hg (by omega)

omit [Field K] [IsStrictOrderedRing K] in
/-- Strictly ascending grids, in particular all grids used by the rigidity code, satisfy the
hypothesis of C09. -/
theorem C09_ascending_ok (grid : List K) (h : grid.Pairwise (· < ·)) : LocallyDistinct grid := by
  intro i j hi hj hij _
  exact ne_of_lt (List.pairwise_iff_getElem.mp h i j hi hj hij)

example : LocallyDistinct [(0:ℚ), 1, 3, 4] ∧
    intSimpsNonunif [(0:ℚ), 1, 3, 4] ([(0:ℚ), 1, 3, 4].map (quad 3 0 1)) = 68 ∧
    quadIntegral 3 0 1 (0:ℚ) 4 = 68 := by
  refine ⟨C09_ascending_ok _ (by decide +kernel), by decide +kernel, by norm_num [quadIntegral]⟩

omit [LinearOrder K] [IsStrictOrderedRing K] in
/-- **C10 (what happens on two nodes).** On a two-node grid the Simpson integrator weights the left value by
`2/3` and the right one by `1/3` (a wrapped negative index). -/
theorem C10_simps_two_nodes [CharZero K] (a b u v : K) (hab : a ≠ b) :
    intSimpsNonunif [a, b] [u, v] = (b - a) * (2 / 3 * u + 1 / 3 * v) := by
  have h : b - a ≠ 0 := sub_ne_zero.mpr (Ne.symm hab)
  have hn : ∀ x y : K, nth [x, y] (1:Int) = y := fun x y => rfl
  have hn' : ∀ x y : K, nth [x, y] (0:Int) = x := fun x y => rfl
  have hn'' : ∀ x y : K, nth [x, y] (-1:Int) = y := fun x y => rfl
  have hm : ∀ x : K, nth [x] (0:Int) = x := fun x => rfl
  have hm' : ∀ x : K, nth [x] (-1:Int) = x := fun x => rfl
  unfold intSimpsNonunif
  have hs : simpsFrom (diff [a, b]) [u, v] 1 1 0 = 0 := by rw [simpsFrom]; simp
  have hN : ([a, b] : List K).length - 1 = 1 := rfl
  simp only [hN, hs]
  simp [diff, hn, hn', hn'', hm, hm']
  field_simp
  ring

omit [LinearOrder K] [IsStrictOrderedRing K] in
/-- **C10 (partial).** The Simpson integrator integrates straight lines exactly on every grid of one or of
at least three nodes with distinct neighbours, and constants on every non-empty such grid.  Missing: sloped lines on
two-node grids, where the claim is false (`C10_refuted`). -/
theorem C10_simps_affine_partial [CharZero K] (grid : List K) (hg : grid ≠ [])
    (hd : LocallyDistinct grid) (q r : K) (h : grid.length ≠ 2 ∨ q = 0) :
    intSimpsNonunif grid (grid.map (quad 0 q r)) =
      quadIntegral 0 q r (grid.head hg) (grid.getLast hg) := by
  by_cases h2 : grid.length = 2
  · have hq : q = 0 := by
      rcases h with h | h
      · exact absurd h2 h
      · exact h
    subst hq
    match grid, h2, hd with
    | [a, b], _, hd =>
      have hab : a ≠ b := hd 0 1 (by simp) (by simp) (by simp) (by simp)
      simp only [List.map_cons, List.map_nil]
      rw [C10_simps_two_nodes a b _ _ hab]
      simp [quad, quadIntegral]
      ring
  · exact intSimps_exact grid 0 q r hd hg h2

/-- **C10 (refutation).** With `gridsize = 2` the Simpson integrator is wrong on the line `t ↦ t` over `[0, 1]`: it
returns `1/3` instead of `1/2`. -/
theorem C10_refuted :
    ¬ ∀ (grid : List ℚ) (hg : grid ≠ []), 2 ≤ grid.length → LocallyDistinct grid → ∀ q r : ℚ,
      intSimpsNonunif grid (grid.map (quad 0 q r)) =
        quadIntegral 0 q r (grid.head hg) (grid.getLast hg) := by
  intro h
  have := h [0, 1] (by simp) (by simp) (C09_ascending_ok _ (by decide +kernel)) 1 0
  simp only [List.map_cons, List.map_nil] at this
  rw [C10_simps_two_nodes _ _ _ _ (by norm_num)] at this
  norm_num [quad, quadIntegral] at this

/-- **C11.** For every non-empty spectrum (sorted or not), centre, `L > 0` and grid size `≥ 1` and either
integrator a rigidity sample is defined and non-negative. -/
theorem C11_sample_nonneg (unfolded : List K) (hu : unfolded ≠ []) (L : K) (hL : 0 < L) (n : Nat)
    (hn : 1 ≤ n) (useSimpson : Bool) (c : K) :
    ∃ v, d3Sample unfolded L n useSimpson c = .ok v ∧ 0 ≤ v :=
  d3Sample_nonneg unfolded hu L hL n hn useSimpson c

/-- **C11 (error branch).** An empty spectrum or an empty grid gives no sample. -/
theorem C11_sample_error (unfolded : List K) (L : K) (n : Nat) (useSimpson : Bool) (c : K)
    (h : unfolded = [] ∨ n = 0) : d3Sample unfolded L n useSimpson c = .error .indexError :=
  d3Sample_error unfolded L n useSimpson c h

example : d3Sample [(0:ℚ), 1, 2, 5] 3 5 false 1 = .ok (7 / 100) ∧
    d3Sample [(0:ℚ), 1, 2, 5] 3 4 true 1 = .ok 0 := by decide +kernel

/-- **C12 (one sample).** Shifting spectrum and centre by `t` after scaling spectrum, centre and `L` by `s > 0` does not
change a rigidity sample. -/
theorem C12_sample_invariant (unfolded : List K) (L : K) (n : Nat) (useSimpson : Bool) (c s t : K)
    (hs : 0 < s) :
    d3Sample (unfolded.map fun v => s * v + t) (s * L) n useSimpson (s * c + t) =
      d3Sample unfolded L n useSimpson c :=
  d3Sample_affine unfolded L n useSimpson c s t hs

/-- **C12 (whole function).** `spectral_rigidity` of the shifted and rescaled spectrum at the rescaled `L`
values, with the same random draws, gives the same rigidities, convergence flags, iteration counts and
exceptions. -/
theorem C12_rigidity_invariant (order : List Nat) (unfolded L : List K) (tol : K) (maxIters : Int)
    (n : Nat) (integration : String) (Up : Nat → K) (U : Nat → Nat → K) (s t : K) (hs : 0 < s) :
    spectralRigidity order (unfolded.map fun v => s * v + t) (L.map fun v => s * v) tol maxIters n
        integration Up U =
      (spectralRigidity order unfolded L tol maxIters n integration Up U).map
        fun r => (r.1.map (fun v => s * v), r.2) := by
  have hpar : ∀ budget b, deltaParallel order (unfolded.map fun v => s * v + t) (L.map fun v => s * v)
      n budget MIN_ITERS tol b U = deltaParallel order unfolded L n budget MIN_ITERS tol b U := by
    intro budget b
    unfold deltaParallel
    simp only [List.length_map, nth_map_mul, deltaL_affine _ _ _ _ _ _ _ _ s t hs]
  unfold spectralRigidity
  simp only [hpar, npMax_map L s hs]
  by_cases hm : maxIters ≤ 0
  · simp only [hm, if_true]
    cases hL : npMax L with
    | error e => rfl
    | ok Lm =>
      simp only [Except.map, bind, Except.bind, deltaL_affine _ _ _ _ _ _ _ _ s t hs]
      cases hd : deltaL unfolded Lm RIGIDITY_GRID AUTO_MAX_ITERS (10 * MIN_ITERS) tol
          (integration != "trapz") Up with
      | error e => rfl
      | ok r =>
        simp only
        cases r.2.1 with
        | false => rfl
        | true =>
          simp only [if_true, pure, Except.pure]
          cases deltaParallel order unfolded L n (r.2.2 * 2) MIN_ITERS tol (integration != "trapz") U <;> rfl
  · simp only [hm, if_false, pure, Except.pure, bind, Except.bind]
    cases deltaParallel order unfolded L n maxIters.toNat MIN_ITERS tol (integration != "trapz") U <;> rfl

end Props
end RMT
