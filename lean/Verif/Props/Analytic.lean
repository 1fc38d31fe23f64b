import Verif.Lemmas.Analytic
import Verif.Props.Unfolding
import Mathlib.Analysis.Complex.ExponentialBounds

/-!
# C51, C52: the analytic unfoldings

Quadrature is exact, numbers are reals.
-/

namespace RMT
namespace Props
open Spec EigValsM Analytic Real

/-! ## C51 -/

/-- **C51 (the map).** The function applied to the eigenvalues by `unfold_goe` (and by `goe_unfolded`) is non-decreasing, strictly
increasing between the edges `± sqrt(2N)`, has values in `[0, N]`, is 0 below the left edge and `N` above the right edge, and its
derivative is Wigner's semicircle density; the mid-point of the support is mapped to `N / 2`. -/
theorem C51_map (N : Nat) :
    Monotone (smoothGoe N) ∧ StrictMonoOn (smoothGoe N) (Set.Icc (-√(2 * N)) √(2 * N)) ∧
    (∀ x, 0 ≤ smoothGoe N x ∧ smoothGoe N x ≤ N) ∧
    (∀ x, x ≤ -√(2 * N) → smoothGoe N x = 0) ∧ (∀ x, √(2 * N) ≤ x → smoothGoe N x = N) ∧
    (∀ x, HasDerivAt (smoothGoe N) ((1 / π) * √(2 * N - x ^ 2)) x) ∧ smoothGoe N 0 = N / 2 := by
  refine ⟨smoothGoe_mono N, smoothGoe_strictMonoOn N, smoothGoe_range N, smoothGoe_left N, smoothGoe_right N, fun x => ?_, ?_⟩
  · have := smoothGoe_hasDerivAt N x
    rwa [semicircle_eq, ← pow_two] at this
  · have := smoothGoe_symm N 0
    rw [neg_zero] at this
    linarith

/-- **C51 (mirror symmetry).** Reflecting the spectrum about 0 reflects the unfolded values about `N / 2`. -/
theorem C51_symmetric (N : Nat) (x : ℝ) : smoothGoe N (-x) = N - smoothGoe N x := smoothGoe_symm N x

/-- **C51.** `unfold_goe` never fails; entry `i` of the unfolded values is the image of the `i`-th smallest eigenvalue, so the sorted unfolded
values correspond to the sorted eigenvalues; there is one value per eigenvalue, ascending, in `[0, N]`. -/
theorem C51_unfold (eigs : List ℝ) :
    ∃ u, unfoldGoe eigs = .ok u ∧ u.originals = npSort eigs ∧
      u.vals = (npSort eigs).map (smoothGoe eigs.length) ∧ Ascending u.vals ∧
      u.vals.length = eigs.length ∧ ∀ v ∈ u.vals, 0 ≤ v ∧ v ≤ eigs.length := by
  have hs : npSort (goeMap eigs) = (npSort eigs).map (smoothGoe eigs.length) := by
    apply npSort_unique
    · exact (npSort_perm eigs).map _
    · exact (npSort_ascending eigs).map _ fun a b h => smoothGoe_mono _ h
  refine ⟨⟨npSort eigs, (npSort eigs).map (smoothGoe eigs.length), .none⟩, ?_, rfl, rfl, ?_, ?_, ?_⟩
  · simp only [unfoldGoe, Unfold.mkUnfolded, initEigVals1d_ok, bind, Except.bind, hs]
  · simp only
    rw [← hs]; exact npSort_ascending _
  · simp [(npSort_perm eigs).length_eq]
  · simp only [List.mem_map]
    rintro v ⟨x, _, rfl⟩
    exact smoothGoe_range _ x

/-- **C51 (goe_unfolded).** The same for `goe_unfolded(matsize)`, whose eigenvalues come from a `matsize × matsize` matrix. -/
theorem C51_goe_unfolded (matsize : Nat) (eigs : List ℝ) (hl : eigs.length = matsize) :
    goeUnfolded matsize eigs = unfoldGoe eigs := by
  simp only [goeUnfolded, unfoldGoe, goeMap, hl]

/-- **C51 (through `unfold`).** `unfold` with the GOE smoother, or without a smoother on eigenvalues of kind GOE, is `unfold_goe`. -/
theorem C51_dispatch (F : Smooth.Fitters ℝ) (kind : Option Unfold.MatrixKind) (vals : List ℝ) (degree ss : Smooth.PyVal) (detrend : Bool) :
    Unfold.unfold F goeMap poissonMap kind vals (.method .goe) degree ss detrend = unfoldGoe vals ∧
    Unfold.unfold F goeMap poissonMap kind vals (.method .poisson) degree ss detrend = unfoldPoisson vals ∧
    Unfold.unfold F goeMap poissonMap (some .goe) vals .none degree ss detrend = unfoldGoe vals ∧
    Unfold.unfold F goeMap poissonMap (some .poisson) vals .none degree ss detrend = unfoldPoisson vals := by
  refine ⟨?_, ?_, ?_, ?_⟩ <;> rfl

/-- C51, a concrete case: with two levels the edges are at ± 2, and the spectrum `[3, 0]` is unfolded to `[1, 2]`. -/
example : ∃ u, unfoldGoe [3, 0] = .ok u ∧ u.vals = [1, 2] := by
  obtain ⟨u, h, _, hv, _⟩ := C51_unfold [3, 0]
  refine ⟨u, h, ?_⟩
  have e : npSort [(3 : ℝ), 0] = [0, 3] := npSort_unique (List.Perm.swap _ _ _) (by simp [Ascending])
  have h4 : √(2 * ((2 : Nat) : ℝ)) = 2 := by
    rw [show (2 : ℝ) * ((2 : Nat) : ℝ) = 2 ^ 2 by norm_num]; exact sqrt_sq (by norm_num)
  have h0 := (C51_map 2).2.2.2.2.2.2
  have h3 := (C51_map 2).2.2.2.2.1 3 (by rw [h4]; norm_num)
  rw [hv, e]
  simp only [List.map_cons, List.map_nil, List.length_cons, List.length_nil, Nat.zero_add, Nat.reduceAdd]
  rw [h0, h3]
  norm_num

/-! ## C52 -/

/-- **C52 (what is computed).** The function applied by `unfold_poisson` is `N (2 - exp(-|x|))`. -/
theorem C52_closed_form (N : Nat) (x : ℝ) : smoothPoisson N x = N * (2 - exp (-|x|)) := smoothPoisson_eq N x

/-- **C52 (the part that holds).** On non-negative eigenvalues the map is strictly increasing (for `N ≥ 1`), and all values lie in `[N, 2N)`. -/
theorem C52_nonneg_partial (N : Nat) (hN : 0 < N) :
    StrictMonoOn (smoothPoisson N) (Set.Ici 0) ∧ ∀ x, (N : ℝ) ≤ smoothPoisson N x ∧ smoothPoisson N x < 2 * N := by
  have hN' : (0 : ℝ) < N := by exact_mod_cast hN
  constructor
  · intro a ha b hb hab
    rw [smoothPoisson_eq, smoothPoisson_eq, abs_of_nonneg ha, abs_of_nonneg hb]
    have : exp (-b) < exp (-a) := exp_lt_exp.mpr (by linarith)
    nlinarith
  · intro x
    rw [smoothPoisson_eq]
    have h1 : exp (-|x|) ≤ 1 := exp_le_one_iff.mpr (by simp)
    have h2 := exp_pos (-|x|)
    constructor <;> nlinarith

/-- **C52 (unfolding, the part that holds).** For a spectrum of non-negative eigenvalues the sorted unfolded values correspond to the sorted
eigenvalues; there is always one unfolded value per eigenvalue, in ascending order. -/
theorem C52_unfold_partial (eigs : List ℝ) :
    ∃ u, unfoldPoisson eigs = .ok u ∧ u.originals = npSort eigs ∧ Ascending u.vals ∧ u.vals.length = eigs.length ∧
      ((∀ x ∈ eigs, 0 ≤ x) → u.vals = (npSort eigs).map (smoothPoisson eigs.length)) := by
  refine ⟨⟨npSort eigs, npSort (poissonMap eigs), .none⟩, ?_, rfl, npSort_ascending _, ?_, ?_⟩
  · simp only [unfoldPoisson, Unfold.mkUnfolded, initEigVals1d_ok, bind, Except.bind]
  · simp [(npSort_perm _).length_eq, poissonMap]
  · intro hpos
    apply npSort_unique
    · exact (npSort_perm eigs).map _
    · rw [Ascending, List.pairwise_map]
      refine (npSort_ascending eigs).imp_of_mem ?_
      intro a b ha hb hab
      have ha' := hpos a ((npSort_perm eigs).mem_iff.mp ha)
      have hb' := hpos b ((npSort_perm eigs).mem_iff.mp hb)
      rcases Nat.eq_zero_or_pos eigs.length with h0 | h0
      · simp [smoothPoisson, h0]
      · exact (C52_nonneg_partial _ h0).1.monotoneOn ha' hb' hab

/-- **C52 (order is not preserved).** Mirror images are identified, and on negative eigenvalues the order is reversed. -/
theorem C52_reversed (N : Nat) (hN : 0 < N) :
    (∀ x, smoothPoisson N (-x) = smoothPoisson N x) ∧ StrictAntiOn (smoothPoisson N) (Set.Iic 0) := by
  have he : ∀ x, smoothPoisson N (-x) = smoothPoisson N x := fun x => by
    rw [smoothPoisson_eq, smoothPoisson_eq, abs_neg]
  refine ⟨he, ?_⟩
  intro a ha b hb hab
  rw [← he a, ← he b]
  exact (C52_nonneg_partial N hN).1 (by simpa using hb) (by simpa using ha) (by linarith)

/-- **C52 is false.** For every number `N ≥ 1` of levels the map is not non-decreasing, and *every* non-zero eigenvalue is sent outside `[0, N]`. -/
theorem C52_refuted (N : Nat) (hN : 0 < N) :
    ¬ Monotone (smoothPoisson N) ∧ ∀ x, x ≠ 0 → (N : ℝ) < smoothPoisson N x := by
  have hN' : (0 : ℝ) < N := by exact_mod_cast hN
  constructor
  · intro h
    have h1 := h (show (-1 : ℝ) ≤ 0 by norm_num)
    have h2 := (C52_reversed N hN).2 (show (-1 : ℝ) ∈ Set.Iic 0 by simp) (show (0 : ℝ) ∈ Set.Iic 0 by simp) (by norm_num)
    linarith
  · intro x hx
    rw [smoothPoisson_eq]
    have h1 : exp (-|x|) < 1 := exp_lt_one_iff.mpr (by simpa using hx)
    nlinarith

/-- C52, a concrete spectrum: `[-1, 0]` is unfolded to `[2, 2(2 - 1/e)]`, in the order opposite to that of the eigenvalues. -/
example : ∃ u, unfoldPoisson [-1, 0] = .ok u ∧ u.originals = [-1, 0] ∧
    u.vals = [smoothPoisson 2 0, smoothPoisson 2 (-1)] := by
  refine ⟨⟨[-1, 0], [smoothPoisson 2 0, smoothPoisson 2 (-1)], .none⟩, ?_, rfl, rfl⟩
  have h := (C52_reversed 2 (by norm_num)).2 (show (-1 : ℝ) ∈ Set.Iic 0 by simp) (show (0 : ℝ) ∈ Set.Iic 0 by simp) (by norm_num)
  have e1 : npSort [(-1 : ℝ), 0] = [-1, 0] := npSort_of_ascending _ (by simp [Ascending])
  have e2 : npSort (poissonMap [-1, 0]) = [smoothPoisson 2 0, smoothPoisson 2 (-1)] := by
    apply npSort_unique
    · exact List.Perm.swap _ _ _
    · simp [Ascending, h.le]
  simp only [unfoldPoisson, Unfold.mkUnfolded, initEigVals1d_ok, bind, Except.bind, e1, e2]

end Props
end RMT
