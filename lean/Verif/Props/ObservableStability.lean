import Verif.Props.PoissonLimits
import Verif.Props.Stability
import Verif.Props.Analytic
import Verif.Lemmas.ObservableContinuity
import Mathlib.Analysis.Calculus.MeanValue

/-!
# Property C158: the observables depend continuously on the levels

Small errors in the levels (rounding, an inexact eigenvalue routine) have small effects on the unfolded values, on the number variance and on the spectral rigidity.
-/

namespace RMT
namespace Props
open EigValsM MeasureTheory ProbabilityTheory Spec UniformM Rigidity LevelVar Analytic EigM
open Real Set Filter Topology

theorem within_mem {δ : ℝ} {x y : List ℝ} (h : EntriesWithin δ x y) : (∀ a ∈ x, ∃ b ∈ y, |a - b| ≤ δ) ∧ ∀ b ∈ y, ∃ a ∈ x, |a - b| ≤ δ := by
  unfold EntriesWithin at h
  induction h with
  | nil => simp
  | cons h _ ih =>
    constructor
    · intro a ha
      rcases List.mem_cons.mp ha with rfl | ha
      · exact ⟨_, List.mem_cons_self, h⟩
      · obtain ⟨b, hb, e⟩ := ih.1 a ha
        exact ⟨b, List.mem_cons_of_mem _ hb, e⟩
    · intro b hb
      rcases List.mem_cons.mp hb with rfl | hb
      · exact ⟨_, List.mem_cons_self, h⟩
      · obtain ⟨a, ha, e⟩ := ih.2 b hb
        exact ⟨a, List.mem_cons_of_mem _ ha, e⟩

theorem within_min {δ : ℝ} {x y : List ℝ} (h : EntriesWithin δ x y) {a b : ℝ} (ha : Spec.IsMin x a) (hb : Spec.IsMin y b) : |b - a| ≤ δ := by
  obtain ⟨p, hp, e1⟩ := (within_mem h).1 a ha.1
  obtain ⟨q, hq, e2⟩ := (within_mem h).2 b hb.1
  have h1 := ha.2 q hq
  have h2 := hb.2 p hp
  rw [abs_le] at e1 e2 ⊢
  constructor <;> linarith [e1.1, e1.2, e2.1, e2.2]

theorem within_max {δ : ℝ} {x y : List ℝ} (h : EntriesWithin δ x y) {a b : ℝ} (ha : Spec.IsMax x a) (hb : Spec.IsMax y b) : |b - a| ≤ δ := by
  obtain ⟨p, hp, e1⟩ := (within_mem h).1 a ha.1
  obtain ⟨q, hq, e2⟩ := (within_mem h).2 b hb.1
  have h1 := ha.2 q hq
  have h2 := hb.2 p hp
  rw [abs_le] at e1 e2 ⊢
  constructor <;> linarith [e1.1, e1.2, e2.1, e2.2]

/-- The levels as a vector. -/
noncomputable def levelVec (N : ℕ) (l : List ℝ) : Fin N → ℝ := fun k => l.getD k 0

theorem levelVec_dist {δ : ℝ} {x y : List ℝ} (h : EntriesWithin δ x y) (hδ : 0 ≤ δ) : dist (levelVec x.length y) (levelVec x.length x) ≤ δ := by
  rw [dist_pi_le_iff hδ]
  intro k
  unfold EntriesWithin at h
  rw [List.forall₂_iff_get] at h
  obtain ⟨hl, h⟩ := h
  have := h k k.2 (hl ▸ k.2)
  simp only [List.get_eq_getElem] at this
  simp only [levelVec, List.getD_eq_getElem _ _ k.2, List.getD_eq_getElem _ _ (hl ▸ k.2 : (k : ℕ) < y.length)]
  rwa [Real.dist_eq, abs_sub_comm]

theorem count_coord (l : List ℝ) (p : ℝ → Prop) [DecidablePred p] : (l.countP fun x => decide (p x)) = ∑ k ∈ Finset.range l.length, if p (coord l.length k (levelVec l.length l)) then 1 else 0 := by
  have e : ∀ k ∈ Finset.range l.length, (if p (coord l.length k (levelVec l.length l)) then 1 else 0) = if p (l.getD k 0) then 1 else 0 := fun k hk => by
    have := Finset.mem_range.mp hk
    simp only [coord, dif_pos this, levelVec]
  rw [Finset.sum_congr rfl e]
  clear e
  induction l with
  | nil => simp
  | cons a t ih =>
    rw [List.countP_cons, List.length_cons, Finset.sum_range_succ', ih]
    simp

theorem levelsIn_coord (l : List ℝ) (L c : ℝ) : levelsIn l L c = ∑ j ∈ Finset.range l.length, near (L / 2) c (coord l.length j (levelVec l.length l)) := by
  rw [levelsIn, countIn, count_coord l fun z => c - L / 2 ≤ z ∧ z ≤ c + L / 2]
  push_cast
  refine Finset.sum_congr rfl fun k _ => ?_
  unfold near
  congr 1
  rw [abs_le]
  exact propext ⟨fun h => ⟨by linarith, by linarith⟩, fun h => ⟨by linarith, by linarith⟩⟩

theorem stairs_coord (l : List ℝ) : (fun t => (countLE l t : ℝ)) = stairs (coord l.length) l.length (levelVec l.length l) := by
  funext t
  rw [countLE, count_coord l fun z => z ≤ t]
  push_cast
  rfl

theorem variance_coord (l : List ℝ) (lo hi L : ℝ) :
    numberVariance l lo hi L = (∫ t in (0 : ℝ)..1, relCount l.length L (levelVec l.length l, lo, hi) t ^ 2) - (∫ t in (0 : ℝ)..1, relCount l.length L (levelVec l.length l, lo, hi) t ^ 1) ^ 2 := by
  rw [numberVariance_eq, average_unit, average_unit]
  simp only [levelsIn_coord, relCount, pow_one]

/-- **C158 (number variance).** For every spectrum that is not constant, every window length and every `ε > 0` there is a `δ > 0` such that every list of levels which differ from the given ones by at most `δ` each
has a number variance within `ε` of that of the given ones; each variance is over the windows with centres between the least and the greatest level of the respective list. -/
theorem C158_number_variance (levels : List ℝ) (lo hi : ℝ) (hlo : Spec.IsMin levels lo) (hhi : Spec.IsMax levels hi) (hne : lo < hi) (L ε : ℝ) (hε : 0 < ε) :
    ∃ δ > 0, ∀ levels', EntriesWithin δ levels levels' → ∀ lo' hi', Spec.IsMin levels' lo' → Spec.IsMax levels' hi' →
      |numberVariance levels' lo' hi' L - numberVariance levels lo hi L| < ε := by
  have hc := (moments_continuousAt levels.length L 2 (levelVec levels.length levels, lo, hi) hne).sub ((moments_continuousAt levels.length L 1 (levelVec levels.length levels, lo, hi) hne).pow 2)
  obtain ⟨δ, hδ, h⟩ := Metric.continuousAt_iff.mp hc ε hε
  refine ⟨δ / 2, by positivity, fun l' hl' lo' hi' hlo' hhi' => ?_⟩
  have e1 : l'.length = levels.length := (List.Forall₂.length_eq hl').symm
  have h0 := h (x := (levelVec levels.length l', lo', hi')) (by
    rw [Prod.dist_eq, Prod.dist_eq]
    refine lt_of_le_of_lt (max_le (levelVec_dist hl' (by positivity)) (max_le ?_ ?_)) (half_lt_self hδ)
    · exact within_min hl' hlo hlo'
    · exact within_max hl' hhi hhi')
  rw [Real.dist_eq] at h0
  rw [variance_coord, variance_coord, e1]
  exact h0

theorem rigidity_coord (l : List ℝ) (lo hi L : ℝ) (Δ : ℝ → ℝ) (h : ∀ c, IsDysonMehta l L c (Δ c)) :
    Spec.average lo hi Δ = ∫ t in (0 : ℝ)..1, delta3 (stairs (coord l.length) l.length (levelVec l.length l)) (lo + (hi - lo) * t - L / 2) (lo + (hi - lo) * t + L / 2) := by
  rw [average_unit]
  refine intervalIntegral.integral_congr fun t _ => ?_
  rw [dysonMehta_eq _ _ _ _ (h _), stairs_coord]

/-- **C158 (rigidity).** The same for the average of the Dyson-Mehta statistic over all windows of length `L`, for every spectrum. -/
theorem C158_rigidity (levels : List ℝ) (lo hi : ℝ) (hlo : Spec.IsMin levels lo) (hhi : Spec.IsMax levels hi) (L : ℝ) (hL : 0 < L) (ε : ℝ) (hε : 0 < ε) :
    ∃ δ > 0, ∀ levels', EntriesWithin δ levels levels' → ∀ lo' hi', Spec.IsMin levels' lo' → Spec.IsMax levels' hi' →
      ∀ Δ Δ' : ℝ → ℝ, (∀ c, IsDysonMehta levels L c (Δ c)) → (∀ c, IsDysonMehta levels' L c (Δ' c)) → |Spec.average lo' hi' Δ' - Spec.average lo hi Δ| < ε := by
  have hc := (rigidity_continuous levels.length L hL).continuousAt (x := (levelVec levels.length levels, lo, hi))
  obtain ⟨δ, hδ, h⟩ := Metric.continuousAt_iff.mp hc ε hε
  refine ⟨δ / 2, by positivity, fun l' hl' lo' hi' hlo' hhi' Δ Δ' hΔ hΔ' => ?_⟩
  have e1 : l'.length = levels.length := (List.Forall₂.length_eq hl').symm
  have h0 := h (x := (levelVec levels.length l', lo', hi')) (by
    rw [Prod.dist_eq, Prod.dist_eq]
    refine lt_of_le_of_lt (max_le (levelVec_dist hl' (by positivity)) (max_le ?_ ?_)) (half_lt_self hδ)
    · exact within_min hl' hlo hlo'
    · exact within_max hl' hhi hhi')
  rw [Real.dist_eq] at h0
  rw [rigidity_coord _ _ _ L _ hΔ, rigidity_coord _ _ _ L _ hΔ', e1]
  exact h0

theorem all_windows (Ls : List ℝ) (p : ℝ → ℝ → Prop) (hmono : ∀ L δ δ', δ' ≤ δ → p L δ → p L δ') (h : ∀ L ∈ Ls, ∃ δ > 0, p L δ) : ∃ δ > 0, ∀ L ∈ Ls, p L δ := by
  induction Ls with
  | nil => exact ⟨1, one_pos, by simp⟩
  | cons a t ih =>
    obtain ⟨d1, h1, p1⟩ := h a List.mem_cons_self
    obtain ⟨d2, h2, p2⟩ := ih fun L hL => h L (List.mem_cons_of_mem _ hL)
    refine ⟨min d1 d2, lt_min h1 h2, fun L hL => ?_⟩
    rcases List.mem_cons.mp hL with rfl | hL
    · exact hmono _ _ _ (min_le_left _ _) p1
    · exact hmono _ _ _ (min_le_right _ _) (p2 L hL)

theorem entries_mono {δ δ' : ℝ} (h : δ' ≤ δ) {x y : List ℝ} (hxy : EntriesWithin δ' x y) : EntriesWithin δ x y := List.Forall₂.imp (fun _ _ hab => hab.trans h) hxy

/-- **C158 (level_number_variance).** For every non-constant spectrum, list of window lengths and `ε > 0` there is a `δ > 0` such that for levels which differ from the given ones by at most `δ` each, with probability one,
every result of `level_number_variance` that used sufficiently many iterations is within `ε` of the number variance of the given levels. -/
theorem C158_level_number_variance (levels : List ℝ) (lo hi : ℝ) (hlo : Spec.IsMin levels lo) (hhi : Spec.IsMax levels hi) (hne : lo < hi) (Ls : List ℝ) (ε : ℝ) (hε : 0 < ε) :
    ∃ δ > 0, ∀ levels', EntriesWithin δ levels levels' → ∀ {Ω : Type} [MeasurableSpace Ω] (P : Measure Ω) [IsProbabilityMeasure P] (Up : Nat → ℝ) (U : Nat → Nat → Ω → ℝ),
      (∀ i, UniformDraws P (U i)) → ∀ junk : Nat, ∀ᵐ ω ∂P, ∃ M : Nat, ∀ (order : List Nat) (tol : ℝ) (maxIters : Int), order.Perm (List.range Ls.length) → 0 < maxIters →
        ∃ vs conv iters, levelNumberVariance order levels' Ls tol maxIters Up (fun i j => U i j ω) junk = .ok (Ls, vs, conv, iters) ∧
          vs.length = Ls.length ∧ iters.length = Ls.length ∧
          ∀ i (h : i < Ls.length) (h1 : i < vs.length) (h2 : i < iters.length),
            (M ≤ iters[i] → |vs[i] - numberVariance levels lo hi Ls[i]| < ε) ∧ (tol ≤ 0 → maxIters ≤ iters[i]) := by
  obtain ⟨δ, hδ, hd⟩ := all_windows Ls (fun L δ => ∀ levels', EntriesWithin δ levels levels' → ∀ lo' hi', Spec.IsMin levels' lo' → Spec.IsMax levels' hi' →
      |numberVariance levels' lo' hi' L - numberVariance levels lo hi L| < ε / 2) (fun L d d' hdd h l' hl' => h l' (entries_mono hdd hl'))
    fun L _ => C158_number_variance levels lo hi hlo hhi hne L (ε / 2) (by positivity)
  refine ⟨δ, hδ, fun l' hl' Ω _ P _ Up U hU junk => ?_⟩
  have hl0 : l' ≠ [] := by
    obtain ⟨b, hb, -⟩ := (within_mem hl').1 lo hlo.1
    exact List.ne_nil_of_mem hb
  obtain ⟨lo', hlo'⟩ := exists_isMin l' hl0
  obtain ⟨hi', hhi'⟩ := exists_isMax l' hl0
  filter_upwards [C115_consistent P l' lo' hi' hlo' hhi' Ls Up U hU junk] with ω hω
  obtain ⟨M, hM⟩ := hω (ε / 2) (by positivity)
  refine ⟨M, fun order tol maxIters ho hm => ?_⟩
  obtain ⟨vs, conv, iters, e1, e2, e3, e4⟩ := hM order tol maxIters ho hm
  refine ⟨vs, conv, iters, e1, e2, e3, fun i h h1 h2 => ⟨fun hk => ?_, (e4 i h h1 h2).2⟩⟩
  have a1 := (e4 i h h1 h2).1 hk
  have a2 := hd Ls[i] (List.getElem_mem h) l' hl' lo' hi' hlo' hhi'
  have a3 := abs_sub_le vs[i] (numberVariance l' lo' hi' Ls[i]) (numberVariance levels lo hi Ls[i])
  linarith

theorem dysonMehta_exists (l : List ℝ) (hl : l ≠ []) (hs : Ascending l) (L : ℝ) (hL : 0 < L) (c : ℝ) : ∃ d, IsDysonMehta l L c d := by
  obtain ⟨A, B, h1, -⟩ := C107_sample l hl hs L c hL
  refine ⟨lineDeviation l L c A B, ⟨(A, B), rfl⟩, ?_⟩
  rintro _ ⟨p, rfl⟩
  exact h1 p.1 p.2

theorem head_isMin (l : List ℝ) (hl : l ≠ []) (hs : Ascending l) : Spec.IsMin l (l.head hl) := by
  refine ⟨List.head_mem _, fun x hx => ?_⟩
  obtain ⟨a, t, rfl⟩ := List.exists_cons_of_ne_nil hl
  rcases List.mem_cons.mp hx with rfl | hx
  · exact le_rfl
  · exact (List.pairwise_cons.mp hs).1 x hx

theorem last_isMax (l : List ℝ) (hl : l ≠ []) (hs : Ascending l) : Spec.IsMax l (l.getLast hl) := by
  refine ⟨List.getLast_mem _, fun x hx => ?_⟩
  have e := List.dropLast_append_getLast hl
  rw [← e] at hx hs
  rcases List.mem_append.mp hx with hx | hx
  · exact (List.pairwise_append.mp hs).2.2 x hx _ (by simp)
  · rw [List.mem_singleton.mp hx]

/-- **C158 (spectral_rigidity).** The same for `spectral_rigidity` on every sufficiently fine grid, for ascending levels. -/
theorem C158_spectral_rigidity (levels : List ℝ) (hne : levels ≠ []) (hs : Ascending levels) (Ls : List ℝ) (hL : ∀ l ∈ Ls, 0 < l) (Δ : ℝ → ℝ → ℝ) (hΔ : ∀ l ∈ Ls, ∀ c, IsDysonMehta levels l c (Δ l c)) (ε : ℝ) (hε : 0 < ε) :
    ∃ δ > 0, ∀ levels', Ascending levels' → EntriesWithin δ levels levels' → ∀ {Ω : Type} [MeasurableSpace Ω] (P : Measure Ω) [IsProbabilityMeasure P] (integration : String) (Up : Nat → ℝ) (U : Nat → Nat → Ω → ℝ),
      (∀ i, UniformDraws P (U i)) → ∃ G : Nat, ∀ gridsize, G ≤ gridsize → ∀ᵐ ω ∂P, ∃ M : Nat, ∀ (order : List Nat) (tol : ℝ) (maxIters : Int), order.Perm (List.range Ls.length) → 0 < maxIters →
        ∃ vs conv iters, spectralRigidity order levels' Ls tol maxIters gridsize integration Up (fun i j => U i j ω) = .ok (Ls, vs, conv, iters) ∧
          vs.length = Ls.length ∧ iters.length = Ls.length ∧
          ∀ i (h : i < Ls.length) (h1 : i < vs.length) (h2 : i < iters.length),
            (M ≤ iters[i] → |vs[i] - Spec.average (levels.head hne) (levels.getLast hne) (Δ Ls[i])| < ε) ∧ (tol ≤ 0 → maxIters ≤ iters[i]) := by
  obtain ⟨δ, hδ, hd⟩ := all_windows Ls (fun L δ => 0 < L → ∀ levels', EntriesWithin δ levels levels' → ∀ lo' hi', Spec.IsMin levels' lo' → Spec.IsMax levels' hi' →
      ∀ Δ Δ' : ℝ → ℝ, (∀ c, IsDysonMehta levels L c (Δ c)) → (∀ c, IsDysonMehta levels' L c (Δ' c)) → |Spec.average lo' hi' Δ' - Spec.average (levels.head hne) (levels.getLast hne) Δ| < ε / 2)
    (fun L d d' hdd h h0 l' hl' => h h0 l' (entries_mono hdd hl'))
    fun L hLm => by
      obtain ⟨δ, h1, h2⟩ := C158_rigidity levels _ _ (head_isMin levels hne hs) (last_isMax levels hne hs) L (hL L hLm) (ε / 2) (by positivity)
      exact ⟨δ, h1, fun _ => h2⟩
  refine ⟨δ, hδ, fun l' hs' hl' Ω _ P _ integration Up U hU => ?_⟩
  have hl0 : l' ≠ [] := by
    obtain ⟨b, hb, -⟩ := (within_mem hl').1 _ (List.head_mem hne)
    exact List.ne_nil_of_mem hb
  have hex : ∀ L c : ℝ, ∃ d, 0 < L → IsDysonMehta l' L c d := fun L c => by
    by_cases h : 0 < L
    · obtain ⟨d, hd⟩ := dysonMehta_exists l' hl0 hs' L h c
      exact ⟨d, fun _ => hd⟩
    · exact ⟨0, fun h' => absurd h' h⟩
  choose Δ' hΔ' using hex
  obtain ⟨G, hG⟩ := C116_rigidity P l' hl0 hs' Ls hL integration Up U hU Δ' (fun l hl c => hΔ' l c (hL l hl)) (ε / 2) (by positivity)
  refine ⟨G, fun g hg => ?_⟩
  filter_upwards [hG g hg] with ω ⟨M, hM⟩
  refine ⟨M, fun order tol maxIters ho hm => ?_⟩
  obtain ⟨vs, conv, iters, e1, e2, e3, e4⟩ := hM order tol maxIters ho hm
  refine ⟨vs, conv, iters, e1, e2, e3, fun i h h1 h2 => ⟨fun hk => ?_, (e4 i h h1 h2).2⟩⟩
  have a1 := (e4 i h h1 h2).1 hk
  have hm' := List.getElem_mem h
  have a2 := hd Ls[i] hm' (hL _ hm') l' hl' _ _ (head_isMin l' hl0 hs') (last_isMax l' hl0 hs') (Δ Ls[i]) (Δ' Ls[i]) (hΔ _ hm') fun c => hΔ' _ c (hL _ hm')
  have a3 := abs_sub_le vs[i] (Spec.average (l'.head hl0) (l'.getLast hl0) (Δ' Ls[i])) (Spec.average (levels.head hne) (levels.getLast hne) (Δ Ls[i]))
  linarith

/-- The slope of the semicircle staircase is at most `√(2N)/π`. -/
theorem smoothGoe_lipschitz (N : ℕ) (x y : ℝ) : |smoothGoe N x - smoothGoe N y| ≤ √(2 * N) / π * |x - y| := by
  have h := Convex.norm_image_sub_le_of_norm_hasDerivWithin_le (f := smoothGoe N) (f' := fun x => (1 / π) * √(2 * N - x ^ 2)) (C := √(2 * N) / π) (s := univ) (x := y) (y := x)
    (fun z _ => ((C51_map N).2.2.2.2.2.1 z).hasDerivWithinAt) (fun z _ => ?_) convex_univ (mem_univ _) (mem_univ _)
  · simpa only [Real.norm_eq_abs] using h
  · rw [Real.norm_eq_abs, abs_of_nonneg (by positivity), one_div, div_eq_inv_mul]
    exact mul_le_mul_of_nonneg_left (Real.sqrt_le_sqrt (by nlinarith [sq_nonneg z])) (by positivity)

/-- **C158 (unfold_goe).** Eigenvalues that differ by at most `δ` (in ascending order) are unfolded by `unfold_goe` to values that differ by at most `√(2N)/π · δ`. -/
theorem C158_unfold_goe (eigs eigs' : List ℝ) (δ : ℝ) (h : EntriesWithin δ (npSort eigs) (npSort eigs')) :
    ∃ u u', unfoldGoe eigs = .ok u ∧ unfoldGoe eigs' = .ok u' ∧ EntriesWithin (√(2 * eigs.length) / π * δ) u.vals u'.vals := by
  obtain ⟨u, h1, -, h2, -⟩ := C51_unfold eigs
  obtain ⟨u', h1', -, h2', -⟩ := C51_unfold eigs'
  have hlen : eigs'.length = eigs.length := by
    have := List.Forall₂.length_eq h
    rw [(npSort_perm eigs).length_eq, (npSort_perm eigs').length_eq] at this
    exact this.symm
  refine ⟨u, u', h1, h1', ?_⟩
  rw [h2, h2', hlen]
  unfold EntriesWithin at h ⊢
  rw [List.forall₂_map_left_iff, List.forall₂_map_right_iff]
  refine h.imp fun a b hab => (smoothGoe_lipschitz _ a b).trans ?_
  exact mul_le_mul_of_nonneg_left hab (by positivity)

variable {n : ℕ}

/-- **C158 (from a matrix to unfolded values).** The eigenvalues of a real symmetric matrix, computed by a backward stable routine with error `δ` and unfolded by `unfold_goe`, differ by at most `√(2n)/π · δ` from the
unfolded exact eigenvalues. -/
theorem C158_matrix (eigvalsh : EigSolver) (eigvals : GenSolver) (δ : (n : ℕ) → Matrix (Fin n) (Fin n) ℝ → ℝ) (h : BackwardStable eigvalsh δ) (M : Matrix (Fin n) (Fin n) ℝ) (hM : M.IsSymm) :
    ∃ o l u u', fromMatrix eigvalsh eigvals (cplx M) = .ok o ∧ IsSpectrum (cplx M) l ∧ l.length = n ∧ unfoldGoe l = .ok u ∧ unfoldGoe o.vals = .ok u' ∧ EntriesWithin (√(2 * n) / π * δ n M) u.vals u'.vals := by
  obtain ⟨o, l, h1, h2, h3, h4⟩ := C152_routine eigvalsh eigvals δ h M hM
  have ho : Ascending o.vals := by
    have := fromMatrix_square eigvalsh eigvals (cplx M)
    rw [h1] at this
    injection this with this
    rw [this]
    exact npSort_ascending _
  have hlen : l.length = n := by
    have hM' : M.IsHermitian := by
      rw [Matrix.IsHermitian, Matrix.conjTranspose_eq_transpose_of_trivial]
      exact hM
    have e := (isSpectrum_iff M hM l).mp h2
    have := congrArg Multiset.card e
    rw [Multiset.coe_card] at this
    rw [this]
    rw [hM'.splits_charpoly.natDegree_eq_card_roots.symm, Matrix.charpoly_natDegree_eq_dim, Fintype.card_fin]
  rw [← npSort_of_ascending _ h3, ← npSort_of_ascending _ ho] at h4
  obtain ⟨u, u', a, b, c⟩ := C158_unfold_goe l o.vals _ h4
  rw [hlen] at c
  exact ⟨o, l, u, u', h1, h2, hlen, a, b, c⟩

/-- **C158 (from a matrix to the level variance).** For every real symmetric matrix whose unfolded eigenvalues are not all equal, every list of window lengths and every `ε > 0` there is a `d > 0` such that with every backward stable
routine whose error on the matrix is at most `d`, the eigenvalues are computed and unfolded by `unfold_goe`, and, with probability one, every result of `level_number_variance` on the unfolded values that used sufficiently
many iterations is within `ε` of the number variance of the exactly unfolded exact eigenvalues. -/
theorem C158_pipeline (M : Matrix (Fin n) (Fin n) ℝ) (hM : M.IsSymm) (l : List ℝ) (hl : IsSpectrum (cplx M) l) (u : Unfold.Unfolded ℝ) (hu : unfoldGoe l = .ok u) (lo hi : ℝ)
    (hlo : Spec.IsMin u.vals lo) (hhi : Spec.IsMax u.vals hi) (hne : lo < hi) (Ls : List ℝ) (ε : ℝ) (hε : 0 < ε) :
    ∃ d > 0, ∀ (eigvalsh : EigSolver) (eigvals : GenSolver) (δ : (n : ℕ) → Matrix (Fin n) (Fin n) ℝ → ℝ), BackwardStable eigvalsh δ → δ n M ≤ d →
      ∃ o u', fromMatrix eigvalsh eigvals (cplx M) = .ok o ∧ unfoldGoe o.vals = .ok u' ∧
        ∀ {Ω : Type} [MeasurableSpace Ω] (P : Measure Ω) [IsProbabilityMeasure P] (Up : Nat → ℝ) (U : Nat → Nat → Ω → ℝ),
          (∀ i, UniformDraws P (U i)) → ∀ junk : Nat, ∀ᵐ ω ∂P, ∃ K : Nat, ∀ (order : List Nat) (tol : ℝ) (maxIters : Int), order.Perm (List.range Ls.length) → 0 < maxIters →
            ∃ vs conv iters, levelNumberVariance order u'.vals Ls tol maxIters Up (fun i j => U i j ω) junk = .ok (Ls, vs, conv, iters) ∧
              vs.length = Ls.length ∧ iters.length = Ls.length ∧
              ∀ i (h : i < Ls.length) (h1 : i < vs.length) (h2 : i < iters.length),
                (K ≤ iters[i] → |vs[i] - numberVariance u.vals lo hi Ls[i]| < ε) ∧ (tol ≤ 0 → maxIters ≤ iters[i]) := by
  obtain ⟨δ₀, h0, hd⟩ := C158_level_number_variance u.vals lo hi hlo hhi hne Ls ε hε
  have hK : 0 < √(2 * n) / π + 1 := by positivity
  refine ⟨δ₀ / (√(2 * n) / π + 1), by positivity, fun eigvalsh eigvals δ hb hδ => ?_⟩
  obtain ⟨o, l', v, u', h1, h2, h3, h4, h5, h6⟩ := C158_matrix eigvalsh eigvals δ hb M hM
  refine ⟨o, u', h1, h5, fun P _ Up U hU junk => hd u'.vals ?_ P Up U hU junk⟩
  have hp : l.Perm l' := Multiset.coe_eq_coe.mp (((isSpectrum_iff M hM l).mp hl).trans ((isSpectrum_iff M hM l').mp h2).symm)
  have hv : v.vals = u.vals := by
    obtain ⟨w, w1, -, w2, -⟩ := C51_unfold l
    obtain ⟨w', w1', -, w2', -⟩ := C51_unfold l'
    rw [hu] at w1
    rw [h4] at w1'
    injection w1 with w1
    injection w1' with w1'
    rw [w1, w1', w2, w2', npSort_eq_of_perm hp, hp.length_eq]
  rw [hv] at h6
  refine entries_mono ?_ h6
  have hs : 0 ≤ √(2 * n) / π := by positivity
  calc √(2 * n) / π * δ n M ≤ √(2 * n) / π * (δ₀ / (√(2 * n) / π + 1)) := mul_le_mul_of_nonneg_left hδ hs
    _ ≤ δ₀ := by
      rw [mul_div_assoc', div_le_iff₀ hK]
      nlinarith

/-- The hypotheses are met: the levels `0, 1, 3`. Nearby levels have nearby observables; the nearby list need not be sorted or distinct. -/
example (L ε : ℝ) (hε : 0 < ε) : ∃ δ > 0, ∀ a b c : ℝ, |a| ≤ δ → |b - 1| ≤ δ → |c - 3| ≤ δ → ∀ lo' hi', Spec.IsMin [a, b, c] lo' → Spec.IsMax [a, b, c] hi' →
    |numberVariance [a, b, c] lo' hi' L - numberVariance [0, 1, 3] 0 3 L| < ε := by
  obtain ⟨δ, hδ, h⟩ := C158_number_variance [0, 1, 3] 0 3 ⟨by simp, by simp⟩ ⟨by simp, by simp⟩ (by norm_num) L ε hε
  refine ⟨δ, hδ, fun a b c ha hb hc lo' hi' h1 h2 => h _ ?_ lo' hi' h1 h2⟩
  refine .cons ?_ (.cons ?_ (.cons ?_ .nil))
  · rwa [zero_sub, abs_neg]
  · rwa [abs_sub_comm]
  · rwa [abs_sub_comm]

/-- The bound of `C158_unfold_goe` for the eigenvalues `1, 0` and `1/2, 1/4`, given in any order. -/
example : ∃ u u', unfoldGoe [1, 0] = .ok u ∧ unfoldGoe [1 / 4, 1 / 2] = .ok u' ∧ EntriesWithin (√(2 * 2) / π * (1 / 2)) u.vals u'.vals := by
  have e1 : npSort ([1, 0] : List ℝ) = [0, 1] := npSort_unique (List.Perm.swap _ _ _) (by simp [Ascending])
  have e2 : npSort ([1 / 4, 1 / 2] : List ℝ) = [1 / 4, 1 / 2] := npSort_of_ascending _ (by simp [Ascending]; norm_num)
  have := C158_unfold_goe [1, 0] [1 / 4, 1 / 2] (1 / 2) (by
    rw [e1, e2]
    refine .cons ?_ (.cons ?_ .nil) <;> rw [abs_le] <;> constructor <;> norm_num)
  simpa using this

/-- The hypotheses of `C158_pipeline` are met: the matrix `diag(0, 1)`, whose unfolded eigenvalues are different. -/
example : ∃ (M : Matrix (Fin 2) (Fin 2) ℝ) (l : List ℝ) (u : Unfold.Unfolded ℝ) (lo hi : ℝ), M.IsSymm ∧ IsSpectrum (cplx M) l ∧ unfoldGoe l = .ok u ∧ Spec.IsMin u.vals lo ∧ Spec.IsMax u.vals hi ∧ lo < hi := by
  have hM : (Matrix.diagonal ![0, 1] : Matrix (Fin 2) (Fin 2) ℝ).IsSymm := Matrix.isSymm_diagonal _
  have hs : IsSpectrum (cplx (Matrix.diagonal ![0, 1] : Matrix (Fin 2) (Fin 2) ℝ)) [0, 1] := by
    rw [isSpectrum_iff _ hM, Matrix.charpoly_diagonal, Fin.prod_univ_two, Polynomial.roots_mul (mul_ne_zero (Polynomial.X_sub_C_ne_zero _) (Polynomial.X_sub_C_ne_zero _)), Polynomial.roots_X_sub_C, Polynomial.roots_X_sub_C]
    rfl
  obtain ⟨u, h1, -, h2, -⟩ := C51_unfold [0, 1]
  rw [npSort_of_ascending _ (by simp [Ascending])] at h2
  have hlt : smoothGoe 2 0 < smoothGoe 2 1 := by
    refine (C51_map 2).2.1 ?_ ?_ one_pos
    · constructor
      · exact neg_nonpos.mpr (Real.sqrt_nonneg _)
      · exact Real.sqrt_nonneg _
    · have : (1 : ℝ) ≤ √(2 * (2 : ℕ)) := by
        rw [Real.one_le_sqrt]
        norm_num
      constructor <;> linarith
  have e : u.vals = [smoothGoe 2 0, smoothGoe 2 1] := h2
  refine ⟨_, _, u, smoothGoe 2 0, smoothGoe 2 1, hM, hs, h1, ?_, ?_, hlt⟩ <;> rw [e]
  · exact ⟨by simp, by simp [hlt.le]⟩
  · exact ⟨by simp, by simp [hlt.le]⟩

end Props
end RMT
