import Verif.Lemmas.Hoeffding
import Verif.Props.StoppingRule
import Verif.Props.GridError

/-!
# Property C166: the probability of a given error falls exponentially with the number of iterations

For all window lengths at once, and under every stopping rule.
-/

namespace RMT
namespace Props
open Rigidity LevelVar Spec MeasureTheory Draws Real

variable {Ω : Type} [MeasurableSpace Ω] (P : Measure Ω) [IsProbabilityMeasure P]

/-- **C166 (level_number_variance).** Let no window of the requested lengths contain more than `K` levels, and let `Σ²(L)` be the number variance of the levels over all windows of length `L` between the least and the greatest level. The probability that some run of
`level_number_variance` on these random draws — any tolerance, any budget including the automatic one, any order of execution — returns for any of the `n` requested lengths `L` a value computed from `m` iterations and at least `t` away from `Σ²(L)` is at most `4 n exp(-m t² / (2 K⁴))`;
and at most `4 n (1 + 2 K⁴ / t²) exp(-m t² / (2 K⁴))` for values computed from `m` or more iterations. -/
theorem C166_level_number_variance (levels : List ℝ) (lo hi : ℝ) (hlo : Spec.IsMin levels lo) (hhi : Spec.IsMax levels hi) (Ls : List ℝ)
    (U : Nat → Nat → Ω → ℝ) (hU : ∀ i, IndependentDraws P (U i)) (K : ℝ) (hK0 : 0 < K) (hK : ∀ l ∈ Ls, ∀ c, levelsIn levels l c ≤ K) (t : ℝ) (ht : 0 < t) (m : ℕ) (hm : 1 ≤ m) :
    P {ω | ∃ (order : List Nat) (tol : ℝ) (maxIters : Int) (Up : Nat → ℝ) (junk : Nat) (vals : List ℝ) (conv : List Bool) (iters : List Nat), order.Perm (List.range Ls.length) ∧
        levelNumberVariance order levels Ls tol maxIters Up (fun i j => U i j ω) junk = .ok (Ls, vals, conv, iters) ∧
        ∃ i < Ls.length, iters.getD i 0 = m ∧ t ≤ |vals.getD i 0 - numberVariance levels lo hi (Ls.getD i 0)|} ≤ ENNReal.ofReal (Ls.length * (4 * exp (-m * t ^ 2 / (2 * K ^ 4)))) ∧
    P {ω | ∃ (order : List Nat) (tol : ℝ) (maxIters : Int) (Up : Nat → ℝ) (junk : Nat) (vals : List ℝ) (conv : List Bool) (iters : List Nat), order.Perm (List.range Ls.length) ∧
        levelNumberVariance order levels Ls tol maxIters Up (fun i j => U i j ω) junk = .ok (Ls, vals, conv, iters) ∧
        ∃ i < Ls.length, m ≤ iters.getD i 0 ∧ t ≤ |vals.getD i 0 - numberVariance levels lo hi (Ls.getD i 0)|} ≤ ENNReal.ofReal (Ls.length * (4 * (1 + 2 * K ^ 4 / t ^ 2) * exp (-m * t ^ 2 / (2 * K ^ 4)))) := by
  set A : ℕ → ℕ → Set Ω := fun i k => {ω | t ≤ |runVar (fun j => levelsIn levels (Ls.getD i 0) (uniform lo hi (U i (j + 1) ω))) k - numberVariance levels lo hi (Ls.getD i 0)|} with hA
  have hAk : ∀ i < Ls.length, ∀ k, 1 ≤ k → P.real (A i k) ≤ 4 * exp (-k * t ^ 2 / (2 * K ^ 4)) := by
    intro i h k hk
    obtain ⟨hm, hb⟩ := levelsIn_draw_measurable levels Ls[i] lo hi
    obtain ⟨g1, g2⟩ := gvar_counts levels Ls[i] lo hi
    have hU' : IndependentDraws P (fun j => U i (j + 1)) := ⟨fun j => (hU i).measurable _, (hU i).indep.precomp (g := fun j => j + 1) (fun a b hab => by simpa using hab), fun j => (hU i).law _⟩
    have := runVar_tails hU' hm K (fun u _ => ⟨Nat.cast_nonneg _, hK _ (List.getElem_mem h) _⟩) k hk t ht
    rw [g1] at this
    simpa only [hA, List.getD_eq_getElem _ _ h] using this
  have hrun : ∀ (ω : Ω) (order : List Nat) (tol : ℝ) (maxIters : Int) (Up : Nat → ℝ) (junk : Nat) (vals : List ℝ) (conv : List Bool) (iters : List Nat), order.Perm (List.range Ls.length) →
      levelNumberVariance order levels Ls tol maxIters Up (fun i j => U i j ω) junk = .ok (Ls, vals, conv, iters) → ∀ i < Ls.length, t ≤ |vals.getD i 0 - numberVariance levels lo hi (Ls.getD i 0)| →
        ω ∈ A i (iters.getD i 0) := by
    intro ω order tol maxIters Up junk vals conv iters ho hr i h hle
    obtain ⟨b1, b2, b3, -⟩ := levelvar_result levels lo hi hlo hhi Ls order tol maxIters Up _ junk ho vals conv iters hr i h
    rw [List.getD_eq_getElem _ _ b1, b3] at hle
    rw [List.getD_eq_getElem _ _ b2]
    show t ≤ _
    rw [List.getD_eq_getElem _ _ h] at hle ⊢
    exact hle
  constructor
  · refine (measure_mono ?_).trans (finite_union Ls.length (fun i => A i m) _ fun i h => ?_)
    · rintro ω ⟨order, tol, maxIters, Up, junk, vals, conv, iters, ho, hr, i, h, h1, h2⟩
      exact ⟨i, h, h1 ▸ hrun ω order tol maxIters Up junk vals conv iters ho hr i h h2⟩
    · rw [← ofReal_measureReal]
      exact ENNReal.ofReal_le_ofReal (hAk i h m hm)
  · refine (measure_mono ?_).trans (finite_union Ls.length (fun i => {ω | ∃ k ≥ m, ω ∈ A i k}) _ fun i h => ?_)
    · rintro ω ⟨order, tol, maxIters, Up, junk, vals, conv, iters, ho, hr, i, h, h1, h2⟩
      exact ⟨i, h, _, h1, hrun ω order tol maxIters Up junk vals conv iters ho hr i h h2⟩
    · have e : ∀ k : ℕ, -(k : ℝ) * t ^ 2 / (2 * K ^ 4) = -(t ^ 2 / (2 * K ^ 4)) * k := fun k => by ring
      have := geometric_tail (P := P) (A i) 4 (t ^ 2 / (2 * K ^ 4)) (by norm_num) (by positivity) m fun k hk => by
        rw [← e]
        exact hAk i h k (by omega)
      rw [one_div_div, ← e] at this
      exact this

/-- **C166 (spectral_rigidity).** Let `Δ L c` be the Dyson-Mehta statistic of the window of length `L` centred at `c` and `μ L` its average over all centres between the least and the greatest level. Suppose no such window of a requested length contains more than `K` levels and
on every such window the counting function stays within `D` of some line, and put `ε = 12 D (4 K + 11 D) / (gridsize - 1)`. The probability that some run of `spectral_rigidity` on these random draws — any tolerance, any budget including the automatic one, any order of execution — returns
for any of the `n` requested lengths `L` a value computed from `m + 999` iterations, `m ≥ 2`, and at least `t + ε` away from `μ L` is at most `2 n exp(-2 m t² / (D² + ε)²)`; and at most `2 n (1 + (D² + ε)² / (2 t²)) exp(-2 m t² / (D² + ε)²)` for values computed from `m + 999` or more iterations. -/
theorem C166_spectral_rigidity (levels : List ℝ) (hne : levels ≠ []) (hs : Ascending levels) (Ls : List ℝ) (hL : ∀ l ∈ Ls, 0 < l) (gridsize : Nat) (hg : 3 ≤ gridsize) (integration : String)
    (U : Nat → Nat → Ω → ℝ) (hU : ∀ i, IndependentDraws P (U i)) (Δ : ℝ → ℝ → ℝ) (hΔ : ∀ l ∈ Ls, ∀ c, IsDysonMehta levels l c (Δ l c)) (μ : ℝ → ℝ) (hμ : ∀ l, μ l = average (levels.head hne) (levels.getLast hne) (Δ l))
    (K D ε : ℝ) (hD0 : 0 < D) (hKD : ∀ l ∈ Ls, ∀ c, levels.head hne ≤ c → c ≤ levels.getLast hne →
        (countLE levels (c + l / 2) : ℝ) - countLE levels (c - l / 2) ≤ K ∧ ∃ A B, ∀ x, c - l / 2 ≤ x → x ≤ c + l / 2 → |(countLE levels x : ℝ) - A * x - B| ≤ D)
    (hε : ε = 12 * D * (4 * K + 11 * D) / (gridsize - 1)) (t : ℝ) (ht : 0 < t) (m : ℕ) (hm : 2 ≤ m) :
    P {ω | ∃ (order : List Nat) (tol : ℝ) (maxIters : Int) (Up : Nat → ℝ) (vals : List ℝ) (conv : List Bool) (iters : List Nat), order.Perm (List.range Ls.length) ∧
        spectralRigidity order levels Ls tol maxIters gridsize integration Up (fun i j => U i j ω) = .ok (Ls, vals, conv, iters) ∧
        ∃ i < Ls.length, iters.getD i 0 = m + 999 ∧ t + ε ≤ |vals.getD i 0 - μ (Ls.getD i 0)|} ≤ ENNReal.ofReal (Ls.length * (2 * exp (-2 * m * t ^ 2 / (D ^ 2 + ε) ^ 2))) ∧
    P {ω | ∃ (order : List Nat) (tol : ℝ) (maxIters : Int) (Up : Nat → ℝ) (vals : List ℝ) (conv : List Bool) (iters : List Nat), order.Perm (List.range Ls.length) ∧
        spectralRigidity order levels Ls tol maxIters gridsize integration Up (fun i j => U i j ω) = .ok (Ls, vals, conv, iters) ∧
        ∃ i < Ls.length, m + 999 ≤ iters.getD i 0 ∧ t + ε ≤ |vals.getD i 0 - μ (Ls.getD i 0)|} ≤ ENNReal.ofReal (Ls.length * (2 * (1 + (D ^ 2 + ε) ^ 2 / (2 * t ^ 2)) * exp (-2 * m * t ^ 2 / (D ^ 2 + ε) ^ 2))) := by
  set lo := levels.head hne with hlo
  set hi := levels.getLast hne with hhi
  have hlh : lo ≤ hi := by
    rw [hlo, hhi, List.head_eq_getElem, List.getLast_eq_getElem]
    exact hs.le _ _ _ _ (by omega)
  have hg1 : (0 : ℝ) < (gridsize : ℝ) - 1 := by
    have : (3 : ℝ) ≤ gridsize := by exact_mod_cast hg
    linarith
  have hex : ∀ l c : ℝ, ∃ d, d3Sample levels l gridsize (decide (integration ≠ "trapz")) c = .ok d := fun l c => by
    obtain ⟨D, h1, -, -⟩ := d3Sample_measurable levels hne hs l gridsize (by omega) (decide (integration ≠ "trapz"))
    exact ⟨_, h1 c⟩
  choose S hS using hex
  -- the samples: close to the statistic, and bounded
  have hclose : ∀ l ∈ Ls, ∀ c, lo ≤ c → c ≤ hi → |S l c - Δ l c| ≤ ε ∧ 0 ≤ S l c ∧ S l c ≤ D ^ 2 + ε ∧ 0 ≤ ε := by
    intro l hl c c1 c2
    obtain ⟨hK, A, B, hAB⟩ := hKD l hl c c1 c2
    have hl0 := hL l hl
    obtain ⟨d, e1, e2⟩ := C165_sample levels hne hs l c hl0 (decide (integration ≠ "trapz")) gridsize hg A B D hAB (Δ l c) (hΔ l hl c)
    rw [hS] at e1
    cases e1
    have e3 : |S l c - Δ l c| ≤ ε := by
      refine e2.trans ?_
      rw [hε]
      apply div_le_div_of_nonneg_right _ hg1.le
      apply mul_le_mul_of_nonneg_left _ (by linarith)
      linarith
    obtain ⟨d', f1, f2⟩ := d3Sample_nonneg levels hne l hl0 gridsize (by omega) (decide (integration ≠ "trapz")) c
    rw [hS] at f1
    cases f1
    have hdev : lineDeviation levels l c A B ≤ D ^ 2 := by
      unfold lineDeviation
      have hb : ∀ x ∈ Set.uIoc (c - l / 2) (c + l / 2), ‖((countLE levels x : ℝ) - A * x - B) ^ 2‖ ≤ D ^ 2 := fun x hx => by
        rw [Set.uIoc_of_le (by linarith)] at hx
        rw [norm_of_nonneg (sq_nonneg _), ← sq_abs]
        exact pow_le_pow_left₀ (abs_nonneg _) (hAB x hx.1.le hx.2) 2
      have := intervalIntegral.norm_integral_le_of_norm_le_const hb
      rw [show c + l / 2 - (c - l / 2) = l by ring, abs_of_pos hl0] at this
      have h2 := (le_abs_self _).trans this
      rw [one_div, inv_mul_le_iff₀ hl0]
      linarith
    have hΔD : Δ l c ≤ D ^ 2 := ((hΔ l hl c).2 ⟨(A, B), rfl⟩).trans hdev
    have := abs_le.mp e3
    exact ⟨e3, f2, by linarith [this.2], (abs_nonneg _).trans e3⟩
  have hunif : ∀ u ∈ Set.Ico (0 : ℝ) 1, lo ≤ uniform lo hi u ∧ uniform lo hi u ≤ hi := by
    intro u hu
    unfold uniform
    constructor <;> nlinarith [hu.1, hu.2]
  have hkey : ∀ i (h : i < Ls.length), Measurable (fun u => S Ls[i] (uniform lo hi u)) ∧ |gmean (fun u => S Ls[i] (uniform lo hi u)) - μ Ls[i]| ≤ ε := by
    intro i h
    have hl := List.getElem_mem h
    obtain ⟨S', m1, m2, BS, m3⟩ := d3Sample_measurable levels hne hs Ls[i] gridsize (by omega) (decide (integration ≠ "trapz"))
    have hSS : S' = S Ls[i] := by
      funext c
      have := m1 c
      rw [hS] at this
      exact (Except.ok.inj this).symm
    subst hSS
    obtain ⟨d1, d2⟩ := dysonMehta_measurable levels hne hs Ls[i] (hL _ hl) (Δ Ls[i]) (hΔ _ hl)
    obtain ⟨a1, -⟩ := average_close lo hi hlh (S Ls[i]) (Δ Ls[i]) m2 d1 BS _ m3 d2 ε fun c c1 c2 => (hclose _ hl c c1 c2).1
    refine ⟨m2.comp (uniform_measurable lo hi), ?_⟩
    have : gmean (fun u => S Ls[i] (uniform lo hi u)) = average lo hi (S Ls[i]) := average_eq lo hi (S Ls[i])
    rw [this, hμ]
    exact a1
  set A : ℕ → ℕ → Set Ω := fun i k => {ω | t ≤ |(∑ a ∈ Finset.range 1000, runMean (fun j => S (Ls.getD i 0) (uniform lo hi (U i j ω))) (k + 999 - a)) / 1000 - gmean (fun u => S (Ls.getD i 0) (uniform lo hi u))|} with hA
  have hAk : ∀ i < Ls.length, ∀ k, 1 ≤ k → P.real (A i k) ≤ 2 * exp (-2 * k * t ^ 2 / (D ^ 2 + ε) ^ 2) := by
    intro i h k hk
    have hl := List.getElem_mem h
    set I : Finset ℕ := (Finset.range 1000).image fun a => k + 999 - a with hI
    have hinj : Set.InjOn (fun a => k + 999 - a) (Finset.range 1000 : Set ℕ) := fun a ha b hb hab => by
      have := Finset.mem_range.mp ha
      have := Finset.mem_range.mp hb
      simp only at hab
      omega
    have hcard : I.card = 1000 := by rw [hI, Finset.card_image_of_injOn hinj, Finset.card_range]
    have := means_tails (hU i) (hkey i h).1 (a := 0) (b := D ^ 2 + ε) (fun u hu => ⟨(hclose _ hl _ (hunif u hu).1 (hunif u hu).2).2.1, (hclose _ hl _ (hunif u hu).1 (hunif u hu).2).2.2.1⟩) I (Finset.card_pos.mp (by omega)) k hk (fun j hj => by
      obtain ⟨a, ha, rfl⟩ := Finset.mem_image.mp hj
      have := Finset.mem_range.mp ha
      omega) t ht.le
    rw [hcard, sub_zero] at this
    simp only [hI, Finset.sum_image hinj, Nat.cast_ofNat] at this
    simpa only [hA, List.getD_eq_getElem _ _ h] using this
  have hrun : ∀ (ω : Ω) (order : List Nat) (tol : ℝ) (maxIters : Int) (Up : Nat → ℝ) (vals : List ℝ) (conv : List Bool) (iters : List Nat), order.Perm (List.range Ls.length) →
      spectralRigidity order levels Ls tol maxIters gridsize integration Up (fun i j => U i j ω) = .ok (Ls, vals, conv, iters) → ∀ i < Ls.length, m + 999 ≤ iters.getD i 0 → t + ε ≤ |vals.getD i 0 - μ (Ls.getD i 0)| →
        ω ∈ A i (iters.getD i 0 - 999) := by
    intro ω order tol maxIters Up vals conv iters ho hr i h hit hle
    obtain ⟨b1, b2, b3, -⟩ := rigidity_result levels hne Ls hL gridsize (by omega) integration order tol maxIters Up _ ho i h (S Ls[i]) (hS _) vals conv iters hr
    rw [List.getD_eq_getElem _ _ b2] at hit ⊢
    rw [List.getD_eq_getElem _ _ b1, List.getD_eq_getElem _ _ h, b3 (by omega)] at hle
    show t ≤ _
    rw [List.getD_eq_getElem _ _ h, Nat.sub_add_cancel (by omega)]
    have h1 := (hkey i h).2
    have h2 := abs_sub_le ((∑ a ∈ Finset.range 1000, runMean (fun j => S Ls[i] (uniform lo hi (U i j ω))) (iters[i] - a)) / 1000) (gmean (fun u => S Ls[i] (uniform lo hi u))) (μ Ls[i])
    linarith
  constructor
  · refine (measure_mono ?_).trans (finite_union Ls.length (fun i => A i m) _ fun i h => ?_)
    · rintro ω ⟨order, tol, maxIters, Up, vals, conv, iters, ho, hr, i, h, h1, h2⟩
      refine ⟨i, h, ?_⟩
      have := hrun ω order tol maxIters Up vals conv iters ho hr i h (by omega) h2
      rwa [h1, Nat.add_sub_cancel] at this
    · rw [← ofReal_measureReal]
      exact ENNReal.ofReal_le_ofReal (hAk i h m (by omega))
  · refine (measure_mono ?_).trans (finite_union Ls.length (fun i => {ω | ∃ k ≥ m, ω ∈ A i k}) _ fun i h => ?_)
    · rintro ω ⟨order, tol, maxIters, Up, vals, conv, iters, ho, hr, i, h, h1, h2⟩
      exact ⟨i, h, _, by show m ≤ _; omega, hrun ω order tol maxIters Up vals conv iters ho hr i h h1 h2⟩
    · have hε0 : 0 ≤ ε := (hclose _ (List.getElem_mem h) lo le_rfl hlh).2.2.2
      have hR : 0 < D ^ 2 + ε := by positivity
      have e : ∀ k : ℕ, -2 * (k : ℝ) * t ^ 2 / (D ^ 2 + ε) ^ 2 = -(2 * t ^ 2 / (D ^ 2 + ε) ^ 2) * k := fun k => by ring
      have := geometric_tail (P := P) (A i) 2 (2 * t ^ 2 / (D ^ 2 + ε) ^ 2) (by norm_num) (by positivity) m fun k hk => by
        rw [← e]
        exact hAk i h k (by omega)
      rw [one_div_div, ← e] at this
      exact this

/-- Non-vacuity: for the levels `3, 0, 1` and windows of lengths 1 and 2 no window contains more than three levels; the probability that any run computes from a million iterations a value that is off by 1/10 or more is at most `8 exp(-10000/162)`. -/
example : ∃ (Ω : Type) (_ : MeasurableSpace Ω) (P : Measure Ω) (_ : IsProbabilityMeasure P) (U : Nat → Nat → Ω → ℝ), (∀ i, IndependentDraws P (U i)) ∧
    P {ω | ∃ (order : List Nat) (tol : ℝ) (maxIters : Int) (Up : Nat → ℝ) (junk : Nat) (vals : List ℝ) (conv : List Bool) (iters : List Nat), order.Perm (List.range 2) ∧
        levelNumberVariance order [3, 0, 1] [1, 2] tol maxIters Up (fun i j => U i j ω) junk = .ok ([1, 2], vals, conv, iters) ∧
        ∃ i < 2, iters.getD i 0 = 10 ^ 6 ∧ 1 / 10 ≤ |vals.getD i 0 - numberVariance [3, 0, 1] 0 3 ([1, 2].getD i 0)|} ≤ ENNReal.ofReal (8 * exp (-10000 / 162)) := by
  obtain ⟨Ω, m, P, hP, U, hU⟩ := independent_draws_exist
  refine ⟨Ω, m, P, hP, U, hU, ?_⟩
  have := (C166_level_number_variance P [3, 0, 1] 0 3 (by simp [Spec.IsMin]) (by simp [Spec.IsMax]) [1, 2] U hU 3 (by norm_num) (fun l _ c => (le_abs_self _).trans (by
      have := (nWithin_measurable [3, 0, 1] l).2 c
      simp only [levelsIn_eq]
      simpa using this)) (1 / 10) (by norm_num) (10 ^ 6) (by norm_num)).1
  refine this.trans (ENNReal.ofReal_le_ofReal (le_of_eq ?_))
  norm_num
  ring

/-- Non-vacuity: the hypotheses of the theorem on the rigidity hold for the levels `0, 1, 1, 3`, windows of lengths 1 and 2, `K = D = 4` and a grid of 10001 points, where `ε = 0.288`. -/
example : ∃ (Ω : Type) (_ : MeasurableSpace Ω) (P : Measure Ω) (_ : IsProbabilityMeasure P) (U : Nat → Nat → Ω → ℝ) (μ : ℝ → ℝ), (∀ i, IndependentDraws P (U i)) ∧
    P {ω | ∃ (order : List Nat) (tol : ℝ) (maxIters : Int) (Up : Nat → ℝ) (vals : List ℝ) (conv : List Bool) (iters : List Nat), order.Perm (List.range 2) ∧
        spectralRigidity order [0, 1, 1, 3] [1, 2] tol maxIters 10001 "simps" Up (fun i j => U i j ω) = .ok ([1, 2], vals, conv, iters) ∧
        ∃ i < 2, iters.getD i 0 = 10 ^ 6 + 999 ∧ 1 / 10 + 36 / 125 ≤ |vals.getD i 0 - μ ([1, 2].getD i 0)|} ≤ ENNReal.ofReal (4 * exp (-20000 / (16 + 36 / 125) ^ 2)) := by
  obtain ⟨Ω, m, P, hP, U, hU⟩ := independent_draws_exist
  have hs : Ascending [(0 : ℝ), 1, 1, 3] := by simp [Ascending]
  have hex : ∀ l c : ℝ, ∃ Δ, 0 < l → IsDysonMehta [0, 1, 1, 3] l c Δ := fun l c => by
    by_cases hl : 0 < l
    · obtain ⟨A, B, h1, -⟩ := C107_sample [0, 1, 1, 3] (by simp) hs l c hl
      exact ⟨lineDeviation [0, 1, 1, 3] l c A B, fun _ => ⟨⟨(A, B), rfl⟩, by rintro _ ⟨p, rfl⟩; exact h1 p.1 p.2⟩⟩
    · exact ⟨0, fun h => absurd h hl⟩
  choose Δ hΔ using hex
  have hle : ∀ x : ℝ, (countLE [0, 1, 1, 3] x : ℝ) ≤ 4 := fun x => by
    have : countLE [(0 : ℝ), 1, 1, 3] x ≤ 4 := List.countP_le_length
    exact_mod_cast this
  have h0 : ∀ x : ℝ, (0 : ℝ) ≤ (countLE [0, 1, 1, 3] x : ℝ) := fun x => Nat.cast_nonneg _
  have hpos : ∀ l ∈ [(1 : ℝ), 2], 0 < l := by simp
  refine ⟨Ω, m, P, hP, U, fun l => average 0 3 (Δ l), hU, ?_⟩
  have := (C166_spectral_rigidity P [0, 1, 1, 3] (by simp) hs [1, 2] hpos 10001 (by norm_num) "simps" U hU Δ (fun l hl c => hΔ l c (hpos l hl)) _ (fun _ => rfl) 4 4 (36 / 125) (by norm_num)
    (fun l _ c _ _ => ⟨by linarith [hle (c + l / 2), h0 (c - l / 2)], 0, 0, fun x _ _ => by rw [abs_le]; constructor <;> linarith [hle x, h0 x]⟩) (by norm_num) (1 / 10) (by norm_num) (10 ^ 6) (by norm_num)).1
  refine this.trans (ENNReal.ofReal_le_ofReal (le_of_eq ?_))
  norm_num
  ring

end Props
end RMT
