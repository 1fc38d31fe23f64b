import Verif.Lemmas.GridError
import Verif.Props.SampleSize
import Verif.Props.Mean3

/-!
# Property C165: how accurate a rigidity sample is for a given grid
-/

namespace RMT
namespace Props
open Rigidity Step Spec Delta3 Draws MeasureTheory

/-- The window `[0, 1]`, for a given grid. -/
theorem unit_window_error (l : List ℝ) (hne : l ≠ []) (hs : Ascending l) (n : Nat) (hn : 2 ≤ n) (b : Bool) (A B D : ℝ)
    (hD : ∀ x, 0 ≤ x → x ≤ 1 → |(countLE l x : ℝ) - A * x - B| ≤ D) :
    ∃ d A₀ B₀, d3Sample l 1 (n + 1) b (1 / 2) = .ok d ∧ (∀ A' B', mseUnit (fun x => (countLE l x : ℝ)) A₀ B₀ ≤ mseUnit (fun x => (countLE l x : ℝ)) A' B') ∧
      |d - mseUnit (fun x => (countLE l x : ℝ)) A₀ B₀| ≤ 12 * D * (4 * ((countLE l 1 : ℝ) - countLE l 0) + 11 * D) / n := by
  have hn1 : 1 ≤ n := by omega
  have hD0 : 0 ≤ D := (abs_nonneg _).trans (hD 0 le_rfl zero_le_one)
  have hgrid : linspace ((1 : ℝ) / 2 - 1 / 2) (1 / 2 + 1 / 2) (n + 1) = tab n fun i => (i : ℝ) / n := by
    rw [show (1 : ℝ) / 2 - 1 / 2 = 0 by norm_num, show (1 : ℝ) / 2 + 1 / 2 = 1 by norm_num, linspace_unit]
  have hne' : ∀ (v : Nat → ℝ), tab n v ≠ [] := by
    intro v h
    have := tab_length n v
    rw [h] at this
    simp at this
  have hlast : (tab n fun i => (i : ℝ) / n).getLast (hne' _) = 1 := by
    have : (n : ℝ) ≠ 0 := by positivity
    simp [tab, List.getLast_eq_getElem, this]
  have hasc : Ascending (tab n fun i => (i : ℝ) / n) := by
    unfold Ascending tab
    rw [List.pairwise_map]
    exact List.pairwise_lt_range.imp fun h => div_le_div_of_nonneg_right (by exact_mod_cast h.le) (Nat.cast_nonneg n)
  have main : ∀ Y : ℝ → ℝ, Monotone Y → (∀ x, 0 ≤ Y x) → (∀ A B, mseUnit (fun x => (countLE l x : ℝ)) A B = mseUnit Y A B) →
      (∃ ret : List Nat, stepFunctionFast l (tab n fun i => (i : ℝ) / n) = .ok ret ∧ ret.map (fun n : Nat => (n : ℝ)) = tab n fun i => Y ((i : ℝ) / n)) →
      (∃ A B D', 0 ≤ D' ∧ D' ≤ D ∧ ∀ x, 0 ≤ x → x ≤ 1 → |Y x - A * x - B| ≤ D') → Y 1 - Y 0 ≤ (countLE l 1 : ℝ) - countLE l 0 →
      ∃ d A₀ B₀, d3Sample l 1 (n + 1) b (1 / 2) = .ok d ∧ (∀ A' B', mseUnit (fun x => (countLE l x : ℝ)) A₀ B₀ ≤ mseUnit (fun x => (countLE l x : ℝ)) A' B') ∧
      |d - mseUnit (fun x => (countLE l x : ℝ)) A₀ B₀| ≤ 12 * D * (4 * ((countLE l 1 : ℝ) - countLE l 0) + 11 * D) / n := by
    rintro Y hY h0 he ⟨ret, h1, h2⟩ ⟨A, B, D', p0, p1, p2⟩ hK
    refine ⟨sampleUnit b n Y, bestA Y, bestB Y, ?_, fun A' B' => by rw [he, he]; exact mseUnit_min Y hY h0 A' B', ?_⟩
    · simp only [d3Sample, hgrid, h1, h2, bind, Except.bind, pure, Except.pure, div_one]
      rfl
    · rw [he]
      refine (sampleUnit_error b n hn Y hY h0 A B D' p2).trans ?_
      have hY1 : 0 ≤ Y 1 - Y 0 := sub_nonneg.mpr (hY zero_le_one)
      apply div_le_div_of_nonneg_right _ (Nat.cast_nonneg n)
      exact mul_le_mul (by linarith) (by linarith) (by linarith) (by linarith)
  by_cases hz : (1 : ℝ) ≤ l.head hne
  · -- no level below the end of the window
    refine main (fun _ => 0) monotone_const (fun _ => le_rfl) ?_ ?_ ⟨0, 0, 0, le_rfl, hD0, fun x _ _ => by simp⟩ ?_
    · intro A B
      unfold mseUnit
      rw [intervalIntegral.integral_of_le zero_le_one, intervalIntegral.integral_of_le zero_le_one,
        MeasureTheory.integral_Ioc_eq_integral_Ioo, MeasureTheory.integral_Ioc_eq_integral_Ioo]
      apply MeasureTheory.setIntegral_congr_fun measurableSet_Ioo
      intro x hx
      have : countLE l x = 0 := by
        unfold countLE
        rw [List.countP_eq_zero]
        intro e he
        simp only [decide_eq_true_eq, not_le]
        obtain ⟨k, hk, rfl⟩ := List.mem_iff_getElem.mp he
        have h1 := hs.le 0 k (by omega) hk (by omega)
        rw [List.head_eq_getElem] at hz
        exact lt_of_lt_of_le hx.2 (le_trans hz h1)
      simp only [this, Nat.cast_zero]
    · obtain ⟨ret, h1, h2, h3⟩ := C01_step_array l _ hne (hne' fun i => (i : ℝ) / n) hs
      refine ⟨ret, h1, ?_⟩
      apply List.ext_getElem
      · simpa [tab_length] using h2
      · intro i hi hi'
        rw [List.getElem_map, h3, if_pos (by rw [hlast]; exact hz)]
        simp [tab]
    · have := countLE_mono l (zero_le_one (α := ℝ))
      simp only at this
      linarith
  · refine main _ (countLE_mono l) (fun x => Nat.cast_nonneg _) (fun _ _ => rfl) ?_ ⟨A, B, D, hD0, le_rfl, hD⟩ le_rfl
    have hne1 : (tab n fun i => (i : ℝ) / n).getLast (hne' _) ≠ l.head hne := by
      rw [hlast]
      exact fun h => hz h.le
    refine ⟨_, (C02_step_counts_partial l _ hne (hne' _) hs hasc hne1).1, ?_⟩
    simp [tab, Function.comp_def]

/-- **C165 (sample).** For every non-empty ascending spectrum, window length `L > 0`, window centre, integration rule and grid of at least three points: if on the window the counting function `N(x)` stays within `D` of some straight line, the rigidity sample the code
computes differs from the Dyson-Mehta statistic of the window by at most `12 D (4 K + 11 D) / (gridsize - 1)`, where `K` is the number of levels in the window `(c - L/2, c + L/2]`. -/
theorem C165_sample (levels : List ℝ) (hne : levels ≠ []) (hs : Ascending levels) (L c : ℝ) (hL : 0 < L) (useSimpson : Bool) (gridsize : Nat) (hg : 3 ≤ gridsize)
    (A B D : ℝ) (hD : ∀ x, c - L / 2 ≤ x → x ≤ c + L / 2 → |(countLE levels x : ℝ) - A * x - B| ≤ D) (Δ : ℝ) (hΔ : IsDysonMehta levels L c Δ) :
    ∃ d, d3Sample levels L gridsize useSimpson c = .ok d ∧
      |d - Δ| ≤ 12 * D * (4 * ((countLE levels (c + L / 2) : ℝ) - countLE levels (c - L / 2)) + 11 * D) / (gridsize - 1) := by
  set t : ℝ := 1 / 2 - c / L with ht
  set φ : ℝ → ℝ := fun v => 1 / L * v + t with hφ
  have hφm : StrictMono φ := by
    intro a b hab
    have : 1 / L * a < 1 / L * b := mul_lt_mul_of_pos_left hab (by positivity)
    simp only [hφ]
    linarith
  have hs' : Ascending (levels.map φ) := by
    unfold Ascending at *
    rw [List.pairwise_map]
    exact hs.imp fun h => hφm.monotone h
  have hcount : ∀ x, countLE (levels.map φ) x = countLE levels (L * x + (c - L / 2)) := by
    intro x
    unfold countLE
    rw [List.countP_map]
    apply List.countP_congr
    intro e _
    simp only [Function.comp, decide_eq_true_eq, hφ, ht]
    have : 1 / L * e + (1 / 2 - c / L) ≤ x ↔ L * (1 / L * e + (1 / 2 - c / L)) ≤ L * x := (mul_le_mul_iff_right₀ hL).symm
    rw [this]
    have e2 : L * (1 / L * e + (1 / 2 - c / L)) = e + L / 2 - c := by field_simp; ring
    rw [e2]
    constructor <;> intro h <;> linarith
  have hint : ∀ A B, mseUnit (fun x => (countLE (levels.map φ) x : ℝ)) A B = lineDeviation levels L c (A / L) (B - A / L * (c - L / 2)) := by
    intro A B
    unfold mseUnit lineDeviation
    have := intervalIntegral.integral_comp_mul_add (a := 0) (b := 1)
      (fun u => ((countLE levels u : ℝ) - A / L * u - (B - A / L * (c - L / 2))) ^ 2) hL.ne' (c - L / 2)
    rw [show L * 0 + (c - L / 2) = c - L / 2 by ring, show L * 1 + (c - L / 2) = c + L / 2 by ring] at this
    rw [one_div, ← smul_eq_mul, ← this]
    apply intervalIntegral.integral_congr
    intro x _
    simp only [hcount]
    have : A / L * (L * x + (c - L / 2)) = A * x + A / L * (c - L / 2) := by field_simp
    rw [this]
    ring
  obtain ⟨n, rfl⟩ : ∃ n, gridsize = n + 1 := ⟨gridsize - 1, by omega⟩
  obtain ⟨d, A₀, B₀, h1, h2, h3⟩ := unit_window_error (levels.map φ) (by simpa using hne) hs' n (by omega) useSimpson (A * L) (B + A * (c - L / 2)) D (fun x h0 h1 => by
    rw [hcount]
    have := hD (L * x + (c - L / 2)) (by nlinarith) (by nlinarith)
    refine le_of_eq_of_le ?_ this
    congr 1
    ring)
  have ha := d3Sample_affine levels L (n + 1) useSimpson c (1 / L) t (by positivity)
  have e1 : 1 / L * L = 1 := by field_simp
  have e2 : 1 / L * c + t = 1 / 2 := by rw [ht]; ring
  rw [e1, e2] at ha
  have hΔe : Δ = mseUnit (fun x => (countLE (levels.map φ) x : ℝ)) A₀ B₀ := by
    apply hΔ.unique
    refine ⟨⟨(A₀ / L, B₀ - A₀ / L * (c - L / 2)), ?_⟩, ?_⟩
    · exact (hint A₀ B₀).symm
    · rintro _ ⟨p, rfl⟩
      have := h2 (p.1 * L) (p.2 + p.1 * (c - L / 2))
      rw [hint (p.1 * L), mul_div_cancel_right₀ _ hL.ne', add_sub_cancel_right] at this
      exact this
  refine ⟨d, ha.symm.trans h1, ?_⟩
  rw [hΔe]
  rw [hcount 1, hcount 0, show L * 1 + (c - L / 2) = c + L / 2 by ring, show L * 0 + (c - L / 2) = c - L / 2 by ring] at h3
  push_cast
  rw [add_sub_cancel_right]
  exact h3

/-- **C165 (any window).** Without any assumption on the levels: the rigidity sample differs from the Dyson-Mehta statistic by at most `57 K² / (gridsize - 1)`, where `K` is the number of levels in the window `(c - L/2, c + L/2]`, whatever its length. -/
theorem C165_any (levels : List ℝ) (hne : levels ≠ []) (hs : Ascending levels) (L c : ℝ) (hL : 0 < L) (useSimpson : Bool) (gridsize : Nat) (hg : 3 ≤ gridsize)
    (Δ : ℝ) (hΔ : IsDysonMehta levels L c Δ) :
    ∃ d, d3Sample levels L gridsize useSimpson c = .ok d ∧
      |d - Δ| ≤ 57 * ((countLE levels (c + L / 2) : ℝ) - countLE levels (c - L / 2)) ^ 2 / (gridsize - 1) := by
  obtain ⟨d, h1, h2⟩ := C165_sample levels hne hs L c hL useSimpson gridsize hg 0 (((countLE levels (c + L / 2) : ℝ) + countLE levels (c - L / 2)) / 2)
    (((countLE levels (c + L / 2) : ℝ) - countLE levels (c - L / 2)) / 2) (fun x h0 h1 => by
      have a := countLE_mono levels h0
      have b := countLE_mono levels h1
      simp only at a b
      rw [abs_le]
      constructor <;> linarith) Δ hΔ
  refine ⟨d, h1, h2.trans (le_of_eq ?_)⟩
  congr 1
  ring

/-- The Dyson-Mehta statistic as a function of the window centre is measurable and bounded. -/
theorem dysonMehta_measurable (levels : List ℝ) (hne : levels ≠ []) (hs : Ascending levels) (L : ℝ) (hL : 0 < L) (Δ : ℝ → ℝ) (hΔ : ∀ c, IsDysonMehta levels L c (Δ c)) :
    Measurable Δ ∧ ∀ c, |Δ c| ≤ 4 * (levels.length : ℝ) ^ 2 := by
  have hex : ∀ n : Nat, ∃ D : ℝ → ℝ, (∀ c, d3Sample levels L (n + 3) true c = .ok (D c)) ∧ Measurable D := fun n => by
    obtain ⟨D, h1, h2, -⟩ := d3Sample_measurable levels hne hs L (n + 3) (by omega) true
    exact ⟨D, h1, h2⟩
  choose D hD hm using hex
  have hlim : ∀ c, Filter.Tendsto (fun n => D n c) Filter.atTop (nhds (Δ c)) := by
    intro c
    have hb : ∀ n, |D n c - Δ c| ≤ (57 * ((countLE levels (c + L / 2) : ℝ) - countLE levels (c - L / 2)) ^ 2) / ((n + 2 : ℕ) : ℝ) := by
      intro n
      obtain ⟨d, h1, h2⟩ := C165_any levels hne hs L c hL true (n + 3) (by omega) (Δ c) (hΔ c)
      rw [hD] at h1
      cases h1
      refine h2.trans (le_of_eq ?_)
      congr 1
      push_cast
      ring
    have h0 := (tendsto_const_div_atTop_nhds_zero_nat (57 * ((countLE levels (c + L / 2) : ℝ) - countLE levels (c - L / 2)) ^ 2)).comp (Filter.tendsto_add_atTop_nat 2)
    rw [tendsto_iff_norm_sub_tendsto_zero]
    exact squeeze_zero (fun n => norm_nonneg _) hb h0
  refine ⟨measurable_of_tendsto_metrizable hm (tendsto_pi_nhds.mpr hlim), fun c => ?_⟩
  exact le_of_tendsto (hlim c).abs (Filter.Eventually.of_forall fun n => d3Sample_bound levels hne hs L hL (n + 3) (by omega) true c _ (hD n c))

/-- Averages of close functions. -/
theorem average_close (lo hi : ℝ) (hlh : lo ≤ hi) (f g : ℝ → ℝ) (hf : Measurable f) (hg : Measurable g) (Bf Bg : ℝ) (hBf : ∀ c, |f c| ≤ Bf) (hBg : ∀ c, |g c| ≤ Bg)
    (ε : ℝ) (h : ∀ c, lo ≤ c → c ≤ hi → |f c - g c| ≤ ε) :
    |average lo hi f - average lo hi g| ≤ ε ∧
    average lo hi (fun c => (f c - average lo hi f) ^ 2) ≤ 2 * average lo hi (fun c => (g c - average lo hi g) ^ 2) + 2 * ε ^ 2 := by
  have hmem : ∀ u ∈ Set.Ico (0 : ℝ) 1, lo ≤ uniform lo hi u ∧ uniform lo hi u ≤ hi := by
    intro u hu
    unfold uniform
    constructor <;> nlinarith [hu.1, hu.2]
  have mf := hf.comp (uniform_measurable lo hi)
  have mg := hg.comp (uniform_measurable lo hi)
  have int : ∀ φ : ℝ → ℝ, Measurable φ → (∃ B, ∀ u, |φ u| ≤ B) → IntegrableOn φ (Set.Ico (0 : ℝ) 1) := fun φ h1 ⟨B, h2⟩ =>
    Integrable.of_bound h1.aestronglyMeasurable B (Filter.Eventually.of_forall fun u => by rw [Real.norm_eq_abs]; exact h2 u)
  have if' := int _ mf ⟨Bf, fun u => hBf _⟩
  have ig := int _ mg ⟨Bg, fun u => hBg _⟩
  have hvol : volume.real (Set.Ico (0 : ℝ) 1) = 1 := by simp
  simp only [← average_eq]
  have hF : ∀ u, (f ∘ uniform lo hi) u = f (uniform lo hi u) := fun _ => rfl
  have hG : ∀ u, (g ∘ uniform lo hi) u = g (uniform lo hi u) := fun _ => rfl
  simp only [← hF, ← hG]
  have hm : ∀ u ∈ Set.Ico (0 : ℝ) 1, |(f ∘ uniform lo hi) u - (g ∘ uniform lo hi) u| ≤ ε := fun u hu => h _ (hmem u hu).1 (hmem u hu).2
  have bF : ∀ u, |(f ∘ uniform lo hi) u| ≤ Bf := fun u => hBf _
  have bG : ∀ u, |(g ∘ uniform lo hi) u| ≤ Bg := fun u => hBg _
  generalize f ∘ uniform lo hi = F at *
  generalize g ∘ uniform lo hi = G at *
  have bsq : ∀ (φ : ℝ → ℝ) (B m : ℝ), (∀ u, |φ u| ≤ B) → ∃ B', ∀ u, |(φ u - m) ^ 2| ≤ B' := fun φ B m hB => ⟨(B + |m|) ^ 2, fun u => by
    rw [abs_of_nonneg (sq_nonneg _), ← sq_abs (φ u - m)]
    exact pow_le_pow_left₀ (abs_nonneg _) ((abs_sub _ _).trans (by linarith [hB u])) 2⟩
  constructor
  · rw [← integral_sub if' ig]
    have := norm_setIntegral_le_of_norm_le_const (μ := volume) (s := Set.Ico (0 : ℝ) 1) (f := fun u => F u - G u) (C := ε) (by simp) hm
    rw [hvol, mul_one] at this
    exact this
  · set m := ∫ u in Set.Ico (0 : ℝ) 1, G u with hm'
    set m' := ∫ u in Set.Ico (0 : ℝ) 1, F u with hm''
    have i1 := int (fun u => (F u - m) ^ 2) ((mf.sub_const m).pow_const 2) (bsq F Bf m bF)
    have i2 := int (fun u => (G u - m) ^ 2) ((mg.sub_const m).pow_const 2) (bsq G Bg m bG)
    have i3 := int (fun u => (F u - m') ^ 2) ((mf.sub_const m').pow_const 2) (bsq F Bf m' bF)
    have a1 : ∫ u in Set.Ico (0 : ℝ) 1, (F u - m') ^ 2 ≤ ∫ u in Set.Ico (0 : ℝ) 1, (F u - m) ^ 2 := by
      have e : ∀ u, (F u - m) ^ 2 = (F u - m') ^ 2 + (2 * (m' - m) * F u + (m ^ 2 - m' ^ 2)) := fun u => by ring
      have e2 : ∫ u in Set.Ico (0 : ℝ) 1, (F u - m) ^ 2 = (∫ u in Set.Ico (0 : ℝ) 1, (F u - m') ^ 2) + (2 * (m' - m) * m' + (m ^ 2 - m' ^ 2)) := by
        simp only [e]
        have i4 : IntegrableOn (fun u => 2 * (m' - m) * F u + (m ^ 2 - m' ^ 2)) (Set.Ico (0 : ℝ) 1) := (if'.const_mul _).add (integrable_const _)
        rw [integral_add i3 i4, integral_add (if'.const_mul _) (integrable_const _), integral_const_mul, setIntegral_const, hvol, one_smul, ← hm'']
      rw [e2]
      nlinarith [sq_nonneg (m' - m)]
    refine a1.trans ?_
    have a2 : ∫ u in Set.Ico (0 : ℝ) 1, (F u - m) ^ 2 ≤ ∫ u in Set.Ico (0 : ℝ) 1, (2 * (G u - m) ^ 2 + 2 * ε ^ 2) := by
      refine setIntegral_mono_on i1 ((i2.const_mul 2).add (integrable_const _)) measurableSet_Ico fun u hu => ?_
      have := abs_le.mp (hm u hu)
      have h2 : (F u - G u) ^ 2 ≤ ε ^ 2 := sq_le_sq' this.1 this.2
      nlinarith [sq_nonneg ((F u - G u) - (G u - m))]
    refine a2.trans (le_of_eq ?_)
    rw [integral_add (i2.const_mul 2) (integrable_const _), integral_const_mul, setIntegral_const, hvol, one_smul]

variable {Ω : Type} [MeasurableSpace Ω] (P : Measure Ω) [IsProbabilityMeasure P]

/-- **C165 (spectral_rigidity).** Let `Δ c` be the Dyson-Mehta statistic of the window of length `L = Ls[i]` centred at `c`, `μ` its average over all centres between the least and the greatest level, and `s²` the mean squared deviation from `μ`. Suppose no such window contains more than `K` levels and
on every such window the counting function stays within `D` of some line, and put `ε = 12 D (4 K + 11 D) / (gridsize - 1)`. With a budget of `k ≥ 1001` iterations and a tolerance `≤ 0` the expected value of the rigidity that `spectral_rigidity` returns is within `ε` of `μ`,
and the probability of an error of at least `t + ε` is at most `2 (s² + ε²) / ((k - 999) t²)`. -/
theorem C165_rigidity (levels : List ℝ) (hne : levels ≠ []) (hs : Ascending levels) (Ls : List ℝ) (hL : ∀ l ∈ Ls, 0 < l) (gridsize : Nat) (hg : 3 ≤ gridsize) (integration : String)
    (Up : Nat → ℝ) (U : Nat → Nat → Ω → ℝ) (hU : ∀ i, UniformDraws P (U i)) (tol : ℝ) (ht : tol ≤ 0) (k : ℕ) (hk : 1001 ≤ k) :
    ∃ v : ℕ → Ω → ℝ, (∀ (order : List Nat) ω, order.Perm (List.range Ls.length) →
        spectralRigidity order levels Ls tol k gridsize integration Up (fun i j => U i j ω) = .ok (Ls, (List.range Ls.length).map (v · ω), List.replicate Ls.length false, List.replicate Ls.length k)) ∧
      ∀ i (h : i < Ls.length) (Δ : ℝ → ℝ), (∀ c, IsDysonMehta levels Ls[i] c (Δ c)) →
        ∀ μ s2 : ℝ, μ = average (levels.head hne) (levels.getLast hne) Δ → s2 = average (levels.head hne) (levels.getLast hne) (fun c => (Δ c - μ) ^ 2) →
        ∀ K D ε : ℝ, (∀ c, levels.head hne ≤ c → c ≤ levels.getLast hne →
            (countLE levels (c + Ls[i] / 2) : ℝ) - countLE levels (c - Ls[i] / 2) ≤ K ∧
            ∃ A B, ∀ x, c - Ls[i] / 2 ≤ x → x ≤ c + Ls[i] / 2 → |(countLE levels x : ℝ) - A * x - B| ≤ D) →
          ε = 12 * D * (4 * K + 11 * D) / (gridsize - 1) →
          |∫ ω, v i ω ∂P - μ| ≤ ε ∧ ∀ t > 0, P.real {ω | t + ε ≤ |v i ω - μ|} ≤ 2 * (s2 + ε ^ 2) / ((k - 999) * t ^ 2) := by
  have hex : ∀ l c : ℝ, ∃ d, d3Sample levels l gridsize (decide (integration ≠ "trapz")) c = .ok d := fun l c => by
    obtain ⟨D, h1, -, -⟩ := d3Sample_measurable levels hne hs l gridsize (by omega) (decide (integration ≠ "trapz"))
    exact ⟨_, h1 c⟩
  choose S hS using hex
  obtain ⟨v, h1, h2⟩ := C159_spectral_rigidity P levels hne hs Ls hL gridsize (by omega) integration Up U hU S (fun l _ c => hS l c) tol ht k (by omega)
  refine ⟨v, h1, fun i h Δ hΔ μ s2 hμ hs2 K D ε hKD hε => ?_⟩
  obtain ⟨k1, -, k3⟩ := (h2 i h _ _ rfl rfl).1 hk
  have hl0 : 0 < Ls[i] := hL _ (List.getElem_mem h)
  have hlh : levels.head hne ≤ levels.getLast hne := by
    rw [List.head_eq_getElem, List.getLast_eq_getElem]
    exact hs.le _ _ _ _ (by omega)
  have hg1 : (0 : ℝ) < (gridsize : ℝ) - 1 := by
    have : (3 : ℝ) ≤ gridsize := by exact_mod_cast hg
    linarith
  have hclose : ∀ c, levels.head hne ≤ c → c ≤ levels.getLast hne → |S Ls[i] c - Δ c| ≤ ε := by
    intro c c1 c2
    obtain ⟨hK, A, B, hAB⟩ := hKD c c1 c2
    have hD0 : 0 ≤ D := (abs_nonneg _).trans (hAB c (by linarith) (by linarith))
    obtain ⟨d, e1, e2⟩ := C165_sample levels hne hs Ls[i] c hl0 (decide (integration ≠ "trapz")) gridsize hg A B D hAB (Δ c) (hΔ c)
    rw [hS] at e1
    cases e1
    refine e2.trans ?_
    rw [hε]
    apply div_le_div_of_nonneg_right _ hg1.le
    apply mul_le_mul_of_nonneg_left _ (by linarith)
    linarith
  obtain ⟨S', m1, m2, BS, m3⟩ := d3Sample_measurable levels hne hs Ls[i] gridsize (by omega) (decide (integration ≠ "trapz"))
  have hSS : S' = S Ls[i] := by
    funext c
    have := m1 c
    rw [hS] at this
    exact (Except.ok.inj this).symm
  subst hSS
  obtain ⟨d1, d2⟩ := dysonMehta_measurable levels hne hs Ls[i] hl0 Δ hΔ
  obtain ⟨a1, a2⟩ := average_close _ _ hlh (S Ls[i]) Δ m2 d1 BS _ m3 d2 ε hclose
  rw [← hμ] at a1 a2
  rw [← hs2] at a2
  refine ⟨by rw [k1]; exact a1, fun t htp => ?_⟩
  have hpos : (0 : ℝ) < k - 999 := by
    have : (1001 : ℝ) ≤ k := by exact_mod_cast hk
    linarith
  refine le_trans (measureReal_mono ?_) ((k3 t htp).trans ?_)
  · intro ω hω
    have h3 : t + ε ≤ |v i ω - μ| := hω
    have := abs_sub_le (v i ω) (average (levels.head hne) (levels.getLast hne) (S Ls[i])) μ
    show t ≤ _
    linarith
  · apply div_le_div_of_nonneg_right _ (by positivity)
    linarith

/-- Non-vacuity: for the levels `0, 1, 1, 3`, windows of length 2 and 101 grid points every sample is within 2.3 `K²` of the statistic, which exists; the window around 1 holds two levels. -/
example : ∃ Δ d, IsDysonMehta [0, 1, 1, 3] 2 1 Δ ∧ d3Sample [0, 1, 1, 3] 2 101 true 1 = .ok d ∧ |d - Δ| ≤ 57 * 2 ^ 2 / 100 := by
  have hs : Ascending [(0 : ℝ), 1, 1, 3] := by simp [Ascending]
  obtain ⟨A, B, h1, -⟩ := C107_sample [0, 1, 1, 3] (by simp) hs 2 1 (by norm_num)
  have hΔ : IsDysonMehta [0, 1, 1, 3] 2 1 (lineDeviation [0, 1, 1, 3] 2 1 A B) := ⟨⟨(A, B), rfl⟩, by rintro _ ⟨p, rfl⟩; exact h1 p.1 p.2⟩
  obtain ⟨d, e1, e2⟩ := C165_any [0, 1, 1, 3] (by simp) hs 2 1 (by norm_num) true 101 (by norm_num) _ hΔ
  refine ⟨_, d, hΔ, e1, e2.trans (le_of_eq ?_)⟩
  norm_num [countLE, List.countP_cons]

/-- Non-vacuity of the other two: the hypotheses hold for the levels `0, 1, 1, 3` and windows of length 2 with `K = D = 4`. -/
example : ∃ (Ω : Type) (_ : MeasurableSpace Ω) (P : Measure Ω) (_ : IsProbabilityMeasure P) (v : Ω → ℝ) (μ : ℝ), |∫ ω, v ω ∂P - μ| ≤ 12 * 4 * (4 * 4 + 11 * 4) / (10 ^ 6 - 1) := by
  obtain ⟨Ω, m, P, hP, U, hU⟩ := draws_exist
  have hs : Ascending [(0 : ℝ), 1, 1, 3] := by simp [Ascending]
  obtain ⟨v, -, h2⟩ := C165_rigidity P [0, 1, 1, 3] (by simp) hs [2] (by simp) (10 ^ 6) (by norm_num) "simps" (fun _ => 0) U hU 0 le_rfl 2000 (by norm_num)
  have hex : ∀ c, ∃ Δ, IsDysonMehta [0, 1, 1, 3] 2 c Δ := fun c => by
    obtain ⟨A, B, h1, -⟩ := C107_sample [0, 1, 1, 3] (by simp) hs 2 c (by norm_num)
    exact ⟨lineDeviation [0, 1, 1, 3] 2 c A B, ⟨(A, B), rfl⟩, by rintro _ ⟨p, rfl⟩; exact h1 p.1 p.2⟩
  choose Δ hΔ using hex
  have hle : ∀ x : ℝ, (countLE [0, 1, 1, 3] x : ℝ) ≤ 4 := fun x => by
    have : countLE [(0 : ℝ), 1, 1, 3] x ≤ 4 := List.countP_le_length
    exact_mod_cast this
  have h0 : ∀ x : ℝ, (0 : ℝ) ≤ (countLE [0, 1, 1, 3] x : ℝ) := fun x => Nat.cast_nonneg _
  refine ⟨Ω, m, P, hP, v 0, _, (h2 0 (by simp) Δ hΔ _ _ rfl rfl 4 4 _ (fun c _ _ => ⟨?_, 0, 0, fun x _ _ => ?_⟩) rfl).1.trans (le_of_eq (by norm_num))⟩
  · have := hle (c + [(2 : ℝ)][0] / 2)
    have := h0 (c - [(2 : ℝ)][0] / 2)
    linarith
  · rw [abs_le]
    constructor <;> linarith [hle x, h0 x]

end Props
end RMT
