import Verif.Lemmas.Ensemble
import Verif.Lemmas.Numeric
import Verif.Spec.Density
import Verif.Props.Compare

/-!
# Properties C65 - C69, C81: theoretical curves of the ensembles
-/

set_option linter.unusedSectionVars false

namespace RMT
namespace Props
open Real MeasureTheory Set Ensembles Spec Comparing Filter Topology

/-! ## C65 -/

/-- **C65 (Poisson, GOE).** `nnsd(range, n)` returns `n` values, the density at `n` equally spaced points of the range, from its lower to its upper end. -/
theorem C65_points_partial (e : Ens) (he : e = .poisson ∨ e = .goe) (lo hi : ℝ) (n : Nat) :
    (e.nnsd (lo, hi) n none).length = n ∧
    (∀ i, i < n → (e.nnsd (lo, hi) n none).getD i 0 = e.density (lo + i * ((hi - lo) / (n - 1)))) ∧
    (2 ≤ n → (e.nnsd (lo, hi) n none).getD 0 0 = e.density lo ∧
      (e.nnsd (lo, hi) n none).getD (n - 1) 0 = e.density hi) := by
  have key : ∀ (f : ℝ → ℝ), ((linspace lo hi n).map f).length = n ∧
    (∀ i, i < n → ((linspace lo hi n).map f).getD i 0 = f (lo + i * ((hi - lo) / (n - 1)))) := by
    intro f
    refine ⟨by simp, fun i hi' => ?_⟩
    simp [List.getD_eq_getElem?_getD, linspace, hi']
  have h2 : ∀ (f : ℝ → ℝ), 2 ≤ n → ((linspace lo hi n).map f).getD 0 0 = f lo ∧
      ((linspace lo hi n).map f).getD (n - 1) 0 = f hi := by
    intro f hn
    constructor
    · rw [(key f).2 0 (by omega)]; simp
    · rw [(key f).2 (n - 1) (by omega)]
      have hn1 : ((n : ℝ) - 1) ≠ 0 := by
        have : (2 : ℝ) ≤ n := by exact_mod_cast hn
        linarith
      rw [Nat.cast_sub (by omega)]
      congr 1
      push_cast
      field_simp
      ring
  rcases he with rfl | rfl
  · exact ⟨(key _).1, (key _).2, h2 _⟩
  · exact ⟨(key _).1, (key _).2, h2 _⟩

/-- **C65 (points of GUE).** Without explicit spacings the entries for GUE are the densities at 10000 evenly spaced points from the lower to the upper end of the range. -/
theorem C65_gue_points (lo hi : ℝ) (n i : Nat) (h : i < 10000) :
    ((Ens.gue).nnsd (lo, hi) n none).getD i 0 = Ens.gue.density (lo + i * ((hi - lo) / 9999)) := by
  simp only [Ens.nnsd, gueNnsd, gridOf, Ens.density]
  have h1 : (((10000 : Nat) : ℝ) - 1) = 9999 := by norm_num
  have key : ∀ N : Nat, i < N → ((linspace lo hi N).map gueDensity).getD i 0 = gueDensity (lo + i * ((hi - lo) / ((N : ℝ) - 1))) := by
    intro N hN
    simp [List.getD_eq_getElem?_getD, linspace, hN]
  rw [key 10000 h, h1]

/-- **C65 (explicit spacings).** With explicit spacings every ensemble returns the density at each of them. -/
theorem C65_explicit (e : Ens) (range : ℝ × ℝ) (n : Nat) (s : List ℝ) :
    e.nnsd range n (some s) = s.map e.density := by
  cases e <;> rfl

/-- **C65 is false for GUE and GSE.** The number of points is 10000 whatever is requested; the points of GSE are all the lower end of the range. -/
theorem C65_refuted (lo hi : ℝ) (n : Nat) :
    ((Ens.gue).nnsd (lo, hi) n none).length = 10000 ∧ ((Ens.gse).nnsd (lo, hi) n none).length = 10000 ∧
    (Ens.gse).nnsd (lo, hi) n none = List.replicate 10000 (Ens.gse.density lo) := by
  refine ⟨by simp [Ens.nnsd, gueNnsd, gridOf], by simp [Ens.nnsd, gseNnsd, gridOf], ?_⟩
  simp only [Ens.nnsd, gseNnsd, gridOf, linspace, sub_self, zero_div, mul_zero, add_zero, List.map_map]
  rw [List.eq_replicate_iff]
  refine ⟨by simp, fun b hb => ?_⟩
  simp only [List.mem_map, Function.comp] at hb
  obtain ⟨_, -, rfl⟩ := hb
  rfl

/-- **C65 (consequence).** `ensemble_compare` with GUE or GSE and the observable `nnsd` raises `ValueError` for every metric and every grid size other than 10000 (the default is 5000). -/
theorem C65_ensemble_compare_raises (e : Ens) (he : e = .gue ∨ e = .gse) (range : ℝ × ℝ) (kdeGridsize : Nat)
    (hk : kdeGridsize ≠ 10000) (kde : List ℝ) (hkde : kde.length = kdeGridsize) (junk : List ℝ) (metric : String) :
    ensembleMetric (e.nnsd range kdeGridsize none) kde junk "nnsd" metric = .error .valueError := by
  apply C80_metric_lengths
  have : (e.nnsd range kdeGridsize none).length = 10000 := by
    rcases he with rfl | rfl
    · exact (C65_refuted range.1 range.2 kdeGridsize).1
    · exact (C65_refuted range.1 range.2 kdeGridsize).2.1
  omega

/-! ## C66 -/

/-- **C66.** The nearest-neighbour densities of all four ensembles are probability densities on `[0, ∞)` with mean 1. -/
theorem C66_density (e : Ens) : IsDensity e.density ∧ HasMean e.density 1 := by
  have hp := pi_pos
  cases e
  · exact ⟨⟨fun s _ => (exp_pos _).le, poisson_mass⟩, poisson_mean⟩
  · refine ⟨⟨fun s hs => ?_, goe_mass⟩, goe_mean⟩
    simp only [Ens.density, goeDensity]; positivity
  · refine ⟨⟨fun s hs => ?_, gue_mass⟩, gue_mean⟩
    simp only [Ens.density, gueDensity]; positivity
  · refine ⟨⟨fun s hs => ?_, gse_mass⟩, gse_mean⟩
    simp only [Ens.density, gseDensity]; positivity

/-- **C66 (level repulsion).** The densities of the Gaussian ensembles vanish at spacing zero, that of Poisson is 1 there. -/
theorem C66_repulsion (e : Ens) : e.density 0 = if e = .poisson then 1 else 0 := by
  cases e <;> simp [Ens.density, poissonDensity, goeDensity, gueDensity, gseDensity]

/-! ## C67 -/

/-- **C67 (Poisson).** The CDF is 0 for `s ≤ 0`, non-decreasing, tends to 1, stays below 1, and its derivative at every `s > 0` is the density. -/
theorem C67_poisson :
    (∀ s ≤ 0, poissonCdf s = 0) ∧ Monotone poissonCdf ∧ Tendsto poissonCdf atTop (𝓝 1) ∧ (∀ s, poissonCdf s < 1) ∧
    ∀ s, 0 < s → HasDerivAt poissonCdf (poissonDensity s) s := by
  refine ⟨fun s hs => by simp [poissonCdf, clip0, max_eq_right hs], fun a b hab => ?_, ?_, fun s => ?_, fun s hs => ?_⟩
  · unfold poissonCdf clip0
    have : exp (-max b 0) ≤ exp (-max a 0) := exp_le_exp.mpr (neg_le_neg (max_le_max_right 0 hab))
    linarith
  · have h : Tendsto (fun s : ℝ => 1 - exp (-s)) atTop (𝓝 (1 - 0)) :=
      tendsto_const_nhds.sub (tendsto_exp_neg_atTop_nhds_zero)
    rw [sub_zero] at h
    refine h.congr' ?_
    filter_upwards [eventually_ge_atTop (0 : ℝ)] with s hs
    simp [poissonCdf, clip0, max_eq_left hs]
  · unfold poissonCdf; linarith [exp_pos (-clip0 s)]
  · have h : HasDerivAt (fun x : ℝ => 1 - exp (-x)) (exp (-s)) s := by
      have := ((hasDerivAt_id s).neg.exp).const_sub 1
      refine this.congr_deriv ?_
      simp
    refine h.congr_of_eventuallyEq ?_
    filter_upwards [lt_mem_nhds hs] with x hx
    simp [poissonCdf, clip0, max_eq_left (le_of_lt hx)]

/-- **C67 (GOE).** The same for GOE. -/
theorem C67_goe :
    (∀ s ≤ 0, goeCdf s = 0) ∧ Monotone goeCdf ∧ Tendsto goeCdf atTop (𝓝 1) ∧ (∀ s, goeCdf s < 1) ∧
    ∀ s, 0 < s → HasDerivAt goeCdf (goeDensity s) s := by
  have hp := pi_pos
  refine ⟨fun s hs => by simp [goeCdf, clip0, max_eq_right hs], fun a b hab => ?_, ?_, fun s => ?_, fun s hs => ?_⟩
  · unfold goeCdf
    have h1 : clip0 a ≤ clip0 b := max_le_max_right 0 hab
    have h0 : 0 ≤ clip0 a := le_max_right _ _
    have : exp ((-π / 4) * clip0 b * clip0 b) ≤ exp ((-π / 4) * clip0 a * clip0 a) := by
      apply exp_le_exp.mpr
      have := mul_le_mul h1 h1 h0 (h0.trans h1)
      nlinarith
    linarith
  · have hq : Tendsto (fun s : ℝ => (π / 4) * (s * s)) atTop atTop :=
      (tendsto_id.atTop_mul_atTop₀ tendsto_id).const_mul_atTop (by positivity)
    have h : Tendsto (fun s : ℝ => 1 - exp (-((π / 4) * (s * s)))) atTop (𝓝 (1 - 0)) :=
      tendsto_const_nhds.sub (tendsto_exp_neg_atTop_nhds_zero.comp hq)
    rw [sub_zero] at h
    refine h.congr' ?_
    filter_upwards [eventually_ge_atTop (0 : ℝ)] with s hs
    simp only [goeCdf, clip0, max_eq_left hs]
    ring_nf
  · unfold goeCdf; linarith [exp_pos ((-π / 4) * clip0 s * clip0 s)]
  · have h : HasDerivAt (fun x : ℝ => 1 - exp ((-π / 4) * x * x)) (goeDensity s) s := by
      have hid := hasDerivAt_id s
      have := (((hid.const_mul (-π / 4)).mul hid).exp).const_sub 1
      refine this.congr_deriv ?_
      simp only [goeDensity, id, Pi.mul_apply]
      rw [show -(π / 4) * s * s = (-π / 4) * s * s by ring]
      ring
    refine h.congr_of_eventuallyEq ?_
    filter_upwards [lt_mem_nhds hs] with x hx
    simp only [goeCdf, clip0, max_eq_left (le_of_lt hx)]

/-- **C67 (arrays).** `nnsd_cdf` of both ensembles applies these functions to the grid. -/
theorem C67_arrays (range : ℝ × ℝ) (n : Nat) (s : List ℝ) :
    poissonNnsdCdf range n (some s) = s.map poissonCdf ∧ goeNnsdCdf range n (some s) = s.map goeCdf ∧
    (poissonNnsdCdf range n none).length = n ∧ (goeNnsdCdf range n none).length = n ∧
    ∀ i, i < n → (poissonNnsdCdf range n none).getD i 0 = poissonCdf (range.1 + i * ((range.2 - range.1) / (n - 1))) ∧
      (goeNnsdCdf range n none).getD i 0 = goeCdf (range.1 + i * ((range.2 - range.1) / (n - 1))) := by
  refine ⟨rfl, rfl, by simp [poissonNnsdCdf, gridOf], by simp [goeNnsdCdf, gridOf], fun i hi => ?_⟩
  constructor
  · simp [poissonNnsdCdf, gridOf, List.getD_eq_getElem?_getD, linspace, hi]
  · simp [goeNnsdCdf, gridOf, List.getD_eq_getElem?_getD, linspace, hi]

/-! ## C68 -/

/-- **C68 (ends of the family).** `beta = 0` gives the Poisson and `beta = 1` the GOE density and CDF. -/
theorem C68_interpolates (s : ℝ) (hs : 0 ≤ s) :
    brodyDist s 0 = poissonDensity s ∧ brodyDist s 1 = goeDensity s ∧
    brodyCdf s 0 = poissonCdf s ∧ brodyCdf s 1 = goeCdf s := by
  have h2 : s ^ ((1 : ℝ) + 1) = s * s := by
    rw [show (1 : ℝ) + 1 = ((2 : ℕ) : ℝ) by norm_num, rpow_natCast, sq]
  refine ⟨?_, ?_, ?_, ?_⟩
  · simp [brodyDist, brodyAlpha_zero, poissonDensity]
  · simp only [brodyDist, brodyAlpha_one, goeDensity, h2, rpow_one]
    rw [show -(π / 4) * (s * s) = -(π / 4) * s * s by ring]; ring
  · simp [brodyCdf, brodyAlpha_zero, poissonCdf, clip0, max_eq_left hs]
  · simp only [brodyCdf, brodyAlpha_one, goeCdf, clip0, max_eq_left hs, h2]
    rw [show -(π / 4) * (s * s) = -π / 4 * s * s by ring]

/-- **C68 (density).** For every `beta > -1` the Brody density is a probability density on `[0, ∞)` with mean 1. -/
theorem C68_density (beta : ℝ) (h : -1 < beta) :
    IsDensity (fun s => brodyDist s beta) ∧ HasMean (fun s => brodyDist s beta) 1 := by
  refine ⟨⟨fun s hs => ?_, brody_mass beta h⟩, brody_mean beta h⟩
  have h1 := brodyAlpha_pos beta h
  have h2 : 0 < beta + 1 := by linarith
  have h3 := rpow_nonneg hs beta
  simp only [brodyDist]; positivity

/-- **C68 (CDF).** For every `beta ≥ 0` (indeed every `beta > -1`) the Brody CDF is an antiderivative of the density on `(0, ∞)`, 0 at 0, strictly increasing on `[0, ∞)`, has values in `[0, 1)` and tends to 1. -/
theorem C68_cdf (beta : ℝ) (h : -1 < beta) :
    brodyCdf 0 beta = 0 ∧ StrictMonoOn (fun s => brodyCdf s beta) (Ici 0) ∧
    (∀ s, 0 ≤ s → 0 ≤ brodyCdf s beta ∧ brodyCdf s beta < 1) ∧ Tendsto (fun s => brodyCdf s beta) atTop (𝓝 1) ∧
    ∀ s, 0 < s → HasDerivAt (fun x => brodyCdf x beta) (brodyDist s beta) s := by
  have ha := brodyAlpha_pos beta h
  have h2 : 0 < beta + 1 := by linarith
  have h0 : brodyCdf 0 beta = 0 := by simp [brodyCdf, zero_rpow h2.ne']
  have hm : StrictMonoOn (fun s => brodyCdf s beta) (Ici 0) := by
    intro a ha' b hb' hab
    have := rpow_lt_rpow ha' hab h2
    have h3 : exp (-brodyAlpha beta * b ^ (beta + 1)) < exp (-brodyAlpha beta * a ^ (beta + 1)) := by
      apply exp_lt_exp.mpr; nlinarith
    simp only [brodyCdf]; linarith
  refine ⟨h0, hm, fun s hs => ⟨?_, ?_⟩, ?_, fun s hs => brodyCdf_deriv s beta hs⟩
  · rw [← h0]
    exact hm.monotoneOn self_mem_Ici hs hs
  · simp only [brodyCdf]; linarith [exp_pos (-brodyAlpha beta * s ^ (beta + 1))]
  · have hq : Tendsto (fun s : ℝ => brodyAlpha beta * s ^ (beta + 1)) atTop atTop :=
      (tendsto_rpow_atTop h2).const_mul_atTop ha
    have h : Tendsto (fun s : ℝ => 1 - exp (-(brodyAlpha beta * s ^ (beta + 1)))) atTop (𝓝 (1 - 0)) :=
      tendsto_const_nhds.sub (tendsto_exp_neg_atTop_nhds_zero.comp hq)
    rw [sub_zero] at h
    refine h.congr fun s => ?_
    simp only [brodyCdf, neg_mul]

example : IsDensity (fun s => brodyDist s (1 / 2)) := (C68_density (1 / 2) (by norm_num)).1

/-! ## C69 -/

/-- **C69.** For all four ensembles the rigidity curve is the standard integral transform of the level variance curve, at every `L > 0`. -/
theorem C69_transform (e : Ens) (L : ℝ) (hL : 0 < L) : e.rigidityAt L = rigidityTransform e.levelVarAt L := by
  have hp := pi_pos
  have congr_int : ∀ (f g : ℝ → ℝ), (∀ r, 0 < r → f r = g r) →
      ∫ r in (0 : ℝ)..L, (L ^ 3 - 2 * L ^ 2 * r + r ^ 3) * f r = ∫ r in (0 : ℝ)..L, (L ^ 3 - 2 * L ^ 2 * r + r ^ 3) * g r := by
    intro f g h
    apply intervalIntegral.integral_congr_ae
    refine ae_of_all _ fun r hr => ?_
    rw [uIoc_of_le hL.le] at hr
    rw [h r hr.1]
  cases e
  · exact (transform_id L hL).symm
  · simp only [rigidityTransform, Ens.rigidityAt, Ens.levelVarAt]
    rw [congr_int goeLevelVar (fun r => (2 / π ^ 2) * log r + (2 / π ^ 2) * (log (2 * π) + eulerMascheroniConstant + 1 - π ^ 2 / 8)) ?_,
      transform_log L hL]
    · simp only [goeRigidity]
      rw [log_mul (by positivity) hL.ne']
      ring
    · intro r hr
      simp only [goeLevelVar]
      rw [log_mul (by positivity) hr.ne']
      ring
  · simp only [rigidityTransform, Ens.rigidityAt, Ens.levelVarAt]
    rw [congr_int gueLevelVar (fun r => (1 / π ^ 2) * log r + (1 / π ^ 2) * (log (2 * π) + eulerMascheroniConstant + 1)) ?_,
      transform_log L hL]
    · simp only [gueRigidity]
      rw [log_mul (by positivity) hL.ne']
      field_simp
      ring
    · intro r hr
      simp only [gueLevelVar]
      rw [log_mul (by positivity) hr.ne']
      ring
  · simp only [rigidityTransform, Ens.rigidityAt, Ens.levelVarAt]
    rw [congr_int gseLevelVar (fun r => (1 / (2 * π ^ 2)) * log r +
      (1 / (2 * π ^ 2)) * (log (4 * π) + eulerMascheroniConstant + 1 + π ^ 2 / 8)) ?_, transform_log L hL]
    · simp only [gseRigidity]
      rw [log_mul (by positivity) hL.ne']
      field_simp
      ring
    · intro r hr
      simp only [gseLevelVar]
      rw [log_mul (by positivity) hr.ne']
      ring

/-- **C69 (arrays).** `spectral_rigidity` and `level_variance` apply these functions to the explicit values of `L`, or to `L_grid_size` equally spaced ones. -/
theorem C69_arrays (e : Ens) (a b : ℝ) (n : Nat) (Ls : List ℝ) :
    e.spectralRigidity a b n (some Ls) = Ls.map e.rigidityAt ∧ e.levelVariance a b n (some Ls) = Ls.map e.levelVarAt ∧
    (e.spectralRigidity a b n none).length = n ∧ (e.levelVariance a b n none).length = n := by
  refine ⟨rfl, rfl, by simp [Ens.spectralRigidity, gridOf], by simp [Ens.levelVariance, gridOf]⟩

/-- **C69 (ordering).** More repulsion means a stiffer spectrum: the GUE level variance lies below the GOE one at every `L ≥ 1`. -/
theorem C69_goe_gt_gue (L : ℝ) (hL : 1 ≤ L) : gueLevelVar L < goeLevelVar L := by
  have hp := pi_gt_three
  have hp4 := pi_lt_d2
  have hl : 0 ≤ log L := log_nonneg hL
  have hg : (1 : ℝ) / 2 < eulerMascheroniConstant := one_half_lt_eulerMascheroniConstant
  have h2 : 1 < log (2 * π) := by
    rw [lt_log_iff_exp_lt (by positivity)]
    have := exp_one_lt_d9
    linarith
  simp only [gueLevelVar, goeLevelVar]
  rw [log_mul (by positivity) (by positivity)]
  have hq : 0 < 1 / π ^ 2 := by positivity
  have : 0 < (1 / π ^ 2) * (log (2 * π) + log L + eulerMascheroniConstant + 1 - π ^ 2 / 4) := by
    apply mul_pos hq
    nlinarith
  have e : 2 / π ^ 2 * (log (2 * π) + log L + eulerMascheroniConstant + 1 - π ^ 2 / 8) -
    1 / π ^ 2 * (log (2 * π) + log L + eulerMascheroniConstant + 1) =
    (1 / π ^ 2) * (log (2 * π) + log L + eulerMascheroniConstant + 1 - π ^ 2 / 4) := by ring
  linarith

/-! ## C81 -/

/-- The value `nnnsd` of GOE gives for the grid point `s` of the requested range. -/
noncomputable def goeNextOnRange (s : ℝ) : ℝ := goeNextDensity (s / 2)

/-- **C81 (what GOE.nnnsd computes).** On a range the values are those of `goeNextOnRange` at the points of the range; explicit spacings are used without the scaling. GUE and GSE raise `NotImplementedError`. -/
theorem C81_values (lo hi : ℝ) (n : Nat) (s : List ℝ) :
    (Ens.goe).nnnsd (lo, hi) n none = .ok ((linspace lo hi n).map goeNextOnRange) ∧
    (Ens.goe).nnnsd (lo, hi) n (some s) = .ok (s.map goeNextDensity) ∧
    (Ens.poisson).nnnsd (lo, hi) n none = .ok ((linspace lo hi n).map fun x => brodyDist x 0.6) ∧
    (Ens.poisson).nnnsd (lo, hi) n (some s) = .ok (s.map fun x => brodyDist x 0.6) ∧
    (Ens.gue).nnnsd (lo, hi) n none = .error .notImplementedError ∧
    (Ens.gse).nnnsd (lo, hi) n none = .error .notImplementedError := by
  refine ⟨?_, rfl, rfl, rfl, rfl, rfl⟩
  simp [Ens.nnnsd, goeNnnsd, List.map_map, Function.comp_def, goeNextOnRange]

/-- **C81 is false.** On a range, the values of `GOE.nnnsd` integrate to 2 instead of 1; with explicit spacings they integrate to 1 but have mean 1 instead of 2; so do those of `Poisson.nnnsd`. -/
theorem C81_refuted :
    ∫ s in Ioi (0 : ℝ), goeNextOnRange s = 2 ∧ ∫ s in Ioi (0 : ℝ), s * goeNextOnRange s = 4 ∧
    HasMean goeNextDensity 1 ∧ HasMean (fun s => brodyDist s 0.6) 1 := by
  refine ⟨?_, ?_, ?_, brody_mean 0.6 (by norm_num)⟩
  · have h := integral_comp_mul_left_Ioi goeNextDensity 0 (b := 1 / 2) (by norm_num)
    have e : (fun s : ℝ => goeNextOnRange s) = fun s => goeNextDensity (1 / 2 * s) := by
      funext s; simp only [goeNextOnRange]; congr 1; ring
    rw [e, h, mul_zero]
    simp only [goeNext_eq_gse, gse_mass]
    norm_num
  · have h := integral_comp_mul_left_Ioi (fun s => s * goeNextDensity s) 0 (b := 1 / 2) (by norm_num)
    have e : ∀ s : ℝ, s * goeNextOnRange s = 2 * ((1 / 2 * s) * goeNextDensity (1 / 2 * s)) := by
      intro s; simp only [goeNextOnRange]; rw [show s / 2 = 1 / 2 * s by ring]; ring
    have e' : (fun s : ℝ => s * goeNextOnRange s) = fun s => 2 * ((1 / 2 * s) * goeNextDensity (1 / 2 * s)) := funext e
    rw [e', integral_const_mul, h, mul_zero]
    simp only [goeNext_eq_gse, gse_mean]
    norm_num
  · simp only [HasMean, goeNext_eq_gse, gse_mean]

/-- **C81 (the part that holds).** The values are non-negative, and half the values of `GOE.nnnsd` on a range form a probability density with mean 2; with explicit spacings, the values of both ensembles are
probability densities. -/
theorem C81_density_partial :
    IsDensity (fun s => goeNextOnRange s / 2) ∧ HasMean (fun s => goeNextOnRange s / 2) 2 ∧
    IsDensity goeNextDensity ∧ IsDensity (fun s => brodyDist s 0.6) := by
  have hp := pi_pos
  refine ⟨⟨fun s _ => ?_, ?_⟩, ?_, ⟨fun s _ => ?_, ?_⟩, (C68_density 0.6 (by norm_num)).1⟩
  · simp only [goeNextOnRange, goeNextDensity]; positivity
  · rw [integral_div, C81_refuted.1]; norm_num
  · have e : ∀ s : ℝ, s * (goeNextOnRange s / 2) = (s * goeNextOnRange s) / 2 := fun s => by ring
    simp only [HasMean, e]
    rw [integral_div, C81_refuted.2.1]; norm_num
  · simp only [goeNextDensity]; positivity
  · simp only [goeNext_eq_gse, gse_mass]

end Props
end RMT
