import Verif.Props.PoissonLimits
import Verif.Props.EnsembleCompare
import Mathlib.Analysis.Convex.SpecificFunctions.Basic

/-! # Property C174: `ensemble_compare` recognises Poisson spectra -/

namespace RMT
namespace Props
open Gen EigValsM EigM Unfold MeasureTheory ProbabilityTheory Spec UniformM Ensembles Rigidity LevelVar EnsembleCmp Comparing
open Real Set Filter Topology

variable {σ Ω : Type} [MeasurableSpace Ω]

/-! ## The metrics are continuous -/

/-- The metric of an expected curve and a curve given as a function. -/
noncomputable def metricFn (m : String) (E : List ℝ) (T : Nat) (y : Fin T → ℝ) : ℝ :=
  if m = "mad" then (∑ t : Fin T, |E.getD t 0 - y t|) / (T : ℝ)
  else if m = "msqd" then (∑ t : Fin T, (E.getD t 0 - y t) ^ 2) / (T : ℝ)
  else pearson (asFun T E) y

theorem metricOf_fn (m : String) (hm : ValidMetric m) (E vs : List ℝ) (T : Nat) (h : vs.length = T) : metricOf m E vs = some (metricFn m E T (asFun T vs)) := by
  subst h
  rcases hm with rfl | rfl | rfl
  · simp [metricOf, metricFn, mad, Finset.sum_range, asFun]
  · simp [metricOf, metricFn, msqd, Finset.sum_range, asFun]
  · simp [metricOf, metricFn]

theorem metricFn_continuous (m : String) (hm : ValidMetric m) (E : List ℝ) (T : Nat) (p : Fin T → ℝ) (hc : m = "corr" → NonConstant p) :
    ContinuousAt (metricFn m E T) p := by
  rcases hm with rfl | rfl | rfl
  · have : metricFn "mad" E T = fun y => (∑ t : Fin T, |E.getD t 0 - y t|) / (T : ℝ) := funext fun y => by rw [metricFn, if_pos rfl]
    rw [this]
    exact (by fun_prop : Continuous _).continuousAt
  · have : metricFn "msqd" E T = fun y => (∑ t : Fin T, (E.getD t 0 - y t) ^ 2) / (T : ℝ) := funext fun y => by rw [metricFn, if_neg (by decide), if_pos rfl]
    rw [this]
    exact (by fun_prop : Continuous _).continuousAt
  · have : metricFn "corr" E T = fun y => (T * ∑ t, asFun T E t * y t - (∑ t, asFun T E t) * (∑ t, y t)) / Real.sqrt (T * ∑ t, asFun T E t ^ 2 - (∑ t, asFun T E t) ^ 2) /
        Real.sqrt (T * ∑ t, y t ^ 2 - (∑ t, y t) ^ 2) := funext fun y => by
      rw [metricFn, if_neg (by decide), if_neg (by decide), pearson, div_mul_eq_div_div]
    rw [this]
    have hpos : 0 < T * ∑ t, p t ^ 2 - (∑ t, p t) ^ 2 := by
      have hT : 0 < T := by obtain ⟨s, -, -⟩ := hc rfl; exact s.pos
      have hT' : (0 : ℝ) < T := by exact_mod_cast hT
      let X : Matrix (Fin 1) (Fin T) ℝ := fun _ => p
      have h1 := S_self_pos X 0 (hc rfl)
      rw [S_eq X hT 0 0] at h1
      have h2 := mul_pos hT' h1
      have h3 : (T : ℝ) * (∑ t, p t * p t - (∑ t, p t) * (∑ t, p t) / T) = T * ∑ t, p t ^ 2 - (∑ t, p t) ^ 2 := by
        have : ∀ t, p t * p t = p t ^ 2 := fun t => (sq _).symm
        simp only [this]
        field_simp
      rwa [h3] at h2
    have c1 : Continuous fun y : Fin T → ℝ => (T * ∑ t, asFun T E t * y t - (∑ t, asFun T E t) * (∑ t, y t)) / Real.sqrt (T * ∑ t, asFun T E t ^ 2 - (∑ t, asFun T E t) ^ 2) := by fun_prop
    have c2 : Continuous fun y : Fin T → ℝ => Real.sqrt (T * ∑ t, y t ^ 2 - (∑ t, y t) ^ 2) := by fun_prop
    exact c1.continuousAt.div c2.continuousAt (Real.sqrt_ne_zero'.mpr hpos)

/-- A curve near `p` has metrics near those of `p`. -/
theorem metrics_near (E : List ℝ) (T : Nat) (p : Fin T → ℝ) (metrics : List String) (hm : ∀ m ∈ metrics, ValidMetric m) (hc : "corr" ∈ metrics → NonConstant p) (ε : ℝ) (hε : 0 < ε) :
    ∀ᶠ y in 𝓝 p, ∀ m ∈ metrics, |metricFn m E T y - metricFn m E T p| < ε := by
  have : ∀ᶠ y in 𝓝 p, ∀ m ∈ metrics.toFinset, |metricFn m E T y - metricFn m E T p| < ε := by
    rw [Filter.eventually_all_finset]
    intro m hmm
    have hmm := List.mem_toFinset.mp hmm
    have := (metricFn_continuous m (hm m hmm) E T p (fun h => hc (h ▸ hmm))).eventually (Metric.ball_mem_nhds _ hε)
    simpa [Real.dist_eq] using this
  filter_upwards [this] with y hy m hmm
  exact hy m (List.mem_toFinset.mpr hmm)

/-! ## The curves of the other ensembles differ from those of Poisson -/

theorem log_not_line (a b c x y z : ℝ) (ha : 0 < a) (hx : 0 < x) (hxy : x < y) (hyz : y < z) (h1 : a * log x + b = c * x) (h2 : a * log y + b = c * y) (h3 : a * log z + b = c * z) : False := by
  have h := strictConcaveOn_log_Ioi.slope_anti_adjacent (show x ∈ Ioi 0 from hx) (show z ∈ Ioi 0 from hx.trans (hxy.trans hyz)) hxy hyz
  rw [div_lt_div_iff₀ (by linarith) (by linarith)] at h
  have e1 : a * (log z - log y) = c * (z - y) := by linarith
  have e2 : a * (log y - log x) = c * (y - x) := by linarith
  have h' := mul_lt_mul_of_pos_left h ha
  have : a * ((log z - log y) * (y - x)) = a * ((log y - log x) * (z - y)) := by
    rw [← mul_assoc, ← mul_assoc, e1, e2]; ring
  linarith

theorem levelVar_log (e : Ens) (he : e ≠ .poisson) : ∃ a b : ℝ, 0 < a ∧ ∀ L, 0 < L → e.levelVarAt L = a * log L + b := by
  have hpi := Real.pi_pos
  cases e with
  | poisson => exact absurd rfl he
  | goe =>
    refine ⟨2 / π ^ 2, (2 / π ^ 2) * (log (2 * π) + eulerMascheroniConstant + 1 - π ^ 2 / 8), by positivity, fun L hL => ?_⟩
    simp only [Ens.levelVarAt, goeLevelVar, Real.log_mul (by positivity : (2 * π : ℝ) ≠ 0) hL.ne']; ring
  | gue =>
    refine ⟨1 / π ^ 2, (1 / π ^ 2) * (log (2 * π) + eulerMascheroniConstant + 1), by positivity, fun L hL => ?_⟩
    simp only [Ens.levelVarAt, gueLevelVar, Real.log_mul (by positivity : (2 * π : ℝ) ≠ 0) hL.ne']; ring
  | gse =>
    refine ⟨1 / (2 * π ^ 2), (1 / (2 * π ^ 2)) * (log (4 * π) + eulerMascheroniConstant + 1 + π ^ 2 / 8), by positivity, fun L hL => ?_⟩
    simp only [Ens.levelVarAt, gseLevelVar, Real.log_mul (by positivity : (4 * π : ℝ) ≠ 0) hL.ne']; ring

theorem rigidity_log (e : Ens) (he : e ≠ .poisson) : ∃ a b : ℝ, 0 < a ∧ ∀ L, 0 < L → e.rigidityAt L = a * log L + b := by
  have hpi := Real.pi_pos
  cases e with
  | poisson => exact absurd rfl he
  | goe =>
    refine ⟨1 / π ^ 2, (1 / π ^ 2) * (log (2 * π) + eulerMascheroniConstant - 5 / 4 - π ^ 2 / 8), by positivity, fun L hL => ?_⟩
    simp only [Ens.rigidityAt, goeRigidity, Real.log_mul (by positivity : (2 * π : ℝ) ≠ 0) hL.ne']; ring
  | gue =>
    refine ⟨1 / (2 * π ^ 2), (1 / (2 * π ^ 2)) * (log (2 * π) + eulerMascheroniConstant - 5 / 4), by positivity, fun L hL => ?_⟩
    simp only [Ens.rigidityAt, gueRigidity, Real.log_mul (by positivity : (2 * π : ℝ) ≠ 0) hL.ne']; ring
  | gse =>
    refine ⟨1 / (4 * π ^ 2), (1 / (4 * π ^ 2)) * (log (4 * π) + eulerMascheroniConstant - 5 / 4 + π ^ 2 / 8), by positivity, fun L hL => ?_⟩
    simp only [Ens.rigidityAt, gseRigidity, Real.log_mul (by positivity : (4 * π : ℝ) ≠ 0) hL.ne']; ring

theorem metricFn_self (f : ℝ → ℝ) (Ls : List ℝ) (m : String) (hm : m = "mad" ∨ m = "msqd") : metricFn m (Ls.map f) Ls.length (asFun Ls.length (Ls.map f)) = 0 := by
  rcases hm with rfl | rfl
  · simp [metricFn, asFun]
  · rw [metricFn, if_neg (by decide), if_pos rfl]; simp [asFun]

theorem metricFn_pos (f g : ℝ → ℝ) (Ls : List ℝ) (hd : ∃ l ∈ Ls, f l ≠ g l) (m : String) (hm : m = "mad" ∨ m = "msqd") : 0 < metricFn m (Ls.map f) Ls.length (asFun Ls.length (Ls.map g)) := by
  obtain ⟨l, hl, hne⟩ := hd
  obtain ⟨i, hi, rfl⟩ := List.getElem_of_mem hl
  have hT : (0 : ℝ) < Ls.length := by exact_mod_cast (by omega : 0 < Ls.length)
  have hget : ∀ (k : ℝ → ℝ), (Ls.map k).getD i 0 = k Ls[i] := fun k => by simp [List.getD_eq_getElem?_getD, hi]
  rcases hm with rfl | rfl
  · rw [metricFn, if_pos rfl]
    refine div_pos (Finset.sum_pos' (fun t _ => abs_nonneg _) ⟨⟨i, hi⟩, Finset.mem_univ _, ?_⟩) hT
    simp only [asFun, hget]
    exact abs_pos.mpr (sub_ne_zero.mpr hne)
  · rw [metricFn, if_neg (by decide), if_pos rfl]
    refine div_pos (Finset.sum_pos' (fun t _ => sq_nonneg _) ⟨⟨i, hi⟩, Finset.mem_univ _, ?_⟩) hT
    simp only [asFun, hget]
    have := sub_ne_zero.mpr hne
    positivity

theorem log_differs (f : ℝ → ℝ) (c : ℝ) (hf : ∃ a b : ℝ, 0 < a ∧ ∀ L, 0 < L → f L = a * log L + b) (Ls : List ℝ) (hL : ∀ l ∈ Ls, 0 < l) (x y z : ℝ) (hx : x ∈ Ls) (hy : y ∈ Ls) (hz : z ∈ Ls)
    (hxy : x < y) (hyz : y < z) (g : ℝ → ℝ) (hg : ∀ L, g L = c * L) : ∃ l ∈ Ls, f l ≠ g l := by
  by_contra hcon
  push Not at hcon
  obtain ⟨a, b, ha, h⟩ := hf
  refine log_not_line a b c x y z ha (hL x hx) hxy hyz ?_ ?_ ?_
  · rw [← h x (hL x hx), hcon x hx, hg]
  · rw [← h y (hL y hy), hcon y hy, hg]
  · rw [← h z (hL z hz), hcon z hz, hg]

/-- Near the Poisson curve `g`, every other ensemble's metric is larger. -/
theorem rank_near (curve : Ens → ℝ → ℝ) (c : ℝ) (hg : ∀ L, curve .poisson L = c * L) (hlog : ∀ e, e ≠ .poisson → ∃ a b : ℝ, 0 < a ∧ ∀ L, 0 < L → curve e L = a * log L + b)
    (Ls : List ℝ) (hL : ∀ l ∈ Ls, 0 < l) (x y z : ℝ) (hx : x ∈ Ls) (hy : y ∈ Ls) (hz : z ∈ Ls) (hxy : x < y) (hyz : y < z) :
    ∀ᶠ v in 𝓝 (asFun Ls.length (Ls.map (curve .poisson))), ∀ e, e ≠ .poisson → ∀ m, m = "mad" ∨ m = "msqd" →
      metricFn m (Ls.map (curve .poisson)) Ls.length v < metricFn m (Ls.map (curve e)) Ls.length v := by
  have one : ∀ e, e ≠ .poisson → ∀ m, m = "mad" ∨ m = "msqd" → ∀ᶠ v in 𝓝 (asFun Ls.length (Ls.map (curve .poisson))),
      metricFn m (Ls.map (curve .poisson)) Ls.length v < metricFn m (Ls.map (curve e)) Ls.length v := by
    intro e he m hm
    have hv : ValidMetric m := by rcases hm with rfl | rfl <;> simp [ValidMetric]
    have hnc : m = "corr" → NonConstant (asFun Ls.length (Ls.map (curve .poisson))) := by
      intro h; rcases hm with rfl | rfl <;> exact absurd h (by decide)
    have h1 := metricFn_continuous m hv (Ls.map (curve .poisson)) Ls.length _ hnc
    have h2 := metricFn_continuous m hv (Ls.map (curve e)) Ls.length _ hnc
    refine h1.tendsto.eventually_lt h2.tendsto ?_
    rw [metricFn_self _ _ _ hm]
    exact metricFn_pos _ _ _ (log_differs _ c (hlog e he) Ls hL x y z hx hy hz hxy hyz _ hg) _ hm
  have all : ∀ e, e ≠ .poisson → ∀ᶠ v in 𝓝 (asFun Ls.length (Ls.map (curve .poisson))), ∀ m, m = "mad" ∨ m = "msqd" →
      metricFn m (Ls.map (curve .poisson)) Ls.length v < metricFn m (Ls.map (curve e)) Ls.length v := by
    intro e he
    filter_upwards [one e he "mad" (Or.inl rfl), one e he "msqd" (Or.inr rfl)] with v h1 h2 m hm
    rcases hm with rfl | rfl
    · exact h1
    · exact h2
  filter_upwards [all .goe (by simp), all .gue (by simp), all .gse (by simp)] with v h1 h2 h3 e he
  cases e with
  | poisson => exact absurd rfl he
  | goe => exact h1
  | gue => exact h2
  | gse => exact h3

/-! ## The estimates are near the Poisson curves -/

theorem near_of_close (Ls : List ℝ) (g : ℝ → ℝ) (Ψ : (Fin Ls.length → ℝ) → Prop) (hΨ : ∀ᶠ v in 𝓝 (asFun Ls.length (Ls.map g)), Ψ v) :
    ∃ δ : ℝ, 0 < δ ∧ ∀ vs : List ℝ, vs.length = Ls.length → (∀ i (h : i < Ls.length) (h1 : i < vs.length), |vs[i] - g Ls[i]| < δ) → Ψ (asFun Ls.length vs) := by
  obtain ⟨δ, hδ, hb⟩ := Metric.eventually_nhds_iff.mp hΨ
  refine ⟨δ, hδ, fun vs hl h => hb ?_⟩
  rw [dist_pi_lt_iff hδ]
  intro t
  have h1 := h t t.isLt (by omega)
  have ht : (t : Nat) < vs.length := by omega
  simpa [asFun, Real.dist_eq, List.getD_eq_getElem?_getD, ht] using h1

theorem levelvar_near (R : Rng σ) (eh : EigSolver) (ehC : (n : Nat) → Matrix (Fin n) (Fin n) ℂ → List ℝ) (P : ℕ → Measure Ω) [∀ n, IsProbabilityMeasure (P n)] (e s : ℕ → Ω → σ)
    (hX : ∀ n, NormalDraws (P n) fun k ω => draw R (e n ω) k) (tri : Bool) {Ω' : Type} [MeasurableSpace Ω'] (Q : Measure Ω') [IsProbabilityMeasure Q] (Ls : List ℝ) (hL : ∀ l ∈ Ls, 0 ≤ l)
    (Up : Nat → ℝ) (U : Nat → Nat → Ω' → ℝ) (hU : ∀ i, UniformDraws Q (U i)) (junk : Nat) (Ψ : (Fin Ls.length → ℝ) → Prop) (hΨ : ∀ᶠ v in 𝓝 (asFun Ls.length (Ls.map poissonLevelVar)), Ψ v) :
    ∃ vals : ℕ → Ω → List ℝ, (∀ n, GeneratedVals R eh ehC n .poisson tri (e n) (s n) (vals n)) ∧
      Tendsto (fun n => P n {ω | ¬ ∀ᵐ ω' ∂Q, ∃ M : Nat, ∀ (order : List Nat) (tol : ℝ) (maxIters : Int), order.Perm (List.range Ls.length) → 0 < maxIters →
        ∃ vs conv iters, levelNumberVariance order (normalUnfold n (vals n ω)) Ls tol maxIters Up (fun i j => U i j ω') junk = .ok (Ls, vs, conv, iters) ∧
          vs.length = Ls.length ∧ iters.length = Ls.length ∧ (tol ≤ 0 → ∀ k ∈ iters, maxIters ≤ k) ∧ ((∀ k ∈ iters, M ≤ k) → Ψ (asFun Ls.length vs))}) atTop (𝓝 0) := by
  obtain ⟨δ, hδ, hcl⟩ := near_of_close Ls poissonLevelVar Ψ hΨ
  obtain ⟨vals, hv, h⟩ := C155_level_number_variance R eh ehC P e s hX tri Q Ls hL Up U hU junk δ hδ
  refine ⟨vals, hv, tendsto_of_tendsto_of_tendsto_of_le_of_le tendsto_const_nhds h (fun n => zero_le) fun n => measure_mono fun ω hω hcon => hω ?_⟩
  filter_upwards [hcon] with ω' hω'
  obtain ⟨M, hM⟩ := hω'
  refine ⟨M, fun order tol maxIters ho hm => ?_⟩
  obtain ⟨vs, conv, iters, e1, e2, e3, e4⟩ := hM order tol maxIters ho hm
  exact ⟨vs, conv, iters, e1, e2, e3, fun ht k hk => (by obtain ⟨i, hi, rfl⟩ := List.getElem_of_mem hk; exact (e4 i (by omega) (by omega) hi).2 ht), fun hk => hcl vs e2 fun i h h1 => (e4 i h h1 (by omega)).1 (hk _ (List.getElem_mem _))⟩

theorem rigidity_near (R : Rng σ) (eh : EigSolver) (ehC : (n : Nat) → Matrix (Fin n) (Fin n) ℂ → List ℝ) (P : ℕ → Measure Ω) [∀ n, IsProbabilityMeasure (P n)] (e s : ℕ → Ω → σ)
    (hX : ∀ n, NormalDraws (P n) fun k ω => draw R (e n ω) k) (tri : Bool) {Ω' : Type} [MeasurableSpace Ω'] (Q : Measure Ω') [IsProbabilityMeasure Q] (Ls : List ℝ) (hL : ∀ l ∈ Ls, 0 < l)
    (integration : String) (Up : Nat → ℝ) (U : Nat → Nat → Ω' → ℝ) (hU : ∀ i, UniformDraws Q (U i)) (Ψ : (Fin Ls.length → ℝ) → Prop)
    (hΨ : ∀ᶠ v in 𝓝 (asFun Ls.length (Ls.map poissonRigidity)), Ψ v) :
    ∃ vals : ℕ → Ω → List ℝ, (∀ n, GeneratedVals R eh ehC n .poisson tri (e n) (s n) (vals n)) ∧
      Tendsto (fun n => P n {ω | ¬ ∃ G : Nat, ∀ gridsize, G ≤ gridsize → ∀ᵐ ω' ∂Q, ∃ M : Nat, ∀ (order : List Nat) (tol : ℝ) (maxIters : Int), order.Perm (List.range Ls.length) → 0 < maxIters →
        ∃ vs conv iters, spectralRigidity order (normalUnfold n (vals n ω)) Ls tol maxIters gridsize integration Up (fun i j => U i j ω') = .ok (Ls, vs, conv, iters) ∧
          vs.length = Ls.length ∧ iters.length = Ls.length ∧ (tol ≤ 0 → ∀ k ∈ iters, maxIters ≤ k) ∧ ((∀ k ∈ iters, M ≤ k) → Ψ (asFun Ls.length vs))}) atTop (𝓝 0) := by
  obtain ⟨δ, hδ, hcl⟩ := near_of_close Ls poissonRigidity Ψ hΨ
  obtain ⟨vals, hv, h⟩ := C155_spectral_rigidity R eh ehC P e s hX tri Q Ls hL integration Up U hU δ hδ
  refine ⟨vals, hv, tendsto_of_tendsto_of_tendsto_of_le_of_le tendsto_const_nhds h (fun n => zero_le) fun n => measure_mono fun ω hω hcon => hω ?_⟩
  obtain ⟨G, hG⟩ := hcon
  refine ⟨G, fun gridsize hg => ?_⟩
  filter_upwards [hG gridsize hg] with ω' hω'
  obtain ⟨M, hM⟩ := hω'
  refine ⟨M, fun order tol maxIters ho hm => ?_⟩
  obtain ⟨vs, conv, iters, e1, e2, e3, e4⟩ := hM order tol maxIters ho hm
  exact ⟨vs, conv, iters, e1, e2, e3, fun ht k hk => (by obtain ⟨i, hi, rfl⟩ := List.getElem_of_mem hk; exact (e4 i (by omega) (by omega) hi).2 ht), fun hk => hcl vs e2 fun i h h1 => (e4 i h h1 (by omega)).1 (hk _ (List.getElem_mem _))⟩

/-! ## The tables -/

theorem levelvar_table (kde : List ℝ → List ℝ → List ℝ) (rigidity levelvar : List ℝ → Py (List ℝ)) (junk : String → String → List ℝ) (hj : ∀ a b, (junk a b).length = 1) (e : Ens) (vals : List ℝ)
    (metrics : List String) (hm : ∀ m ∈ metrics, ValidMetric m) (range : ℝ × ℝ) (g : Nat) (Lr Ls vs : List ℝ) (h : levelvar Ls = .ok vs) (hl : vs.length = Ls.length) (h2 : 2 ≤ Ls.length) :
    ∃ t, ensembleCompare kde rigidity levelvar junk e vals ["levelvar"] metrics range g Lr Ls = .ok t ∧
      ∀ m ∈ metrics, t.cell "levelvar" m = some (metricFn m (Ls.map e.levelVarAt) Ls.length (asFun Ls.length vs)) := by
  obtain ⟨t, d1, -, -, d4⟩ := block_ok junk hj ["levelvar"] metrics "levelvar" (Ls.map e.levelVarAt) vs (.ok (e.levelVariance 0.5 20 50 (some Ls))) (levelvar Ls) (fun _ => rfl) (fun _ => h)
    (fun _ => by simp [hl, h2]) hm ⟨metrics, ["levelvar"], fun _ _ => none⟩ rfl
  refine ⟨t, ?_, fun m hmm => ?_⟩
  · simp only [ensembleCompare, Bind.bind, Except.bind]
    rw [show block junk ["levelvar"] metrics "nnsd" _ _ _ = .ok ⟨metrics, ["levelvar"], fun _ _ => none⟩ from by simp [block]]
    simp only
    rw [show block junk ["levelvar"] metrics "nnnsd" _ _ _ = .ok ⟨metrics, ["levelvar"], fun _ _ => none⟩ from by simp [block]]
    simp only
    rw [show block junk ["levelvar"] metrics "rigidity" _ _ _ = .ok ⟨metrics, ["levelvar"], fun _ _ => none⟩ from by simp [block]]
    exact d1
  · rw [d4 "levelvar" m (by simp) hmm, if_pos ⟨rfl, by simp⟩, metricOf_fn m (hm m hmm) _ vs Ls.length hl]

theorem rigidity_table (kde : List ℝ → List ℝ → List ℝ) (rigidity levelvar : List ℝ → Py (List ℝ)) (junk : String → String → List ℝ) (hj : ∀ a b, (junk a b).length = 1) (e : Ens) (vals : List ℝ)
    (metrics : List String) (hm : ∀ m ∈ metrics, ValidMetric m) (range : ℝ × ℝ) (g : Nat) (Ls Ll vs : List ℝ) (h : rigidity Ls = .ok vs) (hl : vs.length = Ls.length) (h2 : 2 ≤ Ls.length) :
    ∃ t, ensembleCompare kde rigidity levelvar junk e vals ["rigidity"] metrics range g Ls Ll = .ok t ∧
      ∀ m ∈ metrics, t.cell "rigidity" m = some (metricFn m (Ls.map e.rigidityAt) Ls.length (asFun Ls.length vs)) := by
  obtain ⟨t, d1, -, -, d4⟩ := block_ok junk hj ["rigidity"] metrics "rigidity" (Ls.map e.rigidityAt) vs (.ok (e.spectralRigidity 0.5 20 50 (some Ls))) (rigidity Ls) (fun _ => rfl) (fun _ => h)
    (fun _ => by simp [hl, h2]) hm ⟨metrics, ["rigidity"], fun _ _ => none⟩ rfl
  refine ⟨t, ?_, fun m hmm => ?_⟩
  · simp only [ensembleCompare, Bind.bind, Except.bind]
    rw [show block junk ["rigidity"] metrics "nnsd" _ _ _ = .ok ⟨metrics, ["rigidity"], fun _ _ => none⟩ from by simp [block]]
    simp only
    rw [show block junk ["rigidity"] metrics "nnnsd" _ _ _ = .ok ⟨metrics, ["rigidity"], fun _ _ => none⟩ from by simp [block]]
    simp only
    rw [d1]
    simp [block]
  · rw [d4 "rigidity" m (by simp) hmm, if_pos ⟨rfl, by simp⟩, metricOf_fn m (hm m hmm) _ vs Ls.length hl]

/-- **C174 (level variance).** `ensemble_compare` of one generated Poisson spectrum, unfolded exactly, with any ensemble: with probability tending to 1 the spectrum is such that, almost surely over the window
centres, every cell of the column "levelvar" computed with sufficiently many iterations is within `ε` of the metric between the ensemble's curve and the curve of `Poisson` at the same `L`. For "corr" the
window lengths must not be all equal. -/
theorem C174_level_variance (R : Rng σ) (eh : EigSolver) (ehC : (n : Nat) → Matrix (Fin n) (Fin n) ℂ → List ℝ) (P : ℕ → Measure Ω) [∀ n, IsProbabilityMeasure (P n)] (e s : ℕ → Ω → σ)
    (hX : ∀ n, NormalDraws (P n) fun k ω => draw R (e n ω) k) (tri : Bool) {Ω' : Type} [MeasurableSpace Ω'] (Q : Measure Ω') [IsProbabilityMeasure Q] (Ls : List ℝ) (hL : ∀ l ∈ Ls, 0 ≤ l)
    (Up : Nat → ℝ) (U : Nat → Nat → Ω' → ℝ) (hU : ∀ i, UniformDraws Q (U i)) (junk : Nat) (h2 : 2 ≤ Ls.length)
    (ens : Ens) (metrics : List String) (hm : ∀ m ∈ metrics, ValidMetric m) (hc : "corr" ∈ metrics → ∃ a ∈ Ls, ∃ b ∈ Ls, a ≠ b) (ε : ℝ) (hε : 0 < ε) :
    ∃ vals : ℕ → Ω → List ℝ, (∀ n, GeneratedVals R eh ehC n .poisson tri (e n) (s n) (vals n)) ∧
      Tendsto (fun n => P n {ω | ¬ ∀ᵐ ω' ∂Q, ∃ M : Nat, ∀ (order : List Nat) (tol : ℝ) (maxIters : Int), order.Perm (List.range Ls.length) → 0 < maxIters →
        ∃ vs conv iters, levelNumberVariance order (normalUnfold n (vals n ω)) Ls tol maxIters Up (fun i j => U i j ω') junk = .ok (Ls, vs, conv, iters) ∧ iters.length = Ls.length ∧ (tol ≤ 0 → ∀ k ∈ iters, maxIters ≤ k) ∧
          ((∀ k ∈ iters, M ≤ k) → ∀ (kde : List ℝ → List ℝ → List ℝ) (other : List ℝ → Py (List ℝ)) (mem : String → String → List ℝ), (∀ a b, (mem a b).length = 1) → ∀ (range : ℝ × ℝ) (g : Nat) (Lo : List ℝ),
            ∃ t, ensembleCompare kde other (fun L => (levelNumberVariance order (normalUnfold n (vals n ω)) L tol maxIters Up (fun i j => U i j ω') junk).map (·.2.1)) mem ens (normalUnfold n (vals n ω)) ["levelvar"] metrics range g Lo Ls = .ok t ∧
              ∀ m ∈ metrics, ∃ v limit, t.cell "levelvar" m = some v ∧ metricOf m (Ls.map ens.levelVarAt) (Ls.map poissonLevelVar) = some limit ∧ |v - limit| < ε)}) atTop (𝓝 0) := by
  have hnc : "corr" ∈ metrics → NonConstant (asFun Ls.length (Ls.map poissonLevelVar)) := by
    intro h
    obtain ⟨a, ha, b, hb, hab⟩ := hc h
    obtain ⟨i, hi, rfl⟩ := List.getElem_of_mem ha
    obtain ⟨j, hj, rfl⟩ := List.getElem_of_mem hb
    refine ⟨⟨i, hi⟩, ⟨j, hj⟩, ?_⟩
    simp only [asFun, List.getD_eq_getElem?_getD, List.getElem?_map, List.getElem?_eq_getElem hi, List.getElem?_eq_getElem hj, Option.map_some, Option.getD_some, poissonLevelVar]
    exact hab
  obtain ⟨vals, hv, h⟩ := levelvar_near R eh ehC P e s hX tri Q Ls hL Up U hU junk _ (metrics_near (Ls.map ens.levelVarAt) Ls.length _ metrics hm hnc ε hε)
  refine ⟨vals, hv, tendsto_of_tendsto_of_tendsto_of_le_of_le tendsto_const_nhds h (fun n => zero_le) fun n => measure_mono fun ω hω hcon => hω ?_⟩
  filter_upwards [hcon] with ω' hω'
  obtain ⟨M, hM⟩ := hω'
  refine ⟨M, fun order tol maxIters ho hmx => ?_⟩
  obtain ⟨vs, conv, iters, e1, e2, e3, et, e4⟩ := hM order tol maxIters ho hmx
  refine ⟨vs, conv, iters, e1, e3, et, fun hk kde other mem hj range g Lo => ?_⟩
  obtain ⟨t, t1, t2⟩ := levelvar_table kde other (fun L => (levelNumberVariance order (normalUnfold n (vals n ω)) L tol maxIters Up (fun i j => U i j ω') junk).map (·.2.1)) mem hj ens (normalUnfold n (vals n ω)) metrics hm range g Lo Ls vs (by rw [e1]; rfl) e2 h2
  exact ⟨t, t1, fun m hmm => ⟨_, _, t2 m hmm, metricOf_fn m (hm m hmm) _ (Ls.map poissonLevelVar) Ls.length (by simp), e4 hk m hmm⟩⟩

/-- **C174 (rigidity).** The same for the column "rigidity", computed on a sufficiently fine grid. -/
theorem C174_rigidity (R : Rng σ) (eh : EigSolver) (ehC : (n : Nat) → Matrix (Fin n) (Fin n) ℂ → List ℝ) (P : ℕ → Measure Ω) [∀ n, IsProbabilityMeasure (P n)] (e s : ℕ → Ω → σ)
    (hX : ∀ n, NormalDraws (P n) fun k ω => draw R (e n ω) k) (tri : Bool) {Ω' : Type} [MeasurableSpace Ω'] (Q : Measure Ω') [IsProbabilityMeasure Q] (Ls : List ℝ) (hL : ∀ l ∈ Ls, 0 < l)
    (integration : String) (Up : Nat → ℝ) (U : Nat → Nat → Ω' → ℝ) (hU : ∀ i, UniformDraws Q (U i)) (h2 : 2 ≤ Ls.length)
    (ens : Ens) (metrics : List String) (hm : ∀ m ∈ metrics, ValidMetric m) (hc : "corr" ∈ metrics → ∃ a ∈ Ls, ∃ b ∈ Ls, a ≠ b) (ε : ℝ) (hε : 0 < ε) :
    ∃ vals : ℕ → Ω → List ℝ, (∀ n, GeneratedVals R eh ehC n .poisson tri (e n) (s n) (vals n)) ∧
      Tendsto (fun n => P n {ω | ¬ ∃ G : Nat, ∀ gridsize, G ≤ gridsize → ∀ᵐ ω' ∂Q, ∃ M : Nat, ∀ (order : List Nat) (tol : ℝ) (maxIters : Int), order.Perm (List.range Ls.length) → 0 < maxIters →
        ∃ vs conv iters, spectralRigidity order (normalUnfold n (vals n ω)) Ls tol maxIters gridsize integration Up (fun i j => U i j ω') = .ok (Ls, vs, conv, iters) ∧ iters.length = Ls.length ∧ (tol ≤ 0 → ∀ k ∈ iters, maxIters ≤ k) ∧
          ((∀ k ∈ iters, M ≤ k) → ∀ (kde : List ℝ → List ℝ → List ℝ) (other : List ℝ → Py (List ℝ)) (mem : String → String → List ℝ), (∀ a b, (mem a b).length = 1) → ∀ (range : ℝ × ℝ) (g : Nat) (Lo : List ℝ),
            ∃ t, ensembleCompare kde (fun L => (spectralRigidity order (normalUnfold n (vals n ω)) L tol maxIters gridsize integration Up (fun i j => U i j ω')).map (·.2.1)) other mem ens (normalUnfold n (vals n ω)) ["rigidity"] metrics range g Ls Lo = .ok t ∧
              ∀ m ∈ metrics, ∃ v limit, t.cell "rigidity" m = some v ∧ metricOf m (Ls.map ens.rigidityAt) (Ls.map poissonRigidity) = some limit ∧ |v - limit| < ε)}) atTop (𝓝 0) := by
  have hnc : "corr" ∈ metrics → NonConstant (asFun Ls.length (Ls.map poissonRigidity)) := by
    intro h
    obtain ⟨a, ha, b, hb, hab⟩ := hc h
    obtain ⟨i, hi, rfl⟩ := List.getElem_of_mem ha
    obtain ⟨j, hj, rfl⟩ := List.getElem_of_mem hb
    refine ⟨⟨i, hi⟩, ⟨j, hj⟩, ?_⟩
    simp only [asFun, List.getD_eq_getElem?_getD, List.getElem?_map, List.getElem?_eq_getElem hi, List.getElem?_eq_getElem hj, Option.map_some, Option.getD_some, poissonRigidity]
    intro h; exact hab (by linarith)
  obtain ⟨vals, hv, h⟩ := rigidity_near R eh ehC P e s hX tri Q Ls hL integration Up U hU _ (metrics_near (Ls.map ens.rigidityAt) Ls.length _ metrics hm hnc ε hε)
  refine ⟨vals, hv, tendsto_of_tendsto_of_tendsto_of_le_of_le tendsto_const_nhds h (fun n => zero_le) fun n => measure_mono fun ω hω hcon => hω ?_⟩
  obtain ⟨G, hG⟩ := hcon
  refine ⟨G, fun gridsize hg => ?_⟩
  filter_upwards [hG gridsize hg] with ω' hω'
  obtain ⟨M, hM⟩ := hω'
  refine ⟨M, fun order tol maxIters ho hmx => ?_⟩
  obtain ⟨vs, conv, iters, e1, e2, e3, et, e4⟩ := hM order tol maxIters ho hmx
  refine ⟨vs, conv, iters, e1, e3, et, fun hk kde other mem hj range g Lo => ?_⟩
  obtain ⟨t, t1, t2⟩ := rigidity_table kde (fun L => (spectralRigidity order (normalUnfold n (vals n ω)) L tol maxIters gridsize integration Up (fun i j => U i j ω')).map (·.2.1)) other mem hj ens (normalUnfold n (vals n ω)) metrics hm range g Ls Lo vs (by rw [e1]; rfl) e2 h2
  exact ⟨t, t1, fun m hmm => ⟨_, _, t2 m hmm, metricOf_fn m (hm m hmm) _ (Ls.map poissonRigidity) Ls.length (by simp), e4 hk m hmm⟩⟩

/-- **C174 (limits for Poisson).** The limits for `Poisson` itself are 0 for "mad" and "msqd", and 1 for "corr". -/
theorem C174_limits (Ls : List ℝ) (hd : ∃ a ∈ Ls, ∃ b ∈ Ls, a ≠ b) (curve : ℝ → ℝ) (hcurve : curve = poissonLevelVar ∨ curve = poissonRigidity) :
    metricOf "mad" (Ls.map curve) (Ls.map curve) = some 0 ∧ metricOf "msqd" (Ls.map curve) (Ls.map curve) = some 0 ∧ metricOf "corr" (Ls.map curve) (Ls.map curve) = some 1 := by
  refine ⟨?_, ?_, ?_⟩
  · rw [metricOf_fn _ (by simp [ValidMetric]) _ _ Ls.length (by simp), metricFn_self _ _ _ (by simp)]
  · rw [metricOf_fn _ (by simp [ValidMetric]) _ _ Ls.length (by simp), metricFn_self _ _ _ (by simp)]
  · have hl : (Ls.map curve).length = Ls.length := by simp
    simp only [metricOf]
    rw [if_neg (by decide), if_neg (by decide), if_pos trivial, hl, pearson_self]
    obtain ⟨a, ha, b, hb, hab⟩ := hd
    obtain ⟨i, hi, rfl⟩ := List.getElem_of_mem ha
    obtain ⟨j, hj, rfl⟩ := List.getElem_of_mem hb
    refine ⟨⟨i, hi⟩, ⟨j, hj⟩, ?_⟩
    simp only [asFun, List.getD_eq_getElem?_getD, List.getElem?_map, List.getElem?_eq_getElem hi, List.getElem?_eq_getElem hj, Option.map_some, Option.getD_some]
    rcases hcurve with rfl | rfl
    · exact hab
    · intro h
      simp only [poissonRigidity] at h
      exact hab (by linarith)

/-- **C174 (ranking by the level variance).** With three different window lengths, with probability tending to 1 the spectrum is such that, almost surely over the window centres, `ensemble_compare` with
"mad" or "msqd" and sufficiently many iterations gives `Poisson` a smaller value than every other ensemble. -/
theorem C174_ranks_level_variance (R : Rng σ) (eh : EigSolver) (ehC : (n : Nat) → Matrix (Fin n) (Fin n) ℂ → List ℝ) (P : ℕ → Measure Ω) [∀ n, IsProbabilityMeasure (P n)] (e s : ℕ → Ω → σ)
    (hX : ∀ n, NormalDraws (P n) fun k ω => draw R (e n ω) k) (tri : Bool) {Ω' : Type} [MeasurableSpace Ω'] (Q : Measure Ω') [IsProbabilityMeasure Q] (Ls : List ℝ) (hL : ∀ l ∈ Ls, 0 < l)
    (Up : Nat → ℝ) (U : Nat → Nat → Ω' → ℝ) (hU : ∀ i, UniformDraws Q (U i)) (junk : Nat) (x y z : ℝ) (hx : x ∈ Ls) (hy : y ∈ Ls) (hz : z ∈ Ls) (hxy : x < y) (hyz : y < z) :
    ∃ vals : ℕ → Ω → List ℝ, (∀ n, GeneratedVals R eh ehC n .poisson tri (e n) (s n) (vals n)) ∧
      Tendsto (fun n => P n {ω | ¬ ∀ᵐ ω' ∂Q, ∃ M : Nat, ∀ (order : List Nat) (tol : ℝ) (maxIters : Int), order.Perm (List.range Ls.length) → 0 < maxIters →
        ∃ vs conv iters, levelNumberVariance order (normalUnfold n (vals n ω)) Ls tol maxIters Up (fun i j => U i j ω') junk = .ok (Ls, vs, conv, iters) ∧ iters.length = Ls.length ∧ (tol ≤ 0 → ∀ k ∈ iters, maxIters ≤ k) ∧
          ((∀ k ∈ iters, M ≤ k) → ∀ (kde : List ℝ → List ℝ → List ℝ) (other : List ℝ → Py (List ℝ)) (mem : String → String → List ℝ), (∀ a b, (mem a b).length = 1) → ∀ (range : ℝ × ℝ) (g : Nat) (Lo : List ℝ),
            ∀ ens, ens ≠ .poisson → ∀ metrics : List String, (∀ m ∈ metrics, m = "mad" ∨ m = "msqd") →
            ∃ t t', ensembleCompare kde other (fun L => (levelNumberVariance order (normalUnfold n (vals n ω)) L tol maxIters Up (fun i j => U i j ω') junk).map (·.2.1)) mem .poisson (normalUnfold n (vals n ω)) ["levelvar"] metrics range g Lo Ls = .ok t ∧
              ensembleCompare kde other (fun L => (levelNumberVariance order (normalUnfold n (vals n ω)) L tol maxIters Up (fun i j => U i j ω') junk).map (·.2.1)) mem ens (normalUnfold n (vals n ω)) ["levelvar"] metrics range g Lo Ls = .ok t' ∧
              ∀ m ∈ metrics, ∃ v v', t.cell "levelvar" m = some v ∧ t'.cell "levelvar" m = some v' ∧ v < v')}) atTop (𝓝 0) := by
  have h2 : 2 ≤ Ls.length := by
    by_contra h
    rcases Ls with _ | ⟨a, _ | ⟨b, r⟩⟩
    · simp at hx
    · simp at hx hy; linarith
    · simp at h
  obtain ⟨vals, hv, h⟩ := levelvar_near R eh ehC P e s hX tri Q Ls (fun l hl => (hL l hl).le) Up U hU junk _
    (rank_near Ens.levelVarAt 1 (fun L => by simp [Ens.levelVarAt, poissonLevelVar]) levelVar_log Ls hL x y z hx hy hz hxy hyz)
  refine ⟨vals, hv, tendsto_of_tendsto_of_tendsto_of_le_of_le tendsto_const_nhds h (fun n => zero_le) fun n => measure_mono fun ω hω hcon => hω ?_⟩
  filter_upwards [hcon] with ω' hω'
  obtain ⟨M, hM⟩ := hω'
  refine ⟨M, fun order tol maxIters ho hmx => ?_⟩
  obtain ⟨vs, conv, iters, e1, e2, e3, et, e4⟩ := hM order tol maxIters ho hmx
  refine ⟨vs, conv, iters, e1, e3, et, fun hk kde other mem hj range g Lo ens he metrics hmet => ?_⟩
  have hval : ∀ m ∈ metrics, ValidMetric m := fun m hmm => by rcases hmet m hmm with rfl | rfl <;> simp [ValidMetric]
  obtain ⟨t, t1, t2⟩ := levelvar_table kde other (fun L => (levelNumberVariance order (normalUnfold n (vals n ω)) L tol maxIters Up (fun i j => U i j ω') junk).map (·.2.1)) mem hj .poisson (normalUnfold n (vals n ω)) metrics hval range g Lo Ls vs (by rw [e1]; rfl) e2 h2
  obtain ⟨t', t1', t2'⟩ := levelvar_table kde other (fun L => (levelNumberVariance order (normalUnfold n (vals n ω)) L tol maxIters Up (fun i j => U i j ω') junk).map (·.2.1)) mem hj ens (normalUnfold n (vals n ω)) metrics hval range g Lo Ls vs (by rw [e1]; rfl) e2 h2
  exact ⟨t, t', t1, t1', fun m hmm => ⟨_, _, t2 m hmm, t2' m hmm, e4 hk ens he m (hmet m hmm)⟩⟩

/-- **C174 (ranking by the rigidity).** The same for the rigidity on a sufficiently fine grid. -/
theorem C174_ranks_rigidity (R : Rng σ) (eh : EigSolver) (ehC : (n : Nat) → Matrix (Fin n) (Fin n) ℂ → List ℝ) (P : ℕ → Measure Ω) [∀ n, IsProbabilityMeasure (P n)] (e s : ℕ → Ω → σ)
    (hX : ∀ n, NormalDraws (P n) fun k ω => draw R (e n ω) k) (tri : Bool) {Ω' : Type} [MeasurableSpace Ω'] (Q : Measure Ω') [IsProbabilityMeasure Q] (Ls : List ℝ) (hL : ∀ l ∈ Ls, 0 < l)
    (integration : String) (Up : Nat → ℝ) (U : Nat → Nat → Ω' → ℝ) (hU : ∀ i, UniformDraws Q (U i)) (x y z : ℝ) (hx : x ∈ Ls) (hy : y ∈ Ls) (hz : z ∈ Ls) (hxy : x < y) (hyz : y < z) :
    ∃ vals : ℕ → Ω → List ℝ, (∀ n, GeneratedVals R eh ehC n .poisson tri (e n) (s n) (vals n)) ∧
      Tendsto (fun n => P n {ω | ¬ ∃ G : Nat, ∀ gridsize, G ≤ gridsize → ∀ᵐ ω' ∂Q, ∃ M : Nat, ∀ (order : List Nat) (tol : ℝ) (maxIters : Int), order.Perm (List.range Ls.length) → 0 < maxIters →
        ∃ vs conv iters, spectralRigidity order (normalUnfold n (vals n ω)) Ls tol maxIters gridsize integration Up (fun i j => U i j ω') = .ok (Ls, vs, conv, iters) ∧ iters.length = Ls.length ∧ (tol ≤ 0 → ∀ k ∈ iters, maxIters ≤ k) ∧
          ((∀ k ∈ iters, M ≤ k) → ∀ (kde : List ℝ → List ℝ → List ℝ) (other : List ℝ → Py (List ℝ)) (mem : String → String → List ℝ), (∀ a b, (mem a b).length = 1) → ∀ (range : ℝ × ℝ) (g : Nat) (Lo : List ℝ),
            ∀ ens, ens ≠ .poisson → ∀ metrics : List String, (∀ m ∈ metrics, m = "mad" ∨ m = "msqd") →
            ∃ t t', ensembleCompare kde (fun L => (spectralRigidity order (normalUnfold n (vals n ω)) L tol maxIters gridsize integration Up (fun i j => U i j ω')).map (·.2.1)) other mem .poisson (normalUnfold n (vals n ω)) ["rigidity"] metrics range g Ls Lo = .ok t ∧
              ensembleCompare kde (fun L => (spectralRigidity order (normalUnfold n (vals n ω)) L tol maxIters gridsize integration Up (fun i j => U i j ω')).map (·.2.1)) other mem ens (normalUnfold n (vals n ω)) ["rigidity"] metrics range g Ls Lo = .ok t' ∧
              ∀ m ∈ metrics, ∃ v v', t.cell "rigidity" m = some v ∧ t'.cell "rigidity" m = some v' ∧ v < v')}) atTop (𝓝 0) := by
  have h2 : 2 ≤ Ls.length := by
    by_contra h
    rcases Ls with _ | ⟨a, _ | ⟨b, r⟩⟩
    · simp at hx
    · simp at hx hy; linarith
    · simp at h
  obtain ⟨vals, hv, h⟩ := rigidity_near R eh ehC P e s hX tri Q Ls hL integration Up U hU _
    (rank_near Ens.rigidityAt (1 / 15) (fun L => by simp only [Ens.rigidityAt, poissonRigidity]; ring) rigidity_log Ls hL x y z hx hy hz hxy hyz)
  refine ⟨vals, hv, tendsto_of_tendsto_of_tendsto_of_le_of_le tendsto_const_nhds h (fun n => zero_le) fun n => measure_mono fun ω hω hcon => hω ?_⟩
  obtain ⟨G, hG⟩ := hcon
  refine ⟨G, fun gridsize hg => ?_⟩
  filter_upwards [hG gridsize hg] with ω' hω'
  obtain ⟨M, hM⟩ := hω'
  refine ⟨M, fun order tol maxIters ho hmx => ?_⟩
  obtain ⟨vs, conv, iters, e1, e2, e3, et, e4⟩ := hM order tol maxIters ho hmx
  refine ⟨vs, conv, iters, e1, e3, et, fun hk kde other mem hj range g Lo ens he metrics hmet => ?_⟩
  have hval : ∀ m ∈ metrics, ValidMetric m := fun m hmm => by rcases hmet m hmm with rfl | rfl <;> simp [ValidMetric]
  obtain ⟨t, t1, t2⟩ := rigidity_table kde (fun L => (spectralRigidity order (normalUnfold n (vals n ω)) L tol maxIters gridsize integration Up (fun i j => U i j ω')).map (·.2.1)) other mem hj .poisson (normalUnfold n (vals n ω)) metrics hval range g Ls Lo vs (by rw [e1]; rfl) e2 h2
  obtain ⟨t', t1', t2'⟩ := rigidity_table kde (fun L => (spectralRigidity order (normalUnfold n (vals n ω)) L tol maxIters gridsize integration Up (fun i j => U i j ω')).map (·.2.1)) other mem hj ens (normalUnfold n (vals n ω)) metrics hval range g Ls Lo vs (by rw [e1]; rfl) e2 h2
  exact ⟨t, t', t1, t1', fun m hmm => ⟨_, _, t2 m hmm, t2' m hmm, e4 hk ens he m (hmet m hmm)⟩⟩

/-! ## The hypotheses can be met -/

-- independent standard normal streams, window lengths 1, 2 and 5, all metrics, compared with the GOE
example (eh : EigSolver) (ehC : (n : Nat) → Matrix (Fin n) (Fin n) ℂ → List ℝ) (ε : ℝ) (hε : 0 < ε) :
    ∃ (Ω' : Type) (_ : MeasurableSpace Ω') (Q : Measure Ω') (_ : IsProbabilityMeasure Q) (U : Nat → Nat → Ω' → ℝ) (vals : ℕ → (ℕ → ℝ) → List ℝ), (∀ i, UniformDraws Q (U i)) ∧
      (∀ n, GeneratedVals streamRng eh ehC n .poisson false id id (vals n)) := by
  obtain ⟨Ω', _, Q, _, U, hU⟩ := draws_exist
  have hc : "corr" ∈ ["mad", "msqd", "corr"] → ∃ a ∈ ([1, 2, 5] : List ℝ), ∃ b ∈ ([1, 2, 5] : List ℝ), a ≠ b := fun _ => ⟨1, by simp, 2, by simp, by norm_num⟩
  obtain ⟨vals, h1, -⟩ := C174_level_variance streamRng eh ehC (fun _ => Measure.infinitePi fun _ : ℕ => gaussianReal 0 1) (fun _ => id) (fun _ => id) (fun _ => stream_draws) false Q [1, 2, 5]
    (by simp) (fun _ => 0) U hU 0 (by simp) .goe ["mad", "msqd", "corr"] (by simp [ValidMetric]) hc ε hε
  obtain ⟨-, -, -⟩ := C174_rigidity streamRng eh ehC (fun _ => Measure.infinitePi fun _ : ℕ => gaussianReal 0 1) (fun _ => id) (fun _ => id) (fun _ => stream_draws) false Q [1, 2, 5]
    (by simp) "simps" (fun _ => 0) U hU (by simp) .goe ["mad", "msqd", "corr"] (by simp [ValidMetric]) hc ε hε
  obtain ⟨-, -, -⟩ := C174_ranks_level_variance streamRng eh ehC (fun _ => Measure.infinitePi fun _ : ℕ => gaussianReal 0 1) (fun _ => id) (fun _ => id) (fun _ => stream_draws) false Q [1, 2, 5]
    (by simp) (fun _ => 0) U hU 0 1 2 5 (by simp) (by simp) (by simp) (by norm_num) (by norm_num)
  obtain ⟨-, -, -⟩ := C174_ranks_rigidity streamRng eh ehC (fun _ => Measure.infinitePi fun _ : ℕ => gaussianReal 0 1) (fun _ => id) (fun _ => id) (fun _ => stream_draws) false Q [1, 2, 5]
    (by simp) "simps" (fun _ => 0) U hU 1 2 5 (by simp) (by simp) (by simp) (by norm_num) (by norm_num)
  exact ⟨Ω', _, Q, inferInstance, U, vals, hU, h1⟩

end Props
end RMT
