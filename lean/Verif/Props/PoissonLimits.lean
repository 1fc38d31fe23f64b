import Verif.Props.PoissonCurves
import Verif.Props.Mean3
import Verif.Lemmas.RigidityKernel

/-!
# Property C155: the observables of large Poisson spectra

The library's estimators of the level number variance and the spectral rigidity, applied to the levels of `generate(n, "poisson")` unfolded exactly, tend to the curves of `Poisson`.
-/

namespace RMT
namespace Props
open Gen EigValsM EigM Unfold MeasureTheory ProbabilityTheory Spec UniformM Ensembles Rigidity LevelVar
open Real Set Filter Topology

variable {σ Ω : Type} [MeasurableSpace Ω]

/-- The unfolded levels in the order in which they were drawn. -/
noncomputable def drawn (R : Rng σ) (e : ℕ → Ω → σ) (n : ℕ) (k : Nat) (ω : Ω) : ℝ := (n : ℝ) * Phi (draw R (e n ω) k)

theorem drawn_uniform (R : Rng σ) (P : ℕ → Measure Ω) (e : ℕ → Ω → σ) (hX : ∀ n, NormalDraws (P n) fun k ω => draw R (e n ω) k) :
    (∀ n : ℕ, 0 < n → UniformLevels (P n) n (drawn R e n)) ∧ ∀ n k, Measurable (drawn R e n k) :=
  ⟨fun n hn => uniform_of_normal (hX n) n hn, fun n k => ((Phi_mono.measurable).comp ((hX n).measurable k)).const_mul _⟩

omit [MeasurableSpace Ω] in
theorem drawn_mem (R : Rng σ) (e : ℕ → Ω → σ) (n : ℕ) (ω : Ω) (x : ℝ) : x ∈ normalUnfold n (poissonVals R (e n) n ω) ↔ ∃ j < n, drawn R e n j ω = x := by
  rw [(poisson_unfolded R (e n) n ω).2.mem_iff]
  simp [drawn]

theorem drawn_ends (R : Rng σ) (P : ℕ → Measure Ω) [∀ n, IsProbabilityMeasure (P n)] (e : ℕ → Ω → σ) (hX : ∀ n, NormalDraws (P n) fun k ω => draw R (e n ω) k) (lo hi : ℕ → Ω → ℝ)
    (hlo : ∀ n ω, 0 < n → Spec.IsMin (normalUnfold n (poissonVals R (e n) n ω)) (lo n ω)) (hhi : ∀ n ω, 0 < n → Spec.IsMax (normalUnfold n (poissonVals R (e n) n ω)) (hi n ω)) :
    ∀ᶠ n : ℕ in atTop, ∀ᵐ ω ∂(P n), 0 ≤ lo n ω ∧ lo n ω < hi n ω ∧ hi n ω ≤ n ∧ ∀ j < n, lo n ω ≤ drawn R e n j ω ∧ drawn R e n j ω ≤ hi n ω := by
  filter_upwards [eventually_ge_atTop 2] with n hn
  filter_upwards [levels_distinct ((drawn_uniform R P e hX).1 n (by omega))] with ω ⟨h1, h2⟩
  obtain ⟨l1, l2⟩ := hlo n ω (by omega)
  obtain ⟨u1, u2⟩ := hhi n ω (by omega)
  have hj : ∀ j < n, lo n ω ≤ drawn R e n j ω ∧ drawn R e n j ω ≤ hi n ω := fun j hj =>
    ⟨l2 _ ((drawn_mem R e n ω _).mpr ⟨j, hj, rfl⟩), u2 _ ((drawn_mem R e n ω _).mpr ⟨j, hj, rfl⟩)⟩
  obtain ⟨a, ha, ea⟩ := (drawn_mem R e n ω _).mp l1
  obtain ⟨b, hb, eb⟩ := (drawn_mem R e n ω _).mp u1
  refine ⟨by rw [← ea]; exact (h1 a).1.le, ?_, by rw [← eb]; exact (h1 b).2, hj⟩
  have d := h2 0 1 (by omega)
  have j0 := hj 0 (by omega)
  have j1 := hj 1 (by omega)
  rcases lt_or_gt_of_ne d with h | h <;> linarith

omit [MeasurableSpace Ω] in
theorem levelsIn_near (R : Rng σ) (e : ℕ → Ω → σ) (n : ℕ) (ω : Ω) (L c : ℝ) :
    levelsIn (normalUnfold n (poissonVals R (e n) n ω)) L c = ∑ j ∈ Finset.range n, near (L / 2) c (drawn R e n j ω) := by
  rw [levelsIn, countIn, poisson_count R (e n) n ω fun z => c - L / 2 ≤ z ∧ z ≤ c + L / 2]
  push_cast
  refine Finset.sum_congr rfl fun k _ => ?_
  unfold near drawn
  congr 1
  rw [abs_le]
  exact propext ⟨fun h => ⟨by linarith, by linarith⟩, fun h => ⟨by linarith, by linarith⟩⟩

/-- The number variance is the mean square minus the square of the mean. -/
theorem numberVariance_eq (levels : List ℝ) (lo hi L : ℝ) :
    numberVariance levels lo hi L = Spec.average lo hi (fun c => levelsIn levels L c ^ 2) - Spec.average lo hi (levelsIn levels L) ^ 2 := by
  obtain ⟨h1, h2⟩ := nWithin_measurable levels L
  have e : levelsIn levels L = fun c => (nWithin levels L c : ℝ) := funext fun c => levelsIn_eq levels L c
  have hm : Measurable (levelsIn levels L) := by rw [e]; exact h1
  have hb : ∃ B, ∀ c, |levelsIn levels L c| ≤ B := ⟨_, by rw [e]; exact h2⟩
  obtain ⟨B, hB⟩ := hb
  have hi1 : ∀ x y, IntervalIntegrable (levelsIn levels L) volume x y := fun x y => by
    have : ∀ S : Set ℝ, volume S < ⊤ → IntegrableOn (levelsIn levels L) S := fun S hv =>
      Measure.integrableOn_of_bounded hv.ne hm.aestronglyMeasurable (M := B) (Eventually.of_forall hB)
    exact ⟨this _ (by simp), this _ (by simp)⟩
  have hi2 : ∀ x y, IntervalIntegrable (fun c => levelsIn levels L c ^ 2) volume x y := fun x y => by
    have : ∀ S : Set ℝ, volume S < ⊤ → IntegrableOn (fun c => levelsIn levels L c ^ 2) S := fun S hv =>
      Measure.integrableOn_of_bounded hv.ne (hm.pow_const 2).aestronglyMeasurable (M := B ^ 2) (Eventually.of_forall fun c => by
        rw [Real.norm_eq_abs, abs_pow]; exact pow_le_pow_left₀ (abs_nonneg _) (hB c) 2)
    exact ⟨this _ (by simp), this _ (by simp)⟩
  unfold numberVariance
  by_cases h : lo = hi
  · subst h
    simp [Spec.average]
  · set m := Spec.average lo hi (levelsIn levels L) with hmdef
    have hm1 : 1 / (hi - lo) * ∫ c in lo..hi, levelsIn levels L c = m := by rw [hmdef, Spec.average, if_neg h]
    rw [Spec.average, if_neg h, Spec.average, if_neg h]
    have e1 : ∀ c, (levelsIn levels L c - m) ^ 2 = levelsIn levels L c ^ 2 - 2 * m * levelsIn levels L c + m ^ 2 := fun c => by ring
    simp only [e1]
    rw [intervalIntegral.integral_add ((hi2 lo hi).sub ((hi1 lo hi).const_mul _)) intervalIntegrable_const, intervalIntegral.integral_sub (hi2 lo hi) ((hi1 lo hi).const_mul _),
      intervalIntegral.integral_const_mul, intervalIntegral.integral_const, smul_eq_mul]
    have hne : hi - lo ≠ 0 := sub_ne_zero.mpr (Ne.symm h)
    have hm2 : ∫ c in lo..hi, levelsIn levels L c = m * (hi - lo) := by
      rw [← hm1]; field_simp
    rw [hm2]
    field_simp
    ring

/-- **C155 (level number variance).** The number variance, over all windows of length `L` between the least and the greatest level, of the levels of `generate(n, "poisson")`, unfolded exactly,
tends in probability to the value `Poisson.level_variance` gives for `L`. -/
theorem C155_variance (R : Rng σ) (eh : EigSolver) (ehC : (n : Nat) → Matrix (Fin n) (Fin n) ℂ → List ℝ) (P : ℕ → Measure Ω) [∀ n, IsProbabilityMeasure (P n)] (e s : ℕ → Ω → σ)
    (hX : ∀ n, NormalDraws (P n) fun k ω => draw R (e n ω) k) (tri : Bool) :
    ∃ vals : ℕ → Ω → List ℝ, (∀ n, GeneratedVals R eh ehC n .poisson tri (e n) (s n) (vals n)) ∧
      ∀ L : ℝ, 0 ≤ L → ∀ lo hi : ℕ → Ω → ℝ, (∀ n ω, 0 < n → Spec.IsMin (normalUnfold n (vals n ω)) (lo n ω)) → (∀ n ω, 0 < n → Spec.IsMax (normalUnfold n (vals n ω)) (hi n ω)) →
        InProbability P (fun n ω => numberVariance (normalUnfold n (vals n ω)) (lo n ω) (hi n ω) L) (poissonLevelVar L) := by
  refine ⟨fun n => poissonVals R (e n) n, fun n => poissonVals_generated R eh ehC (e n) (s n) n tri, fun L hL lo hi hlo hhi => ?_⟩
  obtain ⟨hY, hY0⟩ := drawn_uniform R P e hX
  obtain ⟨c1, c2⟩ := counts_limit hY hY0 L hL lo hi (drawn_ends R P e hX lo hi hlo hhi)
  have h3 := inProb_map3 _ _ _ _ _ 0 c2 c1 (inProb_const 0) (fun p : ℝ × ℝ × ℝ => p.1 - p.2.1 ^ 2) (by fun_prop)
  simp only [add_sub_cancel_right] at h3
  simp only [numberVariance_eq, poissonLevelVar]
  have e1 : ∀ n ω, levelsIn (normalUnfold n (poissonVals R (e n) n ω)) L = fun c => ∑ j ∈ Finset.range n, near (L / 2) c (drawn R e n j ω) := fun n ω => funext fun c => levelsIn_near R e n ω L c
  simp only [e1]
  exact h3

/-- The Dyson-Mehta statistic is the rigidity of the counting function over the window. -/
theorem dysonMehta_eq (levels : List ℝ) (L c d : ℝ) (h : IsDysonMehta levels L c d) : d = delta3 (fun t => (countLE levels t : ℝ)) (c - L / 2) (c + L / 2) := by
  rw [← h.csInf_eq, delta3]
  show sInf (range _) = sInf (range _)
  congr 1
  congr 1
  funext p
  unfold lineDeviation deviation
  have e1 : c + L / 2 - (c - L / 2) = L := by ring
  rw [e1]
  congr 1
  refine intervalIntegral.integral_congr fun t _ => ?_
  ring

omit [MeasurableSpace Ω] in
theorem counting_stairs (R : Rng σ) (e : ℕ → Ω → σ) (n : ℕ) (ω : Ω) : (fun t => (countLE (normalUnfold n (poissonVals R (e n) n ω)) t : ℝ)) = stairs (drawn R e n) n ω := by
  funext t
  rw [countLE, poisson_count R (e n) n ω fun z => z ≤ t]
  push_cast
  rfl

/-- **C155 (rigidity).** The average of the Dyson-Mehta statistic over all windows of length `L` between the least and the greatest level tends in probability to the value
`Poisson.spectral_rigidity` gives for `L`. -/
theorem C155_rigidity (R : Rng σ) (eh : EigSolver) (ehC : (n : Nat) → Matrix (Fin n) (Fin n) ℂ → List ℝ) (P : ℕ → Measure Ω) [∀ n, IsProbabilityMeasure (P n)] (e s : ℕ → Ω → σ)
    (hX : ∀ n, NormalDraws (P n) fun k ω => draw R (e n ω) k) (tri : Bool) :
    ∃ vals : ℕ → Ω → List ℝ, (∀ n, GeneratedVals R eh ehC n .poisson tri (e n) (s n) (vals n)) ∧
      ∀ L : ℝ, 0 < L → ∀ lo hi : ℕ → Ω → ℝ, (∀ n ω, 0 < n → Spec.IsMin (normalUnfold n (vals n ω)) (lo n ω)) → (∀ n ω, 0 < n → Spec.IsMax (normalUnfold n (vals n ω)) (hi n ω)) →
        ∀ Δ : ℕ → Ω → ℝ → ℝ, (∀ n ω c, 0 < n → IsDysonMehta (normalUnfold n (vals n ω)) L c (Δ n ω c)) →
          InProbability P (fun n ω => Spec.average (lo n ω) (hi n ω) (Δ n ω)) (poissonRigidity L) := by
  refine ⟨fun n => poissonVals R (e n) n, fun n => poissonVals_generated R eh ehC (e n) (s n) n tri, fun L hL lo hi hlo hhi Δ hΔ => ?_⟩
  obtain ⟨hY, hY0⟩ := drawn_uniform R P e hX
  have h := rigidity_limit hY hY0 L hL lo hi (drawn_ends R P e hX lo hi hlo hhi)
  refine inProb_congr' _ _ _ ?_ h
  filter_upwards [eventually_gt_atTop 0] with n hn
  refine Eventually.of_forall fun ω => ?_
  have : Δ n ω = fun c => delta3 (stairs (drawn R e n) n ω) (c - L / 2) (c + L / 2) := by
    funext c
    rw [dysonMehta_eq _ _ _ _ (hΔ n ω c hn), counting_stairs]
  rw [this]

theorem tendsto_union (P : ℕ → Measure Ω) (Ls : List ℝ) (E : ℝ → ℕ → Set Ω) (h : ∀ L ∈ Ls, Tendsto (fun n => P n (E L n)) atTop (𝓝 0)) :
    Tendsto (fun n => P n {ω | ∃ L ∈ Ls, ω ∈ E L n}) atTop (𝓝 0) := by
  classical
  have h1 : Tendsto (fun n => ∑ L ∈ Ls.toFinset, P n (E L n)) atTop (𝓝 0) := by
    have := tendsto_finsetSum (f := fun L n => P n (E L n)) (a := fun _ => 0) Ls.toFinset fun L hL => h L (List.mem_toFinset.mp hL)
    simpa using this
  refine tendsto_of_tendsto_of_tendsto_of_le_of_le tendsto_const_nhds h1 (fun n => zero_le) fun n => ?_
  refine le_trans (measure_mono fun ω hω => ?_) (measure_biUnion_finset_le Ls.toFinset fun L => E L n)
  obtain ⟨L, hL, hω⟩ := hω
  simp only [mem_iUnion]
  exact ⟨L, List.mem_toFinset.mpr hL, hω⟩

omit [MeasurableSpace Ω] in
theorem unfolded_ne (R : Rng σ) (e : ℕ → Ω → σ) (n : ℕ) (hn : 0 < n) (ω : Ω) : normalUnfold n (poissonVals R (e n) n ω) ≠ [] := by
  refine List.ne_nil_of_mem ((drawn_mem R e n ω (drawn R e n 0 ω)).mpr ⟨0, hn, rfl⟩)

theorem ends_exist (l : ℕ → Ω → List ℝ) (hl : ∀ n ω, 0 < n → l n ω ≠ []) : ∃ lo hi : ℕ → Ω → ℝ, (∀ n ω, 0 < n → Spec.IsMin (l n ω) (lo n ω)) ∧ ∀ n ω, 0 < n → Spec.IsMax (l n ω) (hi n ω) := by
  have h : ∀ n ω, ∃ x y, 0 < n → Spec.IsMin (l n ω) x ∧ Spec.IsMax (l n ω) y := fun n ω => by
    by_cases hn : 0 < n
    · obtain ⟨x, hx⟩ := exists_isMin (l n ω) (hl n ω hn)
      obtain ⟨y, hy⟩ := exists_isMax (l n ω) (hl n ω hn)
      exact ⟨x, y, fun _ => ⟨hx, hy⟩⟩
    · exact ⟨0, 0, fun h => absurd h hn⟩
  choose lo hi h using h
  exact ⟨lo, hi, fun n ω hn => (h n ω hn).1, fun n ω hn => (h n ω hn).2⟩

omit [MeasurableSpace Ω] in
/-- The generated levels are determined by the call. -/
theorem generated_unique (R : Rng σ) (eh : EigSolver) (ehC : (n : Nat) → Matrix (Fin n) (Fin n) ℂ → List ℝ) (n : Nat) (k : MatrixKind) (tri : Bool) (e s : Ω → σ) (v v' : Ω → List ℝ)
    (h : GeneratedVals R eh ehC n k tri e s v) (h' : GeneratedVals R eh ehC n k tri e s v') : v = v' := by
  funext ω
  obtain ⟨o, h1, h2⟩ := h ω
  obtain ⟨o', h1', h2'⟩ := h' ω
  rw [h1] at h1'
  injection h1' with h1'
  rw [← h2, ← h2', (Prod.mk.inj h1').1]

/-- **C155 (level_number_variance).** For every list of window lengths and every `ε > 0`, the spectra for which `level_number_variance` does not come within `ε` of the curve of `Poisson.level_variance` become
improbable: for all others, with probability one over the window centres, every result obtained with sufficiently many iterations is within `ε` of the curve, for every tolerance, budget and execution order. -/
theorem C155_level_number_variance (R : Rng σ) (eh : EigSolver) (ehC : (n : Nat) → Matrix (Fin n) (Fin n) ℂ → List ℝ) (P : ℕ → Measure Ω) [∀ n, IsProbabilityMeasure (P n)] (e s : ℕ → Ω → σ)
    (hX : ∀ n, NormalDraws (P n) fun k ω => draw R (e n ω) k) (tri : Bool) {Ω' : Type} [MeasurableSpace Ω'] (Q : Measure Ω') [IsProbabilityMeasure Q] (Ls : List ℝ) (hL : ∀ l ∈ Ls, 0 ≤ l)
    (Up : Nat → ℝ) (U : Nat → Nat → Ω' → ℝ) (hU : ∀ i, UniformDraws Q (U i)) (junk : Nat) (ε : ℝ) (hε : 0 < ε) :
    ∃ vals : ℕ → Ω → List ℝ, (∀ n, GeneratedVals R eh ehC n .poisson tri (e n) (s n) (vals n)) ∧
      Tendsto (fun n => P n {ω | ¬ ∀ᵐ ω' ∂Q, ∃ M : Nat, ∀ (order : List Nat) (tol : ℝ) (maxIters : Int), order.Perm (List.range Ls.length) → 0 < maxIters →
        ∃ vs conv iters, levelNumberVariance order (normalUnfold n (vals n ω)) Ls tol maxIters Up (fun i j => U i j ω') junk = .ok (Ls, vs, conv, iters) ∧
          vs.length = Ls.length ∧ iters.length = Ls.length ∧
          ∀ i (h : i < Ls.length) (h1 : i < vs.length) (h2 : i < iters.length), (M ≤ iters[i] → |vs[i] - poissonLevelVar Ls[i]| < ε) ∧ (tol ≤ 0 → maxIters ≤ iters[i])}) atTop (𝓝 0) := by
  obtain ⟨lo, hi, hlo, hhi⟩ := ends_exist (fun n ω => normalUnfold n (poissonVals R (e n) n ω)) fun n ω hn => unfolded_ne R e n hn ω
  refine ⟨fun n => poissonVals R (e n) n, fun n => poissonVals_generated R eh ehC (e n) (s n) n tri, ?_⟩
  have hlim : ∀ L ∈ Ls, Tendsto (fun n => P n {ω | ε / 2 ≤ |numberVariance (normalUnfold n (poissonVals R (e n) n ω)) (lo n ω) (hi n ω) L - poissonLevelVar L|}) atTop (𝓝 0) := by
    intro L hLm
    obtain ⟨hY, hY0⟩ := drawn_uniform R P e hX
    obtain ⟨vals, hv, h⟩ := C155_variance R eh ehC P e s hX tri
    have : vals = fun n => poissonVals R (e n) n :=
      funext fun n => generated_unique R eh ehC n _ tri (e n) (s n) _ _ (hv n) (poissonVals_generated R eh ehC (e n) (s n) n tri)
    subst this
    exact h L (hL L hLm) lo hi hlo hhi (ε / 2) (by positivity)
  have hu := tendsto_union P Ls (fun L n => {ω | ε / 2 ≤ |numberVariance (normalUnfold n (poissonVals R (e n) n ω)) (lo n ω) (hi n ω) L - poissonLevelVar L|}) hlim
  refine tendsto_of_tendsto_of_tendsto_of_le_of_le' tendsto_const_nhds hu (Eventually.of_forall fun n => zero_le) ?_
  filter_upwards [eventually_gt_atTop 0] with n hn
  refine measure_mono fun ω hω => ?_
  by_contra hc
  have hc' : ∀ L ∈ Ls, |numberVariance (normalUnfold n (poissonVals R (e n) n ω)) (lo n ω) (hi n ω) L - poissonLevelVar L| < ε / 2 := by
    intro L hLm
    by_contra h
    exact hc ⟨L, hLm, not_lt.mp h⟩
  refine hω ?_
  filter_upwards [C115_consistent Q (normalUnfold n (poissonVals R (e n) n ω)) (lo n ω) (hi n ω) (hlo n ω hn) (hhi n ω hn) Ls Up U hU junk] with ω' hω'
  obtain ⟨M, hM⟩ := hω' (ε / 2) (by positivity)
  refine ⟨M, fun order tol maxIters ho hm => ?_⟩
  obtain ⟨vs, conv, iters, e1, e2, e3, e4⟩ := hM order tol maxIters ho hm
  refine ⟨vs, conv, iters, e1, e2, e3, fun i h h1 h2 => ⟨fun hk => ?_, (e4 i h h1 h2).2⟩⟩
  have a1 := (e4 i h h1 h2).1 hk
  have a2 := hc' Ls[i] (List.getElem_mem h)
  have a3 := abs_sub_le vs[i] (numberVariance (normalUnfold n (poissonVals R (e n) n ω)) (lo n ω) (hi n ω) Ls[i]) (poissonLevelVar Ls[i])
  linarith

/-- **C155 (spectral_rigidity).** The same for `spectral_rigidity` and the curve of `Poisson.spectral_rigidity`, for both integration rules and every sufficiently fine grid. -/
theorem C155_spectral_rigidity (R : Rng σ) (eh : EigSolver) (ehC : (n : Nat) → Matrix (Fin n) (Fin n) ℂ → List ℝ) (P : ℕ → Measure Ω) [∀ n, IsProbabilityMeasure (P n)] (e s : ℕ → Ω → σ)
    (hX : ∀ n, NormalDraws (P n) fun k ω => draw R (e n ω) k) (tri : Bool) {Ω' : Type} [MeasurableSpace Ω'] (Q : Measure Ω') [IsProbabilityMeasure Q] (Ls : List ℝ) (hL : ∀ l ∈ Ls, 0 < l)
    (integration : String) (Up : Nat → ℝ) (U : Nat → Nat → Ω' → ℝ) (hU : ∀ i, UniformDraws Q (U i)) (ε : ℝ) (hε : 0 < ε) :
    ∃ vals : ℕ → Ω → List ℝ, (∀ n, GeneratedVals R eh ehC n .poisson tri (e n) (s n) (vals n)) ∧
      Tendsto (fun n => P n {ω | ¬ ∃ G : Nat, ∀ gridsize, G ≤ gridsize → ∀ᵐ ω' ∂Q, ∃ M : Nat, ∀ (order : List Nat) (tol : ℝ) (maxIters : Int), order.Perm (List.range Ls.length) → 0 < maxIters →
        ∃ vs conv iters, spectralRigidity order (normalUnfold n (vals n ω)) Ls tol maxIters gridsize integration Up (fun i j => U i j ω') = .ok (Ls, vs, conv, iters) ∧
          vs.length = Ls.length ∧ iters.length = Ls.length ∧
          ∀ i (h : i < Ls.length) (h1 : i < vs.length) (h2 : i < iters.length), (M ≤ iters[i] → |vs[i] - poissonRigidity Ls[i]| < ε) ∧ (tol ≤ 0 → maxIters ≤ iters[i])}) atTop (𝓝 0) := by
  refine ⟨fun n => poissonVals R (e n) n, fun n => poissonVals_generated R eh ehC (e n) (s n) n tri, ?_⟩
  set l : ℕ → Ω → List ℝ := fun n ω => normalUnfold n (poissonVals R (e n) n ω) with hl
  have hne : ∀ n ω, 0 < n → l n ω ≠ [] := fun n ω hn => unfolded_ne R e n hn ω
  have hs : ∀ n ω, Ascending (l n ω) := fun n ω => (poisson_unfolded R (e n) n ω).1
  have hex : ∀ (n : ℕ) (ω : Ω) (L c : ℝ), ∃ d, 0 < n → 0 < L → IsDysonMehta (l n ω) L c d := by
    intro n ω L c
    by_cases h : 0 < n ∧ 0 < L
    · obtain ⟨A, B, h1, -⟩ := C107_sample (l n ω) (hne n ω h.1) (hs n ω) L c h.2
      refine ⟨lineDeviation (l n ω) L c A B, fun _ _ => ⟨⟨(A, B), rfl⟩, ?_⟩⟩
      rintro _ ⟨p, rfl⟩
      exact h1 p.1 p.2
    · exact ⟨0, fun h1 h2 => absurd ⟨h1, h2⟩ h⟩
  choose Δ hΔ using hex
  have hends : ∀ n ω, ∃ x y, ∀ hn : 0 < n, x = (l n ω).head (hne n ω hn) ∧ y = (l n ω).getLast (hne n ω hn) := fun n ω => by
    by_cases hn : 0 < n
    · exact ⟨(l n ω).head (hne n ω hn), (l n ω).getLast (hne n ω hn), fun _ => ⟨rfl, rfl⟩⟩
    · exact ⟨0, 0, fun h => absurd h hn⟩
  choose lo hi hends using hends
  have hlo : ∀ n ω, 0 < n → Spec.IsMin (l n ω) (lo n ω) := fun n ω hn => by
    rw [(hends n ω hn).1]
    refine ⟨List.head_mem _, fun x hx => ?_⟩
    have h1 := hs n ω
    obtain ⟨a, t, ht⟩ := List.exists_cons_of_ne_nil (hne n ω hn)
    simp only [ht, List.head_cons] at h1 hx ⊢
    rcases List.mem_cons.mp hx with rfl | hx
    · exact le_rfl
    · exact (List.pairwise_cons.mp h1).1 x hx
  have hhi : ∀ n ω, 0 < n → Spec.IsMax (l n ω) (hi n ω) := fun n ω hn => by
    rw [(hends n ω hn).2]
    refine ⟨List.getLast_mem _, fun x hx => ?_⟩
    have h1 := hs n ω
    unfold Ascending at h1
    have h2 := List.dropLast_append_getLast (hne n ω hn)
    rw [← h2, List.pairwise_append] at h1
    rw [← h2, List.mem_append] at hx
    rcases hx with hx | hx
    · exact h1.2.2 x hx _ (by simp)
    · rw [List.mem_singleton.mp hx]
  have hlim : ∀ L ∈ Ls, Tendsto (fun n => P n {ω | ε / 2 ≤ |Spec.average (lo n ω) (hi n ω) (Δ n ω L) - poissonRigidity L|}) atTop (𝓝 0) := by
    intro L hLm
    obtain ⟨vals, hv, h⟩ := C155_rigidity R eh ehC P e s hX tri
    have : vals = fun n => poissonVals R (e n) n :=
      funext fun n => generated_unique R eh ehC n _ tri (e n) (s n) _ _ (hv n) (poissonVals_generated R eh ehC (e n) (s n) n tri)
    subst this
    exact h L (hL L hLm) lo hi hlo hhi (fun n ω => Δ n ω L) (fun n ω c hn => hΔ n ω L c hn (hL L hLm)) (ε / 2) (by positivity)
  have hu := tendsto_union P Ls (fun L n => {ω | ε / 2 ≤ |Spec.average (lo n ω) (hi n ω) (Δ n ω L) - poissonRigidity L|}) hlim
  refine tendsto_of_tendsto_of_tendsto_of_le_of_le' tendsto_const_nhds hu (Eventually.of_forall fun n => zero_le) ?_
  filter_upwards [eventually_gt_atTop 0] with n hn
  refine measure_mono fun ω hω => ?_
  by_contra hc
  have hc' : ∀ L ∈ Ls, |Spec.average (lo n ω) (hi n ω) (Δ n ω L) - poissonRigidity L| < ε / 2 := by
    intro L hLm
    by_contra h
    exact hc ⟨L, hLm, not_lt.mp h⟩
  refine hω ?_
  obtain ⟨G, hG⟩ := C116_rigidity Q (l n ω) (hne n ω hn) (hs n ω) Ls hL integration Up U hU (Δ n ω) (fun L hLm c => hΔ n ω L c hn (hL L hLm)) (ε / 2) (by positivity)
  refine ⟨G, fun gridsize hg => ?_⟩
  filter_upwards [hG gridsize hg] with ω' hω'
  obtain ⟨M, hM⟩ := hω'
  refine ⟨M, fun order tol maxIters ho hm => ?_⟩
  obtain ⟨vs, conv, iters, e1, e2, e3, e4⟩ := hM order tol maxIters ho hm
  refine ⟨vs, conv, iters, e1, e2, e3, fun i h h1 h2 => ⟨fun hk => ?_, (e4 i h h1 h2).2⟩⟩
  have a1 := (e4 i h h1 h2).1 hk
  have a2 := hc' Ls[i] (List.getElem_mem h)
  rw [← (hends n ω hn).1, ← (hends n ω hn).2] at a1
  have a3 := abs_sub_le vs[i] (Spec.average (lo n ω) (hi n ω) (Δ n ω Ls[i])) (poissonRigidity Ls[i])
  linarith

/-! ## The hypotheses can be met -/

-- independent standard normal streams, window lengths 1, 2 and 5
example (eh : EigSolver) (ehC : (n : Nat) → Matrix (Fin n) (Fin n) ℂ → List ℝ) (ε : ℝ) (hε : 0 < ε) :
    ∃ (Ω' : Type) (_ : MeasurableSpace Ω') (Q : Measure Ω') (_ : IsProbabilityMeasure Q) (U : Nat → Nat → Ω' → ℝ) (vals : ℕ → (ℕ → ℝ) → List ℝ), (∀ i, UniformDraws Q (U i)) ∧
      (∀ n, GeneratedVals streamRng eh ehC n .poisson false id id (vals n)) := by
  obtain ⟨Ω', _, Q, _, U, hU⟩ := draws_exist
  obtain ⟨vals, h1, -⟩ := C155_spectral_rigidity streamRng eh ehC (fun _ => Measure.infinitePi fun _ : ℕ => gaussianReal 0 1) (fun _ => id) (fun _ => id) (fun _ => stream_draws) false Q [1, 2, 5]
    (by simp) "simps" (fun _ => 0) U hU ε hε
  obtain ⟨-, -, -⟩ := C155_level_number_variance streamRng eh ehC (fun _ => Measure.infinitePi fun _ : ℕ => gaussianReal 0 1) (fun _ => id) (fun _ => id) (fun _ => stream_draws) false Q [1, 2, 5]
    (by simp) (fun _ => 0) U hU 0 ε hε
  exact ⟨Ω', _, Q, inferInstance, U, vals, hU, h1⟩

end Props
end RMT
