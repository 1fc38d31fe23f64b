import Verif.Lemmas.Lag
import Verif.Lemmas.PlotData
import Verif.Lemmas.Numeric
import Verif.Props.Ensemble

/-!
# Properties C90, C91: what the plots show and return
-/

namespace RMT
namespace Props
open PlotData Ensembles EnsembleCmp EigValsM Spec Real MeasureTheory Set Topology
open Filter (Tendsto atTop Eventually)

theorem trimSpacings_eq (d : List ℝ) (trim : ℝ) : trimSpacings d trim = d.filter fun s => decide (trim ≤ 0 ∨ s ≤ trim) := by
  unfold trimSpacings
  split
  · rename_i h
    apply List.filter_congr
    intro x _
    simp [not_le.mpr h]
  · rename_i h
    symm
    rw [List.filter_eq_self]
    intro x _
    simp [not_lt.mp h]

/-! ## C90 -/

/-- **C90 (spacings).** The density drawn for each ensemble is the density of the ensemble class at the same spacing. -/
theorem C90_spacing_formula (e : Ens) (s : ℝ) : spacingFormula e s = e.density s := by
  cases e <;> simp only [spacingFormula, Ens.density, poissonDensity, goeDensity, gueDensity, gseDensity]
  norm_num

/-- **C90 (spacings).** The spacing plot of a spectrum succeeds if some spacing is kept. It shows the kept spacings in the histogram: those at most `trim` if `trim` is positive, otherwise all;
for each requested ensemble the curve of the ensemble class, over the range of the kept spacings; the density estimate is that of the positive spacings, kept or all, if there are any. -/
theorem C90_spacings (fit : String → List ℝ → Py ℝ) (u : List ℝ) (trim : ℝ) (kde trimKde : Bool) (bf : String) (ens : List String)
    (kept : List ℝ) (hkept : kept = (diff (npSort u)).filter fun s => decide (trim ≤ 0 ∨ s ≤ trim)) :
    (kept = [] → plotSpacings fit u trim kde trimKde false bf ens = .error .valueError) ∧
    (kept ≠ [] → ∃ p, plotSpacings fit u trim kde trimKde false bf ens = .ok p ∧ p.hist = kept ∧ p.brody = none ∧
      (∀ e c, (e, c) ∈ p.theory → ensName e ∈ ens ∧ c.x.length = 10000 ∧ c.y = e.nnsd (0, 3) 1000 (some c.x) ∧
        ∃ lo hi, lo ∈ kept ∧ hi ∈ kept ∧ (∀ s ∈ kept, lo ≤ s ∧ s ≤ hi) ∧ c.x = linspace lo hi 10000) ∧
      (∀ e, ensName e ∈ ens → ∃ c, (e, c) ∈ p.theory) ∧
      (∀ v, p.kdeFit = some v → kde = true ∧ v ≠ [] ∧ v = (if trimKde then kept else diff (npSort u)).filter fun s => decide (0 < s))) := by
  have hk := trimSpacings_eq (diff (npSort u)) trim
  rw [← hkept] at hk
  constructor
  · intro h
    simp only [plotSpacings, hk, h, npMin, bind, Except.bind]
  · intro h
    obtain ⟨a, l, hal⟩ := List.exists_cons_of_ne_nil h
    have hmin : npMin kept = .ok (minOf a l) := by rw [hal]; rfl
    have hmax : npMax kept = .ok (maxOf a l) := by rw [hal]; rfl
    refine ⟨⟨kept, (([Ens.poisson, .goe, .gue, .gse].filter fun e => decide (ensName e ∈ ens)).map fun e => (e, (⟨linspace (minOf a l) (maxOf a l) 10000, (linspace (minOf a l) (maxOf a l) 10000).map (spacingFormula e)⟩ : Curve))),
      (if kde then (if trimKde then kdeInput kept else kdeInput (diff (npSort u))) else none), none⟩, ?_, rfl, rfl, ?_, ?_, ?_⟩
    · simp only [plotSpacings, hk, hmin, hmax, bind, Except.bind, pure, Except.pure, Bool.false_eq_true, if_false]
    · intro e c hc
      simp only [List.mem_map, List.mem_filter, decide_eq_true_eq, Prod.mk.injEq] at hc
      obtain ⟨e', ⟨-, h2⟩, rfl, rfl⟩ := hc
      refine ⟨h2, by dsimp only; rw [length_linspace], ?_, minOf a l, maxOf a l, ?_⟩
      · rw [C65_explicit]
        simp only
        apply List.map_congr_left
        intro s _
        exact C90_spacing_formula e' s
      · rw [hal]
        exact ⟨minOf_mem a l, maxOf_mem a l, fun s hs => ⟨minOf_le a l s hs, le_maxOf a l s hs⟩, by dsimp only⟩
    · intro e he
      refine ⟨_, List.mem_map.mpr ⟨e, List.mem_filter.mpr ⟨?_, by simpa using he⟩, rfl⟩⟩
      cases e <;> simp
    · intro v hv
      simp only at hv
      cases kde with
      | false => simp at hv
      | true =>
        have : ∀ s : List ℝ, kdeInput s = some v → v ≠ [] ∧ v = s.filter fun x => decide (0 < x) := by
          intro s hs
          unfold kdeInput at hs
          split at hs
          · cases hs
          · rename_i hall
            have := Option.some.inj hs
            refine ⟨?_, this.symm⟩
            rw [← this]
            intro hnil
            apply hall
            rw [List.all_eq_true]
            intro x hx
            rw [decide_eq_true_eq]
            have := (List.filter_eq_nil_iff.mp hnil) x hx
            simpa using this
        refine ⟨rfl, ?_⟩
        cases trimKde
        · exact this _ (by simpa using hv)
        · exact this _ (by simpa using hv)

example : ∃ p, plotSpacings (fun _ _ => .ok 0) [0, 1, 9] 5 true false false "mle" ["goe"] = .ok p ∧ p.hist = [1] := by
  have hs : npSort [0, 1, (9 : ℝ)] = [0, 1, 9] := npSort_of_ascending _ (by norm_num [Ascending])
  have hk : (diff (npSort [0, 1, (9 : ℝ)])).filter (fun s => decide ((5 : ℝ) ≤ 0 ∨ s ≤ 5)) = [1] := by
    rw [hs]; norm_num [diff, List.filter]
  obtain ⟨p, h1, h2, -⟩ := (C90_spacings (fun _ _ => .ok 0) [0, 1, 9] 5 true false "mle" ["goe"] [1] hk.symm).2 (by simp)
  exact ⟨p, h1, h2⟩

/-- **C90 (Brody curve).** The Brody curve is that of the parameter fitted to the kept spacings by the default method. -/
theorem C90_brody_partial (fit : String → List ℝ → Py ℝ) (u : List ℝ) (trim : ℝ) (kde trimKde : Bool) (bf : String) (ens : List String)
    (kept : List ℝ) (hkept : kept = (diff (npSort u)).filter fun s => decide (trim ≤ 0 ∨ s ≤ trim)) (hne : kept ≠ []) :
    (∀ beta, fit "spacing" kept = .ok beta → ∃ p c, plotSpacings fit u trim kde trimKde true bf ens = .ok p ∧ p.brody = some c ∧
      c.x.length = 10000 ∧ c.y = c.x.map fun s => brodyDist s beta) ∧
    (∀ err, fit "spacing" kept = .error err → plotSpacings fit u trim kde trimKde true bf ens = .error err) := by
  have hk := trimSpacings_eq (diff (npSort u)) trim
  rw [← hkept] at hk
  obtain ⟨a, l, hal⟩ := List.exists_cons_of_ne_nil hne
  have hmin : npMin kept = .ok (minOf a l) := by rw [hal]; rfl
  have hmax : npMax kept = .ok (maxOf a l) := by rw [hal]; rfl
  constructor
  · intro beta hb
    refine ⟨⟨kept, (([Ens.poisson, .goe, .gue, .gse].filter fun e => decide (ensName e ∈ ens)).map fun e => (e, (⟨linspace (minOf a l) (maxOf a l) 10000, (linspace (minOf a l) (maxOf a l) 10000).map (spacingFormula e)⟩ : Curve))),
      (if kde then (if trimKde then kdeInput kept else kdeInput (diff (npSort u))) else none), some ⟨linspace (minOf a l) (maxOf a l) 10000, (linspace (minOf a l) (maxOf a l) 10000).map fun s => brodyDist s beta⟩⟩,
      ⟨linspace (minOf a l) (maxOf a l) 10000, (linspace (minOf a l) (maxOf a l) 10000).map fun s => brodyDist s beta⟩, ?_, ?_, by dsimp only; rw [length_linspace], by dsimp only⟩
    · simp only [plotSpacings, hk, hmin, hmax, hb, bind, Except.bind, pure, Except.pure, if_true]
    · rfl
  · intro err hb
    simp only [plotSpacings, hk, hmin, hmax, hb, bind, Except.bind, pure, Except.pure, if_true]

/-- **C90 is false of the argument `brody_fit`.** The requested method has no influence on either spacing plot: a plot with "mle" draws the curve of the "spacing" estimate, also if the estimates differ. -/
theorem C90_brody_refuted :
    (∀ fit u trim kde trimKde brody (bf bf' : String) ens,
      plotSpacings fit u trim kde trimKde brody bf ens = plotSpacings fit u trim kde trimKde brody bf' ens ∧
      plotNextSpacings fit u trim kde trimKde brody bf ens = plotNextSpacings fit u trim kde trimKde brody bf' ens) ∧
    ∃ (fit : String → List ℝ → Py ℝ) (p : SpacingPlot) (c : Curve), fit "mle" p.hist = .ok 1 ∧
      plotSpacings fit [0, 1, 3] 0 false false true "mle" [] = .ok p ∧ p.brody = some c ∧ c.y = c.x.map (fun s => brodyDist s 0) := by
  refine ⟨fun _ _ _ _ _ _ _ _ _ => ⟨rfl, rfl⟩, ?_⟩
  have hs : npSort [0, 1, (3 : ℝ)] = [0, 1, 3] := npSort_of_ascending _ (by norm_num [Ascending])
  have hne : (diff (npSort [0, 1, (3 : ℝ)])).filter (fun s => decide ((0 : ℝ) ≤ 0 ∨ s ≤ 0)) ≠ [] := by
    rw [hs]; simp [diff]
  obtain ⟨p, c, h1, h2, -, h4⟩ := (C90_brody_partial (fun m _ => .ok (if m = "mle" then 1 else 0)) [0, 1, 3] 0 false false "mle" [] _ rfl hne).1 0 (by simp)
  exact ⟨_, p, c, by simp, h1, h2, h4⟩

/-- **C90 (next-nearest neighbours).** The plot shows the halved lag-2 spacings (kept ones), the curves are those of the ensemble classes for these halved spacings, in the order GOE, Poisson; other ensembles are
not drawn. -/
theorem C90_next_spacings (fit : String → List ℝ → Py ℝ) (u : List ℝ) (trim : ℝ) (kde trimKde : Bool) (bf : String) (ens : List String)
    (kept : List ℝ) (hkept : kept = (npSort ((Spec.lagTwo u).map fun d => d / 2)).filter fun s => decide (trim ≤ 0 ∨ s ≤ trim)) :
    (kept = [] → plotNextSpacings fit u trim kde trimKde false bf ens = .error .valueError) ∧
    (kept ≠ [] → ∃ p, plotNextSpacings fit u trim kde trimKde false bf ens = .ok p ∧ p.hist = kept ∧ p.brody = none ∧
      (∀ e c, (e, c) ∈ p.theory → ensName e ∈ ens ∧ (e = .goe ∨ e = .poisson) ∧ .ok c.y = e.nnnsd (0, 3) 1000 (some c.x) ∧ c.x.length = 10000) ∧
      (∀ e, e = .goe ∨ e = .poisson → ensName e ∈ ens → ∃ c, (e, c) ∈ p.theory)) := by
  rw [← lag2_eq] at hkept
  have hk := trimSpacings_eq (npSort ((lag2 u).map fun d => d / 2)) trim
  rw [← hkept] at hk
  constructor
  · intro h
    simp only [plotNextSpacings, hk, h, npMin, bind, Except.bind]
  · intro h
    obtain ⟨a, l, hal⟩ := List.exists_cons_of_ne_nil h
    have hmin : npMin kept = .ok (minOf a l) := by rw [hal]; rfl
    have hmax : npMax kept = .ok (maxOf a l) := by rw [hal]; rfl
    refine ⟨⟨kept, (if "goe" ∈ ens then [(Ens.goe, (⟨linspace (minOf a l) (maxOf a l) 10000, goeNnnsd (0, 3) 1000 (some (linspace (minOf a l) (maxOf a l) 10000))⟩ : Curve))] else []) ++
    (if "poisson" ∈ ens then [(Ens.poisson, (⟨linspace (minOf a l) (maxOf a l) 10000, poissonNnnsd (0, 4) 1000 (some (linspace (minOf a l) (maxOf a l) 10000))⟩ : Curve))] else []),
      (if kde then (if trimKde then kdeInput kept else kdeInput (npSort ((lag2 u).map fun d => d / 2))) else none), none⟩, ?_, rfl, rfl, ?_, ?_⟩
    · simp only [plotNextSpacings, hk, hmin, hmax, bind, Except.bind, pure, Except.pure, Bool.false_eq_true, if_false]
    · intro e c hc
      simp only [List.mem_append] at hc
      rcases hc with hc | hc
      · split at hc
        · rename_i hg
          simp only [List.mem_singleton, Prod.mk.injEq] at hc
          obtain ⟨rfl, rfl⟩ := hc
          exact ⟨hg, Or.inl rfl, by simp only [Ens.nnnsd, goeNnnsd], by dsimp only; rw [length_linspace]⟩
        · simp at hc
      · split at hc
        · rename_i hg
          simp only [List.mem_singleton, Prod.mk.injEq] at hc
          obtain ⟨rfl, rfl⟩ := hc
          exact ⟨hg, Or.inr rfl, by simp only [Ens.nnnsd, poissonNnnsd, gridOf], by dsimp only; rw [length_linspace]⟩
        · simp at hc
    · rintro e (rfl | rfl) he
      · have : "goe" ∈ ens := he
        exact ⟨_, List.mem_append.mpr (Or.inl (by rw [if_pos this]; exact List.mem_singleton.mpr rfl))⟩
      · have : "poisson" ∈ ens := he
        exact ⟨_, List.mem_append.mpr (Or.inr (by rw [if_pos this]; exact List.mem_singleton.mpr rfl))⟩

/-- The mean spacing of an array: the range divided by the number of spacings. -/
noncomputable def meanSpacing (u : List ℝ) : ℝ := (u.getLastD 0 - u.headD 0) / (u.length - 1)

theorem mean_lag1 (u : List ℝ) (h : 2 ≤ u.length) :
    mean (List.zipWith (fun a b => a - b) (u.drop 1) (u.take (u.length - 1))) = meanSpacing u := by
  have hz : ∀ (a : ℝ) (l : List ℝ), (List.zipWith (fun x y => x - y) l ((a :: l).take l.length)).sum = l.getLastD a - a := by
    intro a l
    induction l generalizing a with
    | nil => simp
    | cons b l ih =>
      have := ih b
      simp only [List.length_cons, List.take_succ_cons, List.zipWith_cons_cons, List.sum_cons]
      rw [this]
      have e : (b :: l).getLastD a = l.getLastD b := by cases l <;> rfl
      rw [e]; ring
  match u, h with
  | a :: l, h =>
    have hl : 1 ≤ l.length := by simpa using h
    unfold mean meanSpacing
    simp only [List.drop_succ_cons, List.drop_zero, List.length_cons, Nat.add_sub_cancel, List.headD_cons, hz]
    congr 1
    · match l, hl with
      | b :: l, _ => rfl
    · simp

/-- **C90 (rigidity).** The rigidity drawn at `L`: for Poisson the value of the ensemble class at `L`; for the others the value of the class at `L` divided by the mean spacing. So the drawn curves are those of
the ensemble classes if the mean spacing is 1. -/
theorem C90_rigidity_partial (e : Ens) (u : List ℝ) (h : 2 ≤ u.length) (L : ℝ) :
    rigidityFormula e L (scaledL u L) = (if e = .poisson then e.rigidityAt L else e.rigidityAt (L / meanSpacing u)) ∧
    (meanSpacing u = 1 → rigidityFormula e L (scaledL u L) = e.rigidityAt L) := by
  have h1 : rigidityFormula e L (scaledL u L) = (if e = .poisson then e.rigidityAt L else e.rigidityAt (L / meanSpacing u)) := by
    unfold scaledL
    rw [mean_lag1 u h]
    cases e <;> simp [rigidityFormula, Ens.rigidityAt, poissonRigidity, goeRigidity, gueRigidity, gseRigidity]
  refine ⟨h1, fun hm => ?_⟩
  rw [h1, hm, div_one, ite_self]

/-- **C90 (rigidity) is false for other mean spacings**: for `L > 0` and a positive mean spacing the curve drawn for GOE, GUE or GSE is the ensemble's value exactly if the mean spacing is 1. -/
theorem C90_rigidity_refuted (e : Ens) (he : e ≠ .poisson) (u : List ℝ) (h : 2 ≤ u.length) (hm : 0 < meanSpacing u) (L : ℝ) (hL : 0 < L) :
    rigidityFormula e L (scaledL u L) = e.rigidityAt L ↔ meanSpacing u = 1 := by
  refine ⟨fun heq => ?_, (C90_rigidity_partial e u h L).2⟩
  rw [(C90_rigidity_partial e u h L).1, if_neg he] at heq
  have hp := pi_pos
  have hlog : ∀ k : ℝ, 0 < k → log (k * (L / meanSpacing u)) = log (k * L) → meanSpacing u = 1 := by
    intro k hk hlog
    have := log_injOn_pos (by simp only [Set.mem_Ioi]; positivity) (by simp only [Set.mem_Ioi]; positivity) hlog
    have h2 : L / meanSpacing u = L := mul_left_cancel₀ hk.ne' this
    field_simp at h2
    nlinarith
  cases e with
  | poisson => exact absurd rfl he
  | goe =>
    simp only [Ens.rigidityAt, goeRigidity] at heq
    refine hlog (2 * π) (by positivity) ?_
    have := mul_left_cancel₀ (show (1 / π ^ 2 : ℝ) ≠ 0 by positivity) heq
    linarith
  | gue =>
    simp only [Ens.rigidityAt, gueRigidity] at heq
    refine hlog (2 * π) (by positivity) ?_
    have := mul_left_cancel₀ (show (1 / (2 * π ^ 2) : ℝ) ≠ 0 by positivity) heq
    linarith
  | gse =>
    simp only [Ens.rigidityAt, gseRigidity] at heq
    refine hlog (4 * π) (by positivity) ?_
    have := mul_left_cancel₀ (show (1 / (4 * π ^ 2) : ℝ) ≠ 0 by positivity) heq
    linarith

example : rigidityFormula .goe 5 (scaledL [0, 2, 4] 5) ≠ Ens.rigidityAt .goe 5 := by
  intro h
  have hm : meanSpacing [0, 2, 4] = 2 := by norm_num [meanSpacing]
  have := (C90_rigidity_refuted .goe (by decide) [0, 2, 4] (by simp) (by rw [hm]; norm_num) 5 (by norm_num)).mp h
  rw [hm] at this; norm_num at this

/-- **C90 (level variance).** For Poisson, GUE and GSE the drawn level variance is that of the ensemble class; for GOE it is that of the class from `L = 10` on and the exact formula below. The exact formula and the
class agree in the limit of large `L`, given that scipy's sine integral converges to its value at infinity and its cosine integral to 0. -/
theorem C90_level_variance (si ci : ℝ → ℝ) (siInf : ℝ) (hsi : Tendsto si atTop (𝓝 siInf)) (hci : Tendsto ci atTop (𝓝 0)) :
    (∀ e L, e ≠ .goe ∨ 10 ≤ L → levelVarFormula si ci siInf e L = e.levelVarAt L) ∧
    (∀ L < 10, levelVarFormula si ci siInf .goe L = goeExact si ci siInf L) ∧
    Tendsto (fun L => goeExact si ci siInf L - goeLevelVar L) atTop (𝓝 0) := by
  refine ⟨fun e L h => ?_, fun L h => by simp [levelVarFormula, h], ?_⟩
  · cases e with
    | poisson => rfl
    | goe =>
      have : ¬ L < 10 := by rcases h with h | h
                            · exact absurd rfl h
                            · exact not_lt.mpr h
      simp only [levelVarFormula, if_neg this, Ens.levelVarAt, goeLevelVar]
    | gue => rfl
    | gse => rfl
  · have hp := pi_pos
    have hpx : Tendsto (fun L : ℝ => π * L) atTop atTop := Filter.tendsto_id.const_mul_atTop hp
    have h2px : Tendsto (fun L : ℝ => 2 * π * L) atTop atTop := Filter.tendsto_id.const_mul_atTop (by positivity)
    have t1 : Tendsto (fun L => ((2 / π ^ 2) / 2) * (siInf - si (π * L)) ^ 2) atTop (𝓝 0) := by
      have := ((tendsto_const_nhds (x := siInf)).sub (hsi.comp hpx)).pow 2
      have := this.const_mul ((2 / π ^ 2) / 2)
      simpa using this
    have t2 : Tendsto (fun L => (2 / π ^ 2) * ci (2 * π * L)) atTop (𝓝 0) := by
      have := (hci.comp h2px).const_mul (2 / π ^ 2)
      simpa using this
    have t3 : Tendsto (fun L => (4 * L / π) * (∫ r in Ioi (π * L), (sin r / r) ^ 2) - 2 / π ^ 2) atTop (𝓝 0) := by
      have t4 : Tendsto (fun L : ℝ => 2 / (π ^ 3) * L⁻¹) atTop (𝓝 0) := by
        have := (tendsto_inv_atTop_zero (𝕜 := ℝ)).const_mul (2 / (π ^ 3))
        simpa using this
      refine squeeze_zero_norm' ?_ t4
      filter_upwards [Filter.eventually_gt_atTop 0] with L hL
      have hb := sinc_tail (π * L) (by positivity)
      have e1 : (4 * L / π) * (∫ r in Ioi (π * L), (sin r / r) ^ 2) - 2 / π ^ 2 =
          (4 * L / π) * ((∫ r in Ioi (π * L), (sin r / r) ^ 2) - 1 / (2 * (π * L))) := by
        field_simp
        ring
      rw [e1, norm_eq_abs, abs_mul, abs_of_pos (show (0 : ℝ) < 4 * L / π by positivity)]
      refine (mul_le_mul_of_nonneg_left hb (by positivity)).trans (le_of_eq ?_)
      field_simp
      ring
    have := (t3.sub t2).add t1
    simp only [sub_zero, add_zero] at this
    refine this.congr fun L => ?_
    unfold goeExact goeLevelVar
    field_simp
    ring

/-- **C90 (level variance, small `L`).** The exact curve starts at 0, given that the sine integral is continuous at 0 with value 0 and the cosine integral behaves as `γ + log z` near 0; `sici(np.inf)[0]` is `π / 2`. -/
theorem C90_level_variance_at_zero (si ci : ℝ → ℝ) (hsi : Tendsto si (𝓝[>] 0) (𝓝 0))
    (hci : Tendsto (fun z => eulerMascheroniConstant + log z - ci z) (𝓝[>] 0) (𝓝 0)) :
    Tendsto (goeExact si ci (π / 2)) (𝓝[>] 0) (𝓝 0) := by
  have hp := pi_pos
  have hint := intOn_sinc_sq_zero
  have hscale : ∀ k : ℝ, 0 < k → Tendsto (fun L : ℝ => k * L) (𝓝[>] 0) (𝓝[>] 0) := by
    intro k hk
    refine tendsto_nhdsWithin_iff.mpr ⟨?_, ?_⟩
    · have : Tendsto (fun L : ℝ => k * L) (𝓝 0) (𝓝 (k * 0)) := (continuous_const.mul continuous_id).tendsto 0
      rw [mul_zero] at this
      exact this.mono_left nhdsWithin_le_nhds
    · filter_upwards [self_mem_nhdsWithin] with L hL
      exact mul_pos hk hL
  have t1 : Tendsto (fun L => ((2 / π ^ 2) / 2) * (π / 2 - si (π * L)) ^ 2) (𝓝[>] 0) (𝓝 (((2 / π ^ 2) / 2) * (π / 2 - 0) ^ 2)) :=
    (((tendsto_const_nhds (x := π / 2)).sub (hsi.comp (hscale π hp))).pow 2).const_mul _
  have t2 : Tendsto (fun L => (2 / π ^ 2) * (eulerMascheroniConstant + log (2 * π * L) - ci (2 * π * L))) (𝓝[>] 0) (𝓝 ((2 / π ^ 2) * 0)) :=
    (hci.comp (hscale (2 * π) (by positivity))).const_mul _
  have t3 : Tendsto (fun L => (4 * L / π) * (∫ r in Ioi (π * L), (sin r / r) ^ 2)) (𝓝[>] 0) (𝓝 0) := by
    have hb : ∀ L : ℝ, 0 < L → |∫ r in Ioi (π * L), (sin r / r) ^ 2| ≤ ∫ r in Ioi (0 : ℝ), (sin r / r) ^ 2 := by
      intro L hL
      rw [abs_of_nonneg (integral_nonneg fun r => sq_nonneg _)]
      exact setIntegral_mono_set hint (Filter.Eventually.of_forall fun r => sq_nonneg _)
        (Filter.Eventually.of_forall (Set.Ioi_subset_Ioi (by positivity)))
    have t4 : Tendsto (fun L : ℝ => (4 / π) * (∫ r in Ioi (0 : ℝ), (sin r / r) ^ 2) * L) (𝓝[>] 0) (𝓝 0) := by
      have : Tendsto (fun L : ℝ => (4 / π) * (∫ r in Ioi (0 : ℝ), (sin r / r) ^ 2) * L) (𝓝 0) (𝓝 ((4 / π) * (∫ r in Ioi (0 : ℝ), (sin r / r) ^ 2) * 0)) :=
        (continuous_const.mul continuous_id).tendsto 0
      rw [mul_zero] at this
      exact this.mono_left nhdsWithin_le_nhds
    refine squeeze_zero_norm' ?_ t4
    filter_upwards [self_mem_nhdsWithin] with L hL
    have hL' : (0 : ℝ) < L := hL
    rw [norm_eq_abs, abs_mul, abs_of_pos (show (0 : ℝ) < 4 * L / π by positivity)]
    refine (mul_le_mul_of_nonneg_left (hb L hL') (by positivity)).trans (le_of_eq ?_)
    ring
  have := (((t3.add t2).sub (tendsto_const_nhds (x := (0.25 : ℝ)))).add t1)
  have e : (0 + (2 / π ^ 2) * 0 - 0.25 + ((2 / π ^ 2) / 2) * (π / 2 - 0) ^ 2 : ℝ) = 0 := by
    field_simp; norm_num; ring
  rw [e] at this
  exact this

/-! ## C91 -/

theorem locate_perm (L y : List ℝ) (c : List Bool) (h : c.length = (L.zip y).length) :
    (locate L y c true ++ locate L y c false).Perm (L.zip y) := by
  unfold locate
  generalize L.zip y = z at *
  rw [← List.map_append]
  have h1 : ((z.zip c).filter (fun p => p.2 == true) ++ (z.zip c).filter (fun p => p.2 == false)).Perm (z.zip c) := by
    have := List.filter_append_perm (fun p : (ℝ × ℝ) × Bool => p.2 == true) (z.zip c)
    have e : (z.zip c).filter (fun p => p.2 == false) = (z.zip c).filter (fun p => !(p.2 == true)) := by
      apply List.filter_congr
      rintro ⟨p, b⟩ _
      cases b <;> rfl
    rw [e]; exact this
  have h2 := h1.map (·.1)
  rw [List.map_fst_zip (by omega)] at h2
  exact h2

/-- **C91 (points).** With a convergence flag for every row, the plot of the rigidity shows every point `(L, delta)` of the data exactly once: as converged or as not converged according to its flag. -/
theorem C91_points (u : List ℝ) (L y : List ℝ) (c : List Bool) (sg : Option (List ℝ)) (hy : y.length = L.length) (hc : c.length = L.length) (ens : List String) :
    ∃ p, plotRigidity u ⟨some L, some y, sg, some c⟩ ens = .ok p ∧ (p.good ++ p.bad).Perm (L.zip y) ∧
      (∀ q ∈ p.good, ∃ i, ∃ h : i < L.length, q = (L[i], y[i]'(hy ▸ h)) ∧ c[i]'(hc ▸ h) = true) ∧
      (∀ q ∈ p.bad, ∃ i, ∃ h : i < L.length, q = (L[i], y[i]'(hy ▸ h)) ∧ c[i]'(hc ▸ h) = false) := by
  have hm : ∀ b, ∀ q ∈ locate L y c b, ∃ i, ∃ h : i < L.length, q = (L[i], y[i]'(hy ▸ h)) ∧ c[i]'(hc ▸ h) = b := by
    intro b q hq
    unfold locate at hq
    obtain ⟨⟨q', b'⟩, hq', rfl⟩ := List.mem_map.mp hq
    obtain ⟨h1, h2⟩ := List.mem_filter.mp hq'
    obtain ⟨i, hi, he⟩ := List.mem_iff_getElem.mp h1
    have hiL : i < L.length := by simp at hi; omega
    refine ⟨i, hiL, ?_, ?_⟩
    · simp only [List.getElem_zip, Prod.mk.injEq] at he
      rw [← he.1]
    · simp only [List.getElem_zip, Prod.mk.injEq] at he
      rw [he.2]
      simpa using h2
  exact ⟨_, rfl, locate_perm L y c (by simp; omega), hm true, hm false⟩

/-- **C91 (points).** Likewise for the level variance; without flags all points are shown as converged. -/
theorem C91_points_level_variance (si ci : ℝ → ℝ) (siInf : ℝ) (L y : List ℝ) (hy : y.length = L.length) (ens : List String) :
    (∀ c : List Bool, c.length = L.length → ∃ p, plotLevelVar si ci siInf ⟨some L, none, some y, some c⟩ ens = .ok p ∧ (p.good ++ p.bad).Perm (L.zip y)) ∧
    ∃ p, plotLevelVar si ci siInf ⟨some L, none, some y, none⟩ ens = .ok p ∧ p.good = L.zip y ∧ p.bad = [] := by
  refine ⟨fun c hc => ⟨_, rfl, locate_perm L y c (by simp; omega)⟩, ⟨_, rfl, ?_, ?_⟩⟩
  · simp only
    have : ((L.zip y).zip (y.map fun _ => true)).filter (fun p => p.2 == true) = (L.zip y).zip (y.map fun _ => true) := by
      rw [List.filter_eq_self]
      rintro ⟨p, b⟩ hp
      have := (List.of_mem_zip hp).2
      simp at this
      simp [this.2]
    unfold locate
    rw [this, List.map_fst_zip (by simp)]
  · simp only [locate]
    have : ((L.zip y).zip (y.map fun _ => true)).filter (fun p => p.2 == false) = [] := by
      rw [List.filter_eq_nil_iff]
      rintro ⟨p, b⟩ hp
      have := (List.of_mem_zip hp).2
      simp at this
      simp [this.2]
    rw [this]; rfl

/-- **C90 (curves of the observable plots).** The plots of the rigidity and of the level variance draw exactly one curve for each requested ensemble, at the `L` values of the data: the rigidity of the ensemble class
(for GOE, GUE and GSE at `L` divided by the mean spacing), and its level variance (for GOE below `L = 10` the exact formula). -/
theorem C90_observables (si ci : ℝ → ℝ) (siInf : ℝ) (hsi : Tendsto si atTop (𝓝 siInf)) (hci : Tendsto ci atTop (𝓝 0)) (u L : List ℝ) (hu : 2 ≤ u.length) (d : Data) (hL : d.L = some L) (ens : List String) (p : ObsPlot) :
    (plotRigidity u d ens = .ok p →
      (p.theory.map (·.1)).Nodup ∧ (∀ e, e ∈ p.theory.map (·.1) ↔ ensName e ∈ ens) ∧
      ∀ e c, (e, c) ∈ p.theory → c.x = L ∧ c.y = L.map fun l => if e = .poisson then e.rigidityAt l else e.rigidityAt (l / meanSpacing u)) ∧
    (plotLevelVar si ci siInf d ens = .ok p →
      (p.theory.map (·.1)).Nodup ∧ (∀ e, e ∈ p.theory.map (·.1) ↔ ensName e ∈ ens) ∧
      ∀ e c, (e, c) ∈ p.theory → c.x = L ∧ c.y = L.map fun l => if e = .goe ∧ l < 10 then goeExact si ci siInf l else e.levelVarAt l) := by
  obtain ⟨dL, dd, ds, dc⟩ := d
  simp only at hL
  subst hL
  have shape : ∀ f : Ens → ℝ → ℝ, let t := ([Ens.poisson, .goe, .gue, .gse].filter fun e => decide (ensName e ∈ ens)).map fun e => (e, (⟨L, L.map (f e)⟩ : Curve))
      (t.map (·.1)).Nodup ∧ (∀ e, e ∈ t.map (·.1) ↔ ensName e ∈ ens) ∧ ∀ e c, (e, c) ∈ t → c.x = L ∧ c.y = L.map (f e) := by
    intro f
    simp only [List.map_map, Function.comp_def, List.map_id']
    refine ⟨List.Nodup.filter _ (by decide), fun e => ?_, fun e c h => ?_⟩
    · rw [List.mem_filter]
      cases e <;> simp
    · obtain ⟨e', -, h2⟩ := List.mem_map.mp h
      cases h2
      exact ⟨rfl, rfl⟩
  constructor
  · intro h
    cases dd with
    | none => cases h
    | some y =>
      have hp : p.theory = ([Ens.poisson, .goe, .gue, .gse].filter fun e => decide (ensName e ∈ ens)).map fun e => (e, (⟨L, L.map fun l => rigidityFormula e l (scaledL u l)⟩ : Curve)) := by
        cases dc with
        | some c => cases h; rfl
        | none =>
          cases ds with
          | some s => cases h; rfl
          | none => cases h
      rw [hp]
      obtain ⟨h1, h2, h3⟩ := shape fun e l => rigidityFormula e l (scaledL u l)
      refine ⟨h1, h2, fun e c hm => ⟨(h3 e c hm).1, (h3 e c hm).2.trans (List.map_congr_left fun l _ => (C90_rigidity_partial e u hu l).1)⟩⟩
  · intro h
    cases ds with
    | none => cases h
    | some y =>
      cases h
      obtain ⟨h1, h2, h3⟩ := shape fun e l => levelVarFormula si ci siInf e l
      refine ⟨h1, h2, fun e c hm => ⟨(h3 e c hm).1, (h3 e c hm).2.trans (List.map_congr_left fun l _ => ?_)⟩⟩
      obtain ⟨k1, k2, -⟩ := C90_level_variance si ci siInf hsi hci
      split_ifs with hc
      · rw [hc.1]; exact k2 l hc.2
      · refine k1 e l ?_
        by_cases he : e = .goe
        · exact Or.inr (not_lt.mp fun hlt => hc ⟨he, hlt⟩)
        · exact Or.inl he

/-- Non-vacuity: both plots of one row of data are drawn. -/
example : ∃ p q, plotRigidity [0, 1, 3] ⟨some [2], some [1], some [1], none⟩ ["goe", "gse"] = .ok p ∧ plotLevelVar id id 0 ⟨some [2], some [1], some [1], none⟩ ["goe", "gse"] = .ok q := ⟨_, _, rfl, rfl⟩

/-- **C91 (missing columns).** Data without an `L` or a `delta` column raise RuntimeError; data with both but without `converged` raise AttributeError unless there is a `sigma` column: convergence information is in
effect required, contrary to the documentation. -/
theorem C91_columns_refuted (u L y : List ℝ) (d : Data) (ens : List String) :
    ((d.L = none ∨ d.delta = none) → plotRigidity u d ens = .error .runtimeError) ∧
    plotRigidity u ⟨some L, some y, none, none⟩ ens = .error .attributeError := by
  refine ⟨fun h => ?_, rfl⟩
  obtain ⟨dL, dd, ds, dc⟩ := d
  rcases h with h | h <;> simp only at h <;> subst h
  · rfl
  · cases dL <;> rfl

/-- **C91 (returned values).** Without given data, `plot_spectral_rigidity` returns the computed rigidity with the L values it was computed for (given that the computation returns its L values, as C17 shows), and these
are the plotted points. `plot_level_variance` returns paired L values and level variances of equal length also for given values, or raises. -/
theorem C91_returned_partial (compute : List ℝ → Py (List ℝ × List ℝ × List Bool)) (u L delta : List ℝ) (c : List Bool)
    (hcomp : compute L = .ok (L, delta, c)) (hd : delta.length = L.length) (hc : c.length = L.length) (ens : List String) :
    (∃ p, plotSpectralRigidity compute u none L ens = .ok (L, delta, p) ∧ (p.good ++ p.bad).Perm (L.zip delta)) ∧
    (∀ si ci siInf, ∃ p, plotLevelVariance si ci siInf compute L none ens = .ok (L, delta, p) ∧ (p.good ++ p.bad).Perm (L.zip delta)) ∧
    (∀ si ci siInf (y : List ℝ), (y.length = L.length → ∃ p, plotLevelVariance si ci siInf compute L (some y) ens = .ok (L, y, p) ∧ (p.good ++ p.bad).Perm (L.zip y)) ∧
      (y.length ≠ L.length → plotLevelVariance si ci siInf compute L (some y) ens = .error .valueError)) := by
  refine ⟨?_, fun si ci siInf => ?_, fun si ci siInf y => ⟨fun hy => ?_, fun hy => ?_⟩⟩
  · obtain ⟨p, h1, h2, -⟩ := C91_points u L delta c none hd hc ens
    refine ⟨p, ?_, h2⟩
    simp only [plotSpectralRigidity, hcomp, bind, Except.bind, pure, Except.pure, h1]
  · obtain ⟨p, h1, h2⟩ := (C91_points_level_variance si ci siInf L delta hd ens).1 c hc
    refine ⟨p, ?_, h2⟩
    simp only [plotLevelVariance, hcomp, bind, Except.bind, pure, Except.pure, h1, hd, ne_eq, not_true_eq_false, if_false]
  · obtain ⟨p, h1, h2⟩ := (C91_points_level_variance si ci siInf L y hy ens).1 (y.map fun _ => true) (by simpa using hy)
    refine ⟨p, ?_, h2⟩
    simp only [plotLevelVariance, bind, Except.bind, pure, Except.pure, h1, hy, ne_eq, not_true_eq_false, if_false]
  · simp only [plotLevelVariance, if_pos (show L.length ≠ y.length from fun h => hy h.symm)]

/-- **C91 is false for given data.** With data passed in, `plot_spectral_rigidity` returns the argument `L` (or its default) next to the rigidity values of the data, whatever L values the data have: even the lengths
may differ. -/
theorem C91_returned_refuted (compute : List ℝ → Py (List ℝ × List ℝ × List Bool)) (u L dL y : List ℝ) (c : List Bool) (ens : List String) :
    ∃ p, plotSpectralRigidity compute u (some ⟨some dL, some y, none, some c⟩) L ens = .ok (L, y, p) :=
  ⟨_, rfl⟩

example : ∃ p, plotSpectralRigidity (fun _ => .error .valueError) [0, 1] (some ⟨some [5], some [0.3], none, some [true]⟩) [2, 3] [] = .ok ([2, 3], [0.3], p) :=
  C91_returned_refuted ..

end Props
end RMT
