import Verif.Model.UnfoldedApi
import Verif.Props.Mean3
import Verif.Props.Unfolding
import Verif.Props.LevelVariance

/-!
# Properties C117, C118: observables of unfolded eigenvalues
-/

namespace RMT
namespace Props
open Spec Unfold UnfoldedApi Rigidity LevelVar Smooth EigValsM

section order
variable {K : Type} [Field K] [LinearOrder K] [IsStrictOrderedRing K]

omit [Field K] [LinearOrder K] [IsStrictOrderedRing K] in
theorem mkFrame_ok (L v : List K) (c : List Bool) (k : List Nat) (h1 : v.length = L.length) (h2 : c.length = L.length) (h3 : k.length = L.length) :
    mkFrame L v c k = .ok ⟨L, v, c, k⟩ := by
  simp [mkFrame, h1, h2, h3]

/-- **C117 (level variance, partial).** The level variance of an `Unfolded` object depends only on which values occur and how often, not on their order: for all arguments, draws and execution orders the whole returned frame (or exception) is
the same. What is missing from the property: the same for the spectral rigidity, which is false. -/
theorem C117_level_variance_partial (u u' : Unfolded K) (h : u.vals.Perm u'.vals) (order : List Nat) (Up : Nat → K) (U : Nat → Nat → K) (junk : Nat) (L : List K) (tol : K) (maxIters : Int) (minIters : Nat) :
    levelVar order Up U junk u L tol maxIters minIters = levelVar order Up U junk u' L tol maxIters minIters := by
  have e : ∀ (l : K) (maxI minI : Nat) (V : Nat → K), sigmaL u.vals l maxI tol minI V = sigmaL u'.vals l maxI tol minI V :=
    fun l maxI minI V => C21_sigma_perm _ _ h l maxI tol minI V
  simp only [levelVar, levelVariance, levelNumberVariance, sigmaParallel, e]

omit [IsStrictOrderedRing K] in
/-- **C117 (spacings, partial).** So do the spacings, hence everything computed from them. -/
theorem C117_spacings_partial (u u' : Unfolded K) (h : u.vals.Perm u'.vals) : diff (npSort u.vals) = diff (npSort u'.vals) := by
  rw [npSort_eq_of_perm h]

end order

/-- Non-vacuity of the positive parts of C117: two different orders of the same values. -/
example : [(2 : ℚ), 0, 1].Perm [0, 1, 2] ∧ [(2 : ℚ), 0, 1] ≠ [0, 1, 2] := by decide +kernel

/-- The values which `Trimmed.unfold` returns for the spectrum of C54. -/
def wiggleVals : List ℚ := wiggleEigs.map (polyval wiggleCoef)

/-- With a constant stream of draws whose sample is `d`, the result of `delta_L` is positive iff `d` is. -/
theorem deltaL_const (u : List ℚ) (hu : u ≠ []) (L : ℚ) (hL : 0 < L) (n : Nat) (hn : 1 ≤ n) (maxI minI : Nat) (tol : ℚ) (s : Bool) (t d : ℚ)
    (hd : d3Sample u L n s (uniform (u.head hu) (u.getLast hu) t) = .ok d) (v : ℚ) (conv : Bool) (k : Nat) (h : deltaL u L n maxI minI tol s (fun _ => t) = .ok (v, conv, k)) :
    (d = 0 → v = 0) ∧ (0 < d → 0 < v) := by
  obtain ⟨e, he, k', h1, h2, -⟩ := deltaL_spec u hu L hL n hn maxI minI tol s (fun _ => t)
  have hc : ∀ j, e j = d := by
    intro j
    have := (he j).1
    rw [hd] at this
    exact (Except.ok.inj this).symm
  rw [h] at h1
  simp only [Except.ok.injEq, Prod.mk.injEq] at h1
  obtain ⟨rfl, -, rfl⟩ := h1
  have hrun : ∀ j, runMean e (j + 1) = d := by
    intro j
    have : ((j : ℚ) + 1) ≠ 0 := by positivity
    simp [runMean, hc]
    field_simp
  have hw : ∀ x ∈ window e k, x = 0 ∨ x = d := by
    intro x hx
    obtain ⟨i, hi, rfl⟩ := List.mem_iff_getElem.mp hx
    rw [getElem_window]
    unfold windowSlot
    split_ifs with g1 g2 g3
    · exact Or.inr (hrun 0)
    · exact Or.inl rfl
    · exact Or.inl rfl
    · right
      have m1 := Nat.mod_lt (k - i) (show 0 < 1000 by norm_num)
      have m2 := Nat.mod_le (k - i) 1000
      obtain ⟨j, hj⟩ : ∃ j, k - (k - i) % 1000 = j + 1 := ⟨k - (k - i) % 1000 - 1, by omega⟩
      rw [hj]
      exact hrun j
  have hlen : ((window e k).length : ℚ) = 1000 := by rw [length_window]; norm_num
  constructor
  · rintro rfl
    unfold mean
    have : (window e k).sum = 0 := by
      rw [List.sum_eq_zero]
      intro x hx
      rcases hw x hx with rfl | rfl <;> rfl
    rw [this, zero_div]
  · intro hd0
    have hmem := runMean_mem_window e k k h2 le_rfl (by omega)
    obtain ⟨j, hj⟩ : ∃ j, k = j + 1 := ⟨k - 1, by omega⟩
    have e1 : runMean e k = d := by rw [hj]; exact hrun j
    rw [e1] at hmem
    unfold mean
    apply div_pos
    · apply lt_of_lt_of_le hd0
      apply List.single_le_sum _ _ hmem
      intro x hx
      rcases hw x hx with rfl | rfl
      · exact le_rfl
      · exact hd0.le
    · rw [hlen]; norm_num

theorem wiggleVals_eq : wiggleVals = [599 / 618, 507 / 206, 252 / 103, 1438 / 309, 1438 / 309, 660 / 103, 660 / 103] := by decide +kernel

theorem wiggle_sorted : npSort wiggleVals = [599 / 618, 252 / 103, 507 / 206, 1438 / 309, 1438 / 309, 660 / 103, 660 / 103] :=
  npSort_unique (by decide +kernel) (by decide +kernel)

/-- **C117 (rigidity, refuted).** A genuine least-squares cubic fit for which `Trimmed.unfold` returns values whose spectral rigidity depends on their order: for the same draws, and for every positive budget and every tolerance, the reported rigidity of the returned values is positive
and that of the same values in ascending order is zero. -/
theorem C117_rigidity_refuted : ∃ (F : Fitters ℚ) (c : List ℚ) (r : Unfolded ℚ) (t : ℚ), 0 ≤ t ∧ t < 1 ∧
    F.polyfit (npSort wiggleEigs) (stepsOf 7) 3 = .ok c ∧ IsPolyLS c (npSort wiggleEigs) (stepsOf 7) 3 ∧
    trimmedUnfold F wiggleEigs (.method .polynomial) (.int 3) (.float (7 / 5)) false = .ok r ∧
    ∀ (r' : Unfolded ℚ), r'.vals = npSort r.vals → ∀ (Up : Nat → ℚ) (maxIters : Int) (tol : ℚ), 0 < maxIters →
      ∃ f f', rigidity [0] Up (fun _ _ => t) r [1 / 2] maxIters 3 tol "simps" = .ok f ∧ rigidity [0] Up (fun _ _ => t) r' [1 / 2] maxIters 3 tol "simps" = .ok f' ∧
        (∃ v, f.value = [v] ∧ 0 < v) ∧ f'.value = [0] := by
  have h : npSort wiggleEigs = wiggleEigs := npSort_of_ascending _ (by decide +kernel)
  refine ⟨constFitters wiggleCoef, wiggleCoef,
    ⟨npSort wiggleEigs, wiggleVals, .unary fun xs =>
      if false then some (xs.map (polyval wiggleCoef)) else none⟩, 229393 / 840250, by norm_num, by norm_num, rfl, by rw [h]; exact wiggle_ls, ?_, ?_⟩
  · simp [trimmedUnfold, fit, validateArgs, validate, PyVal.asInt, bind, Except.bind, mkUnfolded_eq, h,
      constFitters, wiggleVals]
  · intro r' hr' Up maxIters tol hm
    have hr2 : r'.vals = [599 / 618, 252 / 103, 507 / 206, 1438 / 309, 1438 / 309, 660 / 103, 660 / 103] := hr'.trans wiggle_sorted
    simp only [rigidity, hr2, wiggleVals_eq]
    have hb : decide (("simps" : String) ≠ "trapz") = true := by decide
    have go : ∀ (u : List ℚ) (hu : u ≠ []) (d : ℚ), d3Sample u (1 / 2) 3 true (uniform (u.head hu) (u.getLast hu) (229393 / 840250)) = .ok d →
        ∃ v c k, spectralRigidity [0] u [1 / 2] tol maxIters 3 "simps" Up (fun _ _ => 229393 / 840250) = .ok ([1 / 2], [v], [c], [k]) ∧ (d = 0 → v = 0) ∧ (0 < d → 0 < v) := by
      intro u hu d hd
      obtain ⟨vals, conv, iters, h1, h2, h3, h4, h5⟩ := C17_rigidity_explicit [0] u [1 / 2] hu (by simp) tol maxIters hm 3 (by norm_num) "simps" Up (fun _ _ => 229393 / 840250) (by simp)
      match vals, conv, iters, h2, h3, h4 with
      | [v], [c], [k], _, _, _ =>
        refine ⟨v, c, k, h1, ?_⟩
        have := h5 0 (by simp) (by simp) (by simp) (by simp)
        rw [hb] at this
        exact deltaL_const u hu (1 / 2) (by norm_num) 3 (by norm_num) _ _ tol true _ d hd v c k this
    obtain ⟨v, c, k, e1, -, e2⟩ := go [599 / 618, 507 / 206, 252 / 103, 1438 / 309, 1438 / 309, 660 / 103, 660 / 103] (by simp) (1 / 3) (by decide +kernel)
    obtain ⟨v', c', k', g1, g2, -⟩ := go [599 / 618, 252 / 103, 507 / 206, 1438 / 309, 1438 / 309, 660 / 103, 660 / 103] (by simp) 0 (by decide +kernel)
    rw [e1, g1]
    refine ⟨⟨[1 / 2], [v], [c], [k]⟩, ⟨[1 / 2], [v'], [c'], [k']⟩, rfl, rfl, ⟨v, rfl, e2 (by norm_num)⟩, by rw [g2 rfl]⟩

/-! ## C118: from the eigenvalues to the observables -/

section pipeline
open MeasureTheory

variable {Ω : Type} [MeasurableSpace Ω] (P : Measure Ω) [IsProbabilityMeasure P]

theorem ends_of_ascending (l : List ℝ) (hne : l ≠ []) (h : Ascending l) : Spec.IsMin l (l.head hne) ∧ Spec.IsMax l (l.getLast hne) := by
  refine ⟨⟨List.head_mem hne, fun x hx => ?_⟩, ⟨List.getLast_mem hne, fun x hx => ?_⟩⟩
  · obtain ⟨i, hi, rfl⟩ := List.mem_iff_getElem.mp hx
    rw [List.head_eq_getElem]
    exact h.le _ _ _ _ (by omega)
  · obtain ⟨i, hi, rfl⟩ := List.mem_iff_getElem.mp hx
    rw [List.getLast_eq_getElem]
    exact h.le _ _ _ _ (by omega)

/-- **C118 (rigidity).** For every spectrum and every way of calling `Eigenvalues.unfold` that returns an object `r` - any smoother, fitting routine, detrending, any order of the input - the frame returned by `r.spectral_rigidity` has the requested `L` column, and for every `ε > 0`, every
sufficiently fine grid and with probability one, each value that used sufficiently many iterations is within `ε` of the average, over window centres between the least and greatest unfolded value, of the Dyson-Mehta statistic of the unfolded values. -/
theorem C118_rigidity (F : Fitters ℝ) (goe poisson : List ℝ → List ℝ) (hg : ∀ l, (goe l).length = l.length) (hp : ∀ l, (poisson l).length = l.length) (kind : Option MatrixKind)
    (vals : List ℝ) (hv : vals ≠ []) (smoother degree ss : PyVal) (detrend : Bool) (r : Unfolded ℝ) (h : unfold F goe poisson kind vals smoother degree ss detrend = .ok r)
    (Ls : List ℝ) (hL : ∀ l ∈ Ls, 0 < l) (integration : String) (Up : Nat → ℝ) (U : Nat → Nat → Ω → ℝ) (hU : ∀ i, UniformDraws P (U i))
    (Δ : ℝ → ℝ → ℝ) (hΔ : ∀ l ∈ Ls, ∀ c, IsDysonMehta r.vals l c (Δ l c)) (lo hi : ℝ) (hlo : Spec.IsMin r.vals lo) (hhi : Spec.IsMax r.vals hi) (ε : ℝ) (hε : 0 < ε) :
    ∃ G : Nat, ∀ gridsize, G ≤ gridsize → ∀ᵐ ω ∂P, ∃ M : Nat, ∀ (order : List Nat) (tol : ℝ) (maxIters : Int), order.Perm (List.range Ls.length) → 0 < maxIters →
      ∃ f, rigidity order Up (fun i j => U i j ω) r Ls maxIters gridsize tol integration = .ok f ∧ f.L = Ls ∧ f.value.length = Ls.length ∧ f.iters.length = Ls.length ∧
        ∀ i (h : i < Ls.length) (h1 : i < f.value.length) (h2 : i < f.iters.length),
          (M ≤ f.iters[i] → |f.value[i] - Spec.average lo hi (Δ Ls[i])| < ε) ∧ (tol ≤ 0 → maxIters ≤ f.iters[i]) := by
  obtain ⟨ha, hlen, -, -⟩ := C54_unfold_ascending F goe poisson hg hp kind vals smoother degree ss detrend r h
  have hne : r.vals ≠ [] := by
    intro e
    rw [e] at hlen
    exact hv (List.length_eq_zero_iff.mp hlen.symm)
  obtain ⟨e1, e2⟩ := ends_of_ascending r.vals hne ha
  have elo : r.vals.head hne = lo := le_antisymm (e1.2 _ hlo.1) (hlo.2 _ e1.1)
  have ehi : r.vals.getLast hne = hi := le_antisymm (hhi.2 _ e2.1) (e2.2 _ hhi.1)
  obtain ⟨G, hG⟩ := C116_rigidity P r.vals hne ha Ls hL integration Up U hU Δ hΔ ε hε
  rw [elo, ehi] at hG
  refine ⟨G + 1, fun gridsize hg => ?_⟩
  filter_upwards [hG gridsize (by omega)] with ω hω
  obtain ⟨M, hM⟩ := hω
  refine ⟨M, fun order tol maxIters ho hm => ?_⟩
  obtain ⟨v, c, k, g1, g2, g3, g4⟩ := hM order tol maxIters ho hm
  obtain ⟨v', c', k', q1, q2, q3, q4, -⟩ := C17_rigidity_explicit order r.vals Ls hne hL tol maxIters hm gridsize (by omega) integration Up (fun i j => U i j ω) ho
  rw [g1] at q1
  cases q1
  refine ⟨⟨Ls, v, c, k⟩, ?_, rfl, q2, q4, g4⟩
  simp only [rigidity, g1, bind, Except.bind]
  exact mkFrame_ok _ _ _ _ q2 q3 q4

/-- **C118 (level variance).** The same for `r.level_variance` and the number variance of the unfolded values, for every `Unfolded` object `r`. -/
theorem C118_level_variance (r : Unfolded ℝ) (Ls : List ℝ) (Up : Nat → ℝ) (U : Nat → Nat → Ω → ℝ) (hU : ∀ i, UniformDraws P (U i)) (junk : Nat)
    (lo hi : ℝ) (hlo : Spec.IsMin r.vals lo) (hhi : Spec.IsMax r.vals hi) :
    ∀ᵐ ω ∂P, ∀ ε > 0, ∃ M : Nat, ∀ (order : List Nat) (tol : ℝ) (maxIters : Int) (minIters : Nat), order.Perm (List.range Ls.length) → 0 < maxIters →
      ∃ f, levelVar order Up (fun i j => U i j ω) junk r Ls tol maxIters minIters = .ok f ∧ f.L = Ls ∧ f.value.length = Ls.length ∧ f.iters.length = Ls.length ∧
        ∀ i (h : i < Ls.length) (h1 : i < f.value.length) (h2 : i < f.iters.length),
          (M ≤ f.iters[i] → |f.value[i] - numberVariance r.vals lo hi Ls[i]| < ε) ∧ (tol ≤ 0 → maxIters ≤ f.iters[i]) := by
  filter_upwards [C115_consistent P r.vals lo hi hlo hhi Ls Up U hU junk] with ω hω
  intro ε hε
  obtain ⟨M, hM⟩ := hω ε hε
  refine ⟨M, fun order tol maxIters minIters ho hm => ?_⟩
  obtain ⟨v, c, k, g1, g2, g3, g4⟩ := hM order tol maxIters ho hm
  obtain ⟨v', c', k', q1, q2, q3, q4, -⟩ := C20_levelvar_explicit order r.vals Ls (List.ne_nil_of_mem hlo.1) tol maxIters hm Up (fun i j => U i j ω) junk ho
  rw [g1] at q1
  cases q1
  refine ⟨⟨Ls, v, c, k⟩, ?_, rfl, q2, q4, g4⟩
  simp only [levelVar, levelVariance, g1, bind, Except.bind]
  exact mkFrame_ok _ _ _ _ q2 q3 q4

/-- Non-vacuity of C118: an unfolding that succeeds, on an unsorted spectrum. -/
example : ∃ F : Fitters ℝ, ∃ r, unfold F id id none [3, 1, 2, 0] (.method .polynomial) (.int 3) (.float 1) false = .ok r := by
  refine ⟨⟨fun _ _ _ => .ok [1, 0, 0, 1], fun _ _ _ _ => .ok id, fun _ _ => .ok (1, 1), fun _ _ => .ok (1, 1, 1), id, fun _ _ => 1, id⟩, ?_⟩
  rw [C53_polynomial _ _ _ _ _ 3 (by norm_num)]
  exact ⟨_, rfl⟩

end pipeline

end Props
end RMT
