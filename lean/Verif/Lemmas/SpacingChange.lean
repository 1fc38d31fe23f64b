import Verif.Lemmas.BoundedDifferences
import Verif.Lemmas.LocalAverages
import Verif.Lemmas.SpectrumMeasurable
import Verif.Lemmas.Sort

/-!
# How the number of spacings with a property changes when one level moves; the variance of this number for independent levels
-/

namespace RMT
namespace UniformM
open MeasureTheory ProbabilityTheory Real Set Filter Spec EigValsM
open scoped Topology

/-- The number of `m`-th neighbour spacings that satisfy `p`. -/
def spacingsWith (m : Nat) (p : ℝ → Bool) (l : List ℝ) : Nat := (nbr m l).countP p

theorem spacingsWith_eq (m : Nat) (p : ℝ → Bool) (l : List ℝ) : spacingsWith m p l = ((Finset.range (l.length - m)).filter fun i => p (l.getD (i + m) 0 - l.getD i 0) = true).card := by
  rw [spacingsWith, nbr, List.countP_map, ← countP_range]
  congr 1
  funext i
  simp

theorem spacingsWith_append (m : Nat) (p : ℝ → Bool) (A B : List ℝ) :
    spacingsWith m p A + spacingsWith m p B ≤ spacingsWith m p (A ++ B) ∧ spacingsWith m p (A ++ B) ≤ spacingsWith m p A + spacingsWith m p B + m := by
  simp only [spacingsWith_eq, List.length_append]
  set a := A.length with ha
  set b := B.length with hb
  set qA : Nat → Prop := fun i => p (A.getD (i + m) 0 - A.getD i 0) = true
  set qB : Nat → Prop := fun i => p (B.getD (i + m) 0 - B.getD i 0) = true
  set q : Nat → Prop := fun i => p ((A ++ B).getD (i + m) 0 - (A ++ B).getD i 0) = true
  have hqA : ∀ i, i + m < a → (q i ↔ qA i) := fun i hi => by
    simp only [q, qA]
    rw [List.getD_append _ _ _ _ hi, List.getD_append _ _ _ _ (by omega)]
  have hqB : ∀ i, q (i + a) ↔ qB i := fun i => by
    simp only [q, qB]
    rw [List.getD_append_right _ _ _ _ (by omega), List.getD_append_right _ _ _ _ (by omega)]
    have e1 : i + a + m - A.length = i + m := by omega
    have e2 : i + a - A.length = i := by omega
    rw [e1, e2]
  have hB : ((Finset.range (b - m)).filter qB).card = (((Finset.range (b - m)).filter qB).image fun i => i + a).card :=
    (Finset.card_image_of_injective _ fun i j h => by simpa using h).symm
  have hdisj : Disjoint ((Finset.range (a - m)).filter qA) (((Finset.range (b - m)).filter qB).image fun i => i + a) := by
    rw [Finset.disjoint_left]
    intro i h1 h2
    simp only [Finset.mem_filter, Finset.mem_range, Finset.mem_image] at h1 h2
    obtain ⟨j, -, rfl⟩ := h2
    omega
  constructor
  · rw [hB, ← Finset.card_union_of_disjoint hdisj]
    refine Finset.card_le_card fun i hi => ?_
    rw [Finset.mem_union] at hi
    rcases hi with hi | hi
    · simp only [Finset.mem_filter, Finset.mem_range] at hi ⊢
      exact ⟨by omega, (hqA i (by omega)).mpr hi.2⟩
    · simp only [Finset.mem_filter, Finset.mem_range, Finset.mem_image] at hi ⊢
      obtain ⟨j, ⟨h1, h2⟩, rfl⟩ := hi
      exact ⟨by omega, (hqB j).mpr h2⟩
  · rw [hB, ← Finset.card_union_of_disjoint hdisj]
    have : ((Finset.range (a + b - m)).filter q) ⊆ ((Finset.range (a - m)).filter qA ∪ ((Finset.range (b - m)).filter qB).image fun i => i + a) ∪ Finset.Ico (a - m) a := by
      intro i hi
      simp only [Finset.mem_union, Finset.mem_filter, Finset.mem_range, Finset.mem_image, Finset.mem_Ico] at hi ⊢
      by_cases h1 : i + m < a
      · exact Or.inl (Or.inl ⟨by omega, (hqA i h1).mp hi.2⟩)
      by_cases h2 : i < a
      · exact Or.inr ⟨by omega, h2⟩
      · refine Or.inl (Or.inr ⟨i - a, ⟨by omega, ?_⟩, by omega⟩)
        rw [← hqB]
        have : i - a + a = i := by omega
        rw [this]
        exact hi.2
    refine (Finset.card_le_card this).trans ((Finset.card_union_le _ _).trans ?_)
    have : (Finset.Ico (a - m) a).card ≤ m := by rw [Nat.card_Ico]; omega
    omega

theorem spacingsWith_cons (m : Nat) (hm : 0 < m) (p : ℝ → Bool) (x : ℝ) (B : List ℝ) : spacingsWith m p B ≤ spacingsWith m p (x :: B) ∧ spacingsWith m p (x :: B) ≤ spacingsWith m p B + m := by
  have h := spacingsWith_append m p [x] B
  have h0 : spacingsWith m p [x] = 0 := by
    rw [spacingsWith_eq]
    have : [x].length - m = 0 := by simp; omega
    rw [this]
    simp
  rw [h0] at h
  simp only [List.singleton_append] at h
  omega

/-- Inserting one level. -/
theorem spacingsWith_insert (m : Nat) (hm : 0 < m) (p : ℝ → Bool) (x : ℝ) (l r : List ℝ) (hl : Ascending l) (hr : Ascending r) (h : l.Perm (x :: r)) :
    (spacingsWith m p l : ℤ) - spacingsWith m p r ≤ 2 * m ∧ (spacingsWith m p r : ℤ) - spacingsWith m p l ≤ 2 * m := by
  have hx : x ∈ l := h.mem_iff.mpr (by simp)
  obtain ⟨A, B, rfl⟩ := List.append_of_mem hx
  have hperm : (A ++ B).Perm r := by
    have h1 : (x :: (A ++ B)).Perm (x :: r) := List.perm_middle.symm.trans h
    exact h1.cons_inv
  have hs : Ascending (A ++ B) := by
    unfold Ascending at hl ⊢
    exact hl.sublist (by simp)
  have he : A ++ B = r := hperm.eq_of_pairwise (fun a b _ _ h1 h2 => le_antisymm h1 h2) hs hr
  subst he
  have h1 := spacingsWith_append m p A (x :: B)
  have h2 := spacingsWith_append m p A B
  have h3 := spacingsWith_cons m hm p x B
  omega

/-- The number of spacings of sorted levels, as a function of the levels. -/
noncomputable def sortedSpacings (m : Nat) (p : ℝ → Bool) (N : Nat) (y : Fin N → ℝ) : ℝ := spacingsWith m p (npSort (List.ofFn y))

theorem sortedSpacings_update (m : Nat) (hm : 0 < m) (p : ℝ → Bool) (N : Nat) (y : Fin N → ℝ) (i : Fin N) (v : ℝ) :
    |sortedSpacings m p N (Function.update y i v) - sortedSpacings m p N y| ≤ 4 * m := by
  have hlen : (i : Nat) < (List.ofFn y).length := by simp
  have e : List.ofFn (Function.update y i v) = (List.ofFn y).set i v := by
    apply List.ext_getElem
    · simp
    · intro k h1 h2
      rw [List.getElem_set, List.getElem_ofFn]
      by_cases hk : (i : Nat) = k
      · subst hk
        simp
      · rw [if_neg hk, List.getElem_ofFn, Function.update_of_ne]
        intro hc
        exact hk (by rw [← hc])
  set r := npSort ((List.ofFn y).eraseIdx i) with hr
  have hr' : Ascending r := npSort_ascending _
  have p1 : (npSort (List.ofFn y)).Perm ((List.ofFn y)[(i : Nat)] :: r) :=
    (npSort_perm _).trans ((List.getElem_cons_eraseIdx_perm hlen).symm.trans (List.Perm.cons _ (npSort_perm _).symm))
  have p2 : (npSort (List.ofFn (Function.update y i v))).Perm (v :: r) := by
    refine (npSort_perm _).trans ?_
    rw [e]
    have hl2 : (i : Nat) < ((List.ofFn y).set i v).length := by simpa using hlen
    have := (List.getElem_cons_eraseIdx_perm hl2).symm
    rw [List.getElem_set_self, List.eraseIdx_set_eq] at this
    exact this.trans (List.Perm.cons _ (npSort_perm _).symm)
  have h1 := spacingsWith_insert m hm p _ _ r (npSort_ascending _) hr' p1
  have h2 := spacingsWith_insert m hm p _ _ r (npSort_ascending _) hr' p2
  unfold sortedSpacings
  have h3 : |((spacingsWith m p (npSort (List.ofFn (Function.update y i v))) : ℤ) - (spacingsWith m p (npSort (List.ofFn y)) : ℤ))| ≤ 4 * m := by
    rw [abs_le]
    constructor <;> omega
  exact_mod_cast h3

theorem sorted_measurable (N : Nat) (k : Nat) : Measurable fun y : Fin N → ℝ => (npSort (List.ofFn y)).getD k 0 := by
  have h := SpectrumM.measurable_eigs (fun y : Fin N → ℝ => Matrix.diagonal y) (fun i j => by
      by_cases hij : i = j
      · subst hij
        simpa using measurable_pi_apply i
      · simp [Matrix.diagonal_apply_ne _ hij])
    (fun y => Matrix.isHermitian_diagonal y) (fun y => npSort (List.ofFn y)) (fun y => npSort_ascending _) (fun y => by
      have h2 : (∏ i, (Polynomial.X - Polynomial.C (y i))).roots = Finset.univ.val.map y := by
        have := Polynomial.roots_multiset_prod_X_sub_C (Finset.univ.val.map y)
        rw [Multiset.map_map] at this
        exact this
      rw [Matrix.charpoly_diagonal, h2]
      simp only [RCLike.ofReal_real_eq_id, id_eq, Multiset.map_id']
      rw [Multiset.coe_eq_coe.mpr (npSort_perm _)]
      rw [List.ofFn_eq_map]
      rfl)
  exact h.2.1 k

theorem sortedSpacings_measurable (m : Nat) (p : ℝ → Bool) (hp : MeasurableSet {x | p x = true}) (N : Nat) : Measurable (sortedSpacings m p N) := by
  have e : sortedSpacings m p N = fun y => ∑ i ∈ Finset.range (N - m), {x | p x = true}.indicator (1 : ℝ → ℝ) ((npSort (List.ofFn y)).getD (i + m) 0 - (npSort (List.ofFn y)).getD i 0) := by
    funext y
    rw [sortedSpacings, spacingsWith_eq, (npSort_perm _).length_eq, List.length_ofFn, Finset.card_filter]
    push_cast
    refine Finset.sum_congr rfl fun i _ => ?_
    simp [indicator]
  rw [e]
  exact Finset.measurable_sum _ fun i _ => (measurable_one.indicator hp).comp ((sorted_measurable N _).sub (sorted_measurable N _))

theorem sortedSpacings_bound (m : Nat) (p : ℝ → Bool) (N : Nat) (y : Fin N → ℝ) : |sortedSpacings m p N y| ≤ N := by
  rw [sortedSpacings, spacingsWith_eq, abs_of_nonneg (Nat.cast_nonneg _), (npSort_perm _).length_eq, List.length_ofFn]
  have h := Finset.card_filter_le (Finset.range (N - m)) fun i => p ((npSort (List.ofFn y)).getD (i + m) 0 - (npSort (List.ofFn y)).getD i 0) = true
  rw [Finset.card_range] at h
  exact_mod_cast h.trans (Nat.sub_le _ _)

variable {Ω : Type} [MeasurableSpace Ω]

theorem sorted_levels (Y : Nat → Ω → ℝ) (N : Nat) (ω : Ω) (l : List ℝ) (h1 : Ascending l) (h2 : l.Perm ((List.range N).map fun k => Y k ω)) : l = npSort (List.ofFn fun i : Fin N => Y i ω) := by
  refine (npSort_unique (h2.trans ?_) h1).symm
  rw [List.ofFn_eq_map, ← List.map_coe_finRange_eq_range, List.map_map]
  exact List.Perm.refl _

/-- The fraction of the spacings of independent uniform levels that satisfy `p` is near its mean. -/
theorem fraction_limit (P : ℕ → Measure Ω) [∀ n, IsProbabilityMeasure (P n)] (Y : ℕ → Nat → Ω → ℝ) (hY : ∀ n : ℕ, 0 < n → UniformLevels (P n) n (Y n)) (l : ℕ → Ω → List ℝ)
    (hl : ∀ n ω, Ascending (l n ω) ∧ (l n ω).Perm ((List.range n).map fun k => Y n k ω)) (m : Nat) (hm : 0 < m) (p : ℝ → Bool) (hp : MeasurableSet {x | p x = true}) (c : ℝ)
    (hc : Tendsto (fun n : ℕ => ∫ ω, ((nbr m (l n ω)).countP p : ℝ) / (n - m) ∂(P n)) atTop (𝓝 c)) :
    InProbability P (fun n ω => ((nbr m (l n ω)).countP p : ℝ) / (n - m)) c := by
  have e : ∀ n ω, ((nbr m (l n ω)).countP p : ℝ) = sortedSpacings m p n fun i => Y n i ω := fun n ω => by
    rw [sortedSpacings, spacingsWith, ← sorted_levels (Y n) n ω (l n ω) (hl n ω).1 (hl n ω).2]
  simp only [e] at hc ⊢
  have hmeas : ∀ n : ℕ, 0 < n → Measurable fun ω => sortedSpacings m p n fun i => Y n i ω := fun n hn =>
    (sortedSpacings_measurable m p hp n).comp (measurable_pi_lambda _ fun i => (hY n hn).measurable i)
  refine inProb_of_moments _ c ?_ hc ?_
  · filter_upwards [eventually_gt_atTop 0] with n hn
    have : MemLp (fun ω => sortedSpacings m p n fun i => Y n i ω) 2 (P n) := MemLp.of_bound (hmeas n hn).aestronglyMeasurable n (Eventually.of_forall fun ω => sortedSpacings_bound m p n _)
    simpa only [div_eq_mul_inv, mul_comm] using this.const_mul ((n - m : ℝ)⁻¹)
  · have hlim : Tendsto (fun n : ℕ => (n : ℝ) * (4 * m) ^ 2 / (n - m) ^ 2) atTop (𝓝 0) := by
      have h1 : Tendsto (fun n : ℕ => (n : ℝ) - m) atTop atTop := tendsto_atTop_add_const_right _ _ tendsto_natCast_atTop_atTop
      have h2 : Tendsto (fun n : ℕ => 1 / ((n : ℝ) - m)) atTop (𝓝 0) := by
        simpa only [one_div, Function.comp_def] using tendsto_inv_atTop_zero.comp h1
      have h3 : Tendsto (fun n : ℕ => (4 * m : ℝ) ^ 2 * ((1 + m * (1 / ((n : ℝ) - m))) * (1 / ((n : ℝ) - m)))) atTop (𝓝 ((4 * m : ℝ) ^ 2 * ((1 + m * 0) * 0))) :=
        (((h2.const_mul (m : ℝ)).const_add 1).mul h2).const_mul _
      rw [mul_zero, mul_zero] at h3
      refine h3.congr' ?_
      filter_upwards [h1.eventually_gt_atTop 0] with n hn
      field_simp
      ring
    refine squeeze_zero' (Eventually.of_forall fun n => variance_nonneg _ _) ?_ hlim
    filter_upwards [eventually_gt_atTop 0] with n hn
    have hv := variance_differences (hY n hn).measurable (hY n hn).indep _ (hY n hn).law n (sortedSpacings m p n) (sortedSpacings_measurable m p hp n) n (sortedSpacings_bound m p n) (4 * m)
      (sortedSpacings_update m hm p n)
    have e2 : (fun ω => sortedSpacings m p n (fun i => Y n i ω) / (n - m)) = fun ω => ((n : ℝ) - m)⁻¹ * sortedSpacings m p n (fun i => Y n i ω) := by
      funext ω
      rw [div_eq_mul_inv, mul_comm]
    rw [e2, variance_const_mul, inv_pow, div_eq_inv_mul]
    exact mul_le_mul_of_nonneg_left hv (by positivity)

/-- Convergence in probability at every point of decreasing functions to a decreasing limit is uniform. -/
theorem uniform_limit (P : ℕ → Measure Ω) (G : ℕ → Ω → ℝ → ℝ) (g : ℝ → ℝ) (K : ℝ) (hK : 0 < K) (hG : ∀ᶠ n in atTop, ∀ ω, Antitone (G n ω)) (hG0 : ∀ᶠ n in atTop, ∀ ω d, 0 ≤ G n ω d)
    (hneg : ∀ᶠ n in atTop, ∀ ω d, d < 0 → G n ω d = g d) (hg : ∀ d, 0 ≤ g d) (hgK : ∀ a b, 0 ≤ a → a ≤ b → g a - g b ≤ K * (b - a)) (hgm : ∀ a b, 0 ≤ a → a ≤ b → g b ≤ g a) (hlim : Tendsto g atTop (𝓝 0))
    (h : ∀ d, 0 ≤ d → InProbability P (fun n ω => G n ω d) (g d)) (ε : ℝ) (hε : 0 < ε) :
    Tendsto (fun n => P n {ω | ∃ d, ε ≤ |G n ω d - g d|}) atTop (𝓝 0) := by
  obtain ⟨D, hD, hD0⟩ : ∃ D, g D < ε / 2 ∧ 0 < D := ((hlim.eventually (gt_mem_nhds (by positivity : (0 : ℝ) < ε / 2))).and (eventually_gt_atTop 0)).exists
  set δ := ε / (2 * K) with hδ
  have hδ0 : 0 < δ := by positivity
  obtain ⟨J, hJ⟩ := exists_nat_gt (D / δ)
  rw [div_lt_iff₀ hδ0] at hJ
  have hu : Tendsto (fun n => ∑ j ∈ Finset.range (J + 1), P n {ω | ε / 2 ≤ |G n ω (j * δ) - g (j * δ)|}) atTop (𝓝 0) := by
    have := tendsto_finsetSum (Finset.range (J + 1)) fun j _ => h (j * δ) (by positivity) (ε / 2) (by positivity)
    simpa using this
  refine tendsto_of_tendsto_of_tendsto_of_le_of_le' tendsto_const_nhds hu (Eventually.of_forall fun n => zero_le) ?_
  filter_upwards [hG, hG0, hneg] with n a1 a2 a3
  refine le_trans (measure_mono ?_) (measure_biUnion_finset_le _ _)
  rintro ω ⟨d, hd⟩
  by_contra hc
  simp only [mem_iUnion, not_exists, mem_ofPred_eq, not_le] at hc
  have hc' : ∀ j : ℕ, j ≤ J → |G n ω (j * δ) - g (j * δ)| < ε / 2 := fun j hj => hc j (Finset.mem_range.mpr (by omega))
  rcases lt_or_ge d 0 with hd0 | hd0
  · rw [a3 ω d hd0, sub_self, abs_zero] at hd
    linarith
  rcases le_or_gt (J * δ) d with hJd | hJd
  · have b1 := abs_lt.mp (hc' J le_rfl)
    have b2 := a1 ω hJd
    have b3 := hgm _ _ (by positivity) hJd
    have b4 := hgm D (J * δ) hD0.le hJ.le
    have b5 := a2 ω d
    have b6 := hg d
    have : |G n ω d - g d| < ε := by
      rw [abs_lt]
      constructor <;> linarith
    linarith
  · set j := ⌊d / δ⌋₊ with hj
    have c1 : (j : ℝ) * δ ≤ d := by
      rw [← le_div_iff₀ hδ0]
      exact Nat.floor_le (by positivity)
    have c2 : d ≤ ((j + 1 : ℕ) : ℝ) * δ := by
      rw [← div_le_iff₀ hδ0]
      push_cast
      exact (Nat.lt_floor_add_one _).le
    have c3 : j + 1 ≤ J := by
      have : (j : ℝ) * δ < J * δ := lt_of_le_of_lt c1 hJd
      have : (j : ℝ) < J := lt_of_mul_lt_mul_right this hδ0.le
      exact_mod_cast this
    have b1 := abs_lt.mp (hc' j (by omega))
    have b2 := abs_lt.mp (hc' (j + 1) c3)
    have b3 := a1 ω c1
    have b4 := a1 ω c2
    have b5 := hgK _ _ (by positivity) c1
    have b6 := hgK _ _ hd0 c2
    have b7 : K * δ = ε / 2 := by
      rw [hδ]
      field_simp
    push_cast at b2 b4 b6 c2
    have b8 : K * (d - j * δ) ≤ K * δ := by
      refine mul_le_mul_of_nonneg_left ?_ hK.le
      linarith
    have b9 : K * ((j + 1) * δ - d) ≤ K * δ := by
      refine mul_le_mul_of_nonneg_left ?_ hK.le
      linarith
    have : |G n ω d - g d| < ε := by
      rw [abs_lt]
      constructor <;> linarith
    linarith

end UniformM
end RMT
