import Mathlib.Analysis.Matrix.Spectrum
import Mathlib.Analysis.SpecialFunctions.Log.Basic
import Mathlib.Analysis.SpecialFunctions.Exponential
import Mathlib.MeasureTheory.Constructions.BorelSpace.Metrizable
import Mathlib.MeasureTheory.Constructions.BorelSpace.Complex
import Mathlib.MeasureTheory.Function.SpecialFunctions.Basic
import Mathlib.Data.List.GetD

/-!
# Sorted eigenvalues are measurable functions of their power sums
-/

namespace RMT
namespace SpectrumM
open Filter Topology Real

/-- The sum of the `k`-th powers. -/
noncomputable def powSum (k : Nat) (l : List ℝ) : ℝ := (l.map (· ^ k)).sum

/-- The sum of the exponentials of the `t`-fold values. -/
noncomputable def expSum (t : ℝ) (l : List ℝ) : ℝ := (l.map fun x => exp (t * x)).sum

theorem expSum_series (t : ℝ) (l : List ℝ) :
    Tendsto (fun N => ∑ k ∈ Finset.range N, t ^ k / k.factorial * powSum k l) atTop (𝓝 (expSum t l)) := by
  induction l with
  | nil => simp [powSum, expSum]
  | cons x l ih =>
    have h : Tendsto (fun N => ∑ k ∈ Finset.range N, (t * x) ^ k / k.factorial) atTop (𝓝 (exp (t * x))) := by
      have := (NormedSpace.expSeries_div_hasSum_exp (𝔸 := ℝ) (t * x)).tendsto_sum_nat
      rwa [← Real.exp_eq_exp_ℝ] at this
    have e : ∀ N, ∑ k ∈ Finset.range N, t ^ k / k.factorial * powSum k (x :: l) =
        ∑ k ∈ Finset.range N, (t * x) ^ k / k.factorial + ∑ k ∈ Finset.range N, t ^ k / k.factorial * powSum k l := by
      intro N
      rw [← Finset.sum_add_distrib]
      refine Finset.sum_congr rfl fun k _ => ?_
      simp only [powSum, List.map_cons, List.sum_cons, mul_pow]
      ring
    simp only [e]
    have : expSum t (x :: l) = exp (t * x) + expSum t l := by simp [expSum]
    rw [this]
    exact h.add ih

theorem expSum_le (t : ℝ) (ht : 0 ≤ t) (m : ℝ) (l : List ℝ) (h : ∀ x ∈ l, x ≤ m) : expSum t l ≤ l.length * exp (t * m) := by
  induction l with
  | nil => simp [expSum]
  | cons x l ih =>
    have h1 := ih fun y hy => h y (List.mem_cons_of_mem _ hy)
    have h2 : exp (t * x) ≤ exp (t * m) := exp_le_exp.mpr (mul_le_mul_of_nonneg_left (h x List.mem_cons_self) ht)
    have : expSum t (x :: l) = exp (t * x) + expSum t l := by simp [expSum]
    rw [this]
    push_cast [List.length_cons]
    linarith

theorem expSum_nonneg (t : ℝ) (l : List ℝ) : 0 ≤ expSum t l := by
  apply List.sum_nonneg
  intro x hx
  obtain ⟨y, -, rfl⟩ := List.mem_map.mp hx
  exact (exp_pos _).le

theorem head_limit (m : ℝ) (l : List ℝ) (h : ∀ x ∈ l, x ≤ m) :
    Tendsto (fun N : ℕ => log (expSum (N + 1) (m :: l)) / (N + 1)) atTop (𝓝 m) := by
  have hup : Tendsto (fun N : ℕ => m + log (l.length + 1) * (1 / ((N : ℝ) + 1))) atTop (𝓝 m) := by
    simpa using tendsto_const_nhds.add (tendsto_one_div_add_atTop_nhds_zero_nat.const_mul (log (l.length + 1)))
  refine tendsto_of_tendsto_of_tendsto_of_le_of_le tendsto_const_nhds hup (fun N => ?_) (fun N => ?_)
  · have hN : (0 : ℝ) < N + 1 := by positivity
    have e : expSum (N + 1) (m :: l) = exp ((N + 1) * m) + expSum (N + 1) l := by simp [expSum]
    have := expSum_nonneg ((N : ℝ) + 1) l
    simp only
    rw [le_div_iff₀ hN, le_log_iff_exp_le (by rw [e]; positivity), e, mul_comm]
    linarith
  · have hN : (0 : ℝ) < N + 1 := by positivity
    have e : expSum (N + 1) (m :: l) = exp ((N + 1) * m) + expSum (N + 1) l := by simp [expSum]
    have h1 := expSum_nonneg ((N : ℝ) + 1) l
    have h2 := expSum_le ((N : ℝ) + 1) hN.le m l h
    have h3 : (0 : ℝ) < l.length + 1 := by positivity
    simp only
    rw [div_le_iff₀ hN, log_le_iff_le_exp (by rw [e]; positivity), e]
    have e3 : (m + log ((l.length : ℝ) + 1) * (1 / ((N : ℝ) + 1))) * (N + 1) = (N + 1) * m + log (l.length + 1) := by field_simp
    rw [e3, exp_add, exp_log h3]
    nlinarith [exp_pos (((N : ℝ) + 1) * m)]

/-- The entries of descending lists of one length depend measurably on a parameter if their power sums do. -/
theorem measurable_desc {α : Type} [MeasurableSpace α] (n : Nat) : ∀ (f : α → List ℝ), (∀ a, (f a).length = n) → (∀ a, (f a).Pairwise (· ≥ ·)) →
    (∀ k, Measurable fun a => powSum k (f a)) → ∀ i, Measurable fun a => (f a).getD i 0 := by
  induction n with
  | zero =>
    intro f hl _ _ i
    have : (fun a => (f a).getD i 0) = fun _ => 0 := by
      funext a
      rw [List.length_eq_zero_iff.mp (hl a)]
      rfl
    rw [this]
    exact measurable_const
  | succ n ih =>
    intro f hl hs hm
    have hc : ∀ a, f a = (f a).getD 0 0 :: (f a).tail := by
      intro a
      obtain ⟨x, l, hx⟩ := List.exists_cons_of_length_eq_add_one (hl a)
      rw [hx]; rfl
    have hle : ∀ a, ∀ x ∈ (f a).tail, x ≤ (f a).getD 0 0 := by
      intro a x hx
      have := hs a
      rw [hc a] at this
      exact (List.pairwise_cons.mp this).1 x hx
    have hexp : ∀ t, Measurable fun a => expSum t (f a) := by
      intro t
      refine measurable_of_tendsto_metrizable (f := fun N a => ∑ k ∈ Finset.range N, t ^ k / k.factorial * powSum k (f a)) (fun N => ?_) ?_
      · exact Finset.measurable_sum _ fun k _ => (hm k).const_mul _
      · exact tendsto_pi_nhds.mpr fun a => expSum_series t (f a)
    have hhead : Measurable fun a => (f a).getD 0 0 := by
      refine measurable_of_tendsto_metrizable (f := fun (N : ℕ) a => log (expSum ((N : ℝ) + 1) (f a)) / ((N : ℝ) + 1)) (fun N => ?_) ?_
      · exact (measurable_log.comp (hexp _)).div_const _
      · refine tendsto_pi_nhds.mpr fun a => ?_
        have := head_limit _ _ (hle a)
        rwa [← hc a] at this
    have htail := ih (fun a => (f a).tail) (fun a => by simp [hl a]) (fun a => (hs a).sublist (List.tail_sublist _)) (fun k => by
      have : (fun a => powSum k (f a).tail) = fun a => powSum k (f a) - (f a).getD 0 0 ^ k := by
        funext a
        conv_rhs => rw [hc a]
        simp [powSum]
      rw [this]
      exact (hm k).sub (hhead.pow_const k))
    intro i
    cases i with
    | zero => exact hhead
    | succ i =>
      have : (fun a => (f a).getD (i + 1) 0) = fun a => (f a).tail.getD i 0 := by
        funext a
        rw [hc a]
        simp
      rw [this]
      exact htail i

/-- The entries of ascending lists of one length depend measurably on a parameter if their power sums do. -/
theorem measurable_asc {α : Type} [MeasurableSpace α] (n : Nat) (f : α → List ℝ) (hl : ∀ a, (f a).length = n) (hs : ∀ a, (f a).Pairwise (· ≤ ·))
    (hm : ∀ k, Measurable fun a => powSum k (f a)) (i : Nat) : Measurable fun a => (f a).getD i 0 := by
  have h := measurable_desc n (fun a => (f a).reverse) (fun a => by simp [hl]) (fun a => List.pairwise_reverse.mpr (hs a))
    (fun k => by simpa [powSum, List.map_reverse, List.sum_reverse] using hm k)
  by_cases hi : i < n
  · have : (fun a => (f a).getD i 0) = fun a => (f a).reverse.getD (n - 1 - i) 0 := by
      funext a
      rw [List.getD_eq_getElem _ _ (by rw [hl]; exact hi), List.getD_eq_getElem _ _ (by rw [List.length_reverse, hl]; omega), List.getElem_reverse]
      congr 1
      rw [hl]; omega
    rw [this]
    exact h _
  · have : (fun a => (f a).getD i 0) = fun _ => 0 := by
      funext a
      rw [List.getD_eq_default _ _ (by rw [hl]; omega)]
    rw [this]
    exact measurable_const

/-- The trace of a power of a Hermitian matrix is the power sum of its eigenvalues. -/
theorem trace_pow {𝕜 : Type} [RCLike 𝕜] {n : Nat} (M : Matrix (Fin n) (Fin n) 𝕜) (hM : M.IsHermitian) (k : Nat) :
    (M ^ k).trace = ((∑ i, hM.eigenvalues i ^ k : ℝ) : 𝕜) := by
  have e : M ^ k = (Unitary.conjStarAlgAut 𝕜 _ hM.eigenvectorUnitary) (Matrix.diagonal (RCLike.ofReal ∘ hM.eigenvalues) ^ k) := by
    rw [map_pow, ← hM.spectral_theorem]
  rw [e, Unitary.conjStarAlgAut_apply, Matrix.trace_mul_comm, ← mul_assoc]
  simp [Matrix.diagonal_pow]

/-- Powers of a matrix with measurable entries have measurable entries. -/
theorem measurable_pow {α : Type} [MeasurableSpace α] {𝕜 : Type} [RCLike 𝕜] {n : Nat} (M : α → Matrix (Fin n) (Fin n) 𝕜)
    (h : ∀ i j, Measurable fun a => M a i j) (k : Nat) : ∀ i j, Measurable fun a => (M a ^ k) i j := by
  induction k with
  | zero => intro i j; simp only [pow_zero]; exact measurable_const
  | succ k ih =>
    intro i j
    simp only [pow_succ, Matrix.mul_apply]
    exact Finset.measurable_sum _ fun l _ => (ih i l).mul (h l j)

/-- Sorted eigenvalues of Hermitian matrices with measurable entries are measurable. -/
theorem measurable_eigs {α : Type} [MeasurableSpace α] {𝕜 : Type} [RCLike 𝕜] {n : Nat} (M : α → Matrix (Fin n) (Fin n) 𝕜)
    (h : ∀ i j, Measurable fun a => M a i j) (hM : ∀ a, (M a).IsHermitian) (vals : α → List ℝ) (hs : ∀ a, (vals a).Pairwise (· ≤ ·))
    (hv : ∀ a, ((vals a : Multiset ℝ).map fun (x : ℝ) => (x : 𝕜)) = (M a).charpoly.roots) :
    (∀ a, (vals a).length = n) ∧ (∀ i, Measurable fun a => (vals a).getD i 0) ∧ ∀ a k, ((powSum k (vals a) : ℝ) : 𝕜) = (M a ^ k).trace := by
  have hp : ∀ a, (vals a : Multiset ℝ) = Finset.univ.val.map (hM a).eigenvalues := by
    intro a
    apply Multiset.map_injective (f := fun (x : ℝ) => (x : 𝕜)) (fun x y hxy => by simpa using hxy)
    rw [hv, (hM a).roots_charpoly_eq_eigenvalues, Multiset.map_map]
  have hpow : ∀ a k, powSum k (vals a) = ∑ i, (hM a).eigenvalues i ^ k := by
    intro a k
    have : powSum k (vals a) = ((vals a : Multiset ℝ).map (· ^ k)).sum := by simp [powSum]
    rw [this, hp, Multiset.map_map]
    rfl
  have hlen : ∀ a, (vals a).length = n := by
    intro a
    have := congrArg Multiset.card (hp a)
    simpa using this
  refine ⟨hlen, measurable_asc n vals hlen hs fun k => ?_, fun a k => by rw [hpow, trace_pow]⟩
  have e : (fun a => powSum k (vals a)) = fun a => RCLike.re ((M a ^ k).trace) := by
    funext a
    rw [trace_pow _ (hM a), ← hpow, RCLike.ofReal_re]
  rw [e]
  refine RCLike.continuous_re.measurable.comp ?_
  simp only [Matrix.trace, Matrix.diag]
  exact Finset.measurable_sum _ fun i _ => measurable_pow M h k i i

end SpectrumM
end RMT
