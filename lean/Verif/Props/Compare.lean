import Verif.Model.Compare
import Verif.Spec.Difference
import Verif.Lemmas.Correlation
import Verif.Lemmas.Detrend
import Mathlib.Algebra.Order.Chebyshev

/-!
# Properties C62 - C64, C80: comparison of curves
-/

set_option linter.unusedSectionVars false

namespace RMT
namespace Props
open Comparing EigValsM EigM Spec Finset

variable {K : Type} [Field K] [LinearOrder K] [IsStrictOrderedRing K]

/-! ## C64 -/

theorem make1dArray_arr1d {α : Type} (l : List α) : make1dArray (arr1d l) = .ok l := by
  simp [make1dArray, arr1d]

theorem convertCurves_arr1d {α : Type} (ls : List (List α)) : convertCurves (ls.map arr1d) = .ok ls := by
  induction ls with
  | nil => rfl
  | cons l ls ih => simp [convertCurves, make1dArray_arr1d, ih]

theorem initCompare_arr1d {α : Type} (curves : List (List α)) (labels : List String) (base : Option (List α))
    (bl : Option String) :
    initCompare (curves.map arr1d) labels (base.map arr1d) bl =
      (validateCounts ⟨curves, labels, base, bl⟩).map fun _ => ⟨curves, labels, base, bl⟩ := by
  have hb : convertBase (base.map arr1d) = .ok base := by
    cases base with
    | none => rfl
    | some b => simp [convertBase, make1dArray_arr1d]
  simp only [initCompare, convertCurves_arr1d, hb, validateLengths, bind, Except.bind]
  rcases validateCounts (⟨curves, labels, base, bl⟩ : Comp α) with e | u <;> simp [Except.map]

/-- **C64 (construction).** Constructing a `Compare` from 1-D arrays raises `ValueError` exactly when there are no curves, or one curve and no base curve, or the numbers of curves and labels differ; otherwise the
object holds the given data. -/
theorem C64_construct {α : Type} (curves : List (List α)) (labels : List String) (base : Option (List α))
    (bl : Option String) :
    (initCompare (curves.map arr1d) labels (base.map arr1d) bl = .error .valueError ↔
      curves = [] ∨ (curves.length = 1 ∧ base = none) ∨ curves.length ≠ labels.length) ∧
    (initCompare (curves.map arr1d) labels (base.map arr1d) bl = .ok ⟨curves, labels, base, bl⟩ ↔
      ¬ (curves = [] ∨ (curves.length = 1 ∧ base = none) ∨ curves.length ≠ labels.length)) := by
  rw [initCompare_arr1d]
  unfold validateCounts
  have h0 : curves.length < 1 ↔ curves = [] := by
    rw [Nat.lt_one_iff, List.length_eq_zero_iff]
  simp only [h0]
  by_cases h1 : curves = []
  · simp [h1, Except.map]
  · by_cases h2 : curves.length = 1 ∧ base = none
    · simp [h1, h2, Except.map]
    · by_cases h3 : curves.length ≠ labels.length
      · simp [h1, h2, h3, Except.map]
      · simp [h1, h2, h3, Except.map]

/-- **C64 (conversion).** Arrays that are not one-dimensional (nor row vectors…) are rejected by the conversion of `make_1d_array`: `Compare` raises whatever that raises. -/
theorem C64_convert {α : Type} (pre : List (List α)) (a : NDArr α) (post : List (NDArr α)) (labels : List String)
    (base : Option (NDArr α)) (bl : Option String) (e : PyErr) (h : make1dArray a = .error e) :
    initCompare (pre.map arr1d ++ a :: post) labels base bl = .error e := by
  have : convertCurves (pre.map arr1d ++ a :: post) = .error e := by
    induction pre with
    | nil => simp [convertCurves, h]
    | cons p pre ih => simp [convertCurves, make1dArray_arr1d, ih]
  simp [initCompare, this]

/-- A `Compare` object that the constructor can produce. -/
def Constructed {α : Type} (c : Comp α) : Prop :=
  initCompare (c.curves.map arr1d) c.labels (c.base.map arr1d) c.baseLabel = .ok c

theorem constructed_counts {α : Type} (c : Comp α) (h : Constructed c) : validateCounts c = .ok () := by
  unfold Constructed at h
  rw [initCompare_arr1d] at h
  rcases hv : validateCounts c with e | u
  · have : (validateCounts (⟨c.curves, c.labels, c.base, c.baseLabel⟩ : Comp α)) = .error e := hv
    rw [this] at h; simp [Except.map] at h
  · rfl

theorem constructed_ne {α : Type} (c : Comp α) (h : Constructed c) : c.curves ≠ [] := by
  intro hn
  have := constructed_counts c h
  simp [validateCounts, hn] at this

/-- All curves have the length `T`. -/
def SameLength {α : Type} (c : Comp α) (T : Nat) : Prop := ∀ x ∈ c.curves, x.length = T

theorem allSameLength_iff {α : Type} (c : Comp α) (h : c.curves ≠ []) :
    allSameLength c.curves = true ↔ ∃ T, SameLength c T := by
  unfold allSameLength SameLength
  rw [List.all_eq_true]
  constructor
  · intro h'; exact ⟨(c.curves.headD []).length, fun x hx => by simpa using h' x hx⟩
  · rintro ⟨T, hT⟩ x hx
    have h2 : (c.curves.headD []).length = T := by
      cases hc : c.curves with
      | nil => exact absurd hc h
      | cons a l => exact hT a (by simp [hc])
    rw [hT x hx, h2]; simp

theorem headD_length {α : Type} (c : Comp α) (h : c.curves ≠ []) (T : Nat) (hT : SameLength c T) :
    (c.curves.headD []).length = T := by
  cases hc : c.curves with
  | nil => exact absurd hc h
  | cons a l => exact hT a (by simp [hc])

/-- The lengths agree: of the curves, and with a labelled base curve also with the base curve. -/
def LengthsAgree {α : Type} (c : Comp α) : Prop :=
  ∃ T, SameLength c T ∧ ∀ b l, c.base = some b → c.baseLabel = some l → b.length = T

theorem validate_true {α : Type} (c : Comp α) (h : Constructed c) :
    (LengthsAgree c → validateLengths c true = .ok ()) ∧
    (¬ LengthsAgree c → validateLengths c true = .error .valueError) := by
  have hne := constructed_ne c h
  have hv : validateLengths c true = if baseMismatch c then .error .valueError
      else if !allSameLength c.curves then .error .valueError else .ok () := by
    simp only [validateLengths, constructed_counts c h, bind, Except.bind, if_true]
  rw [hv]
  constructor
  · rintro ⟨T, hT, hb⟩
    have h1 : allSameLength c.curves = true := (allSameLength_iff c hne).mpr ⟨T, hT⟩
    have h2 : baseMismatch c = false := by
      unfold baseMismatch
      rcases hb1 : c.base with _ | b
      · rfl
      · rcases hb2 : c.baseLabel with _ | l
        · rfl
        · simp only [hb b l hb1 hb2, headD_length c hne T hT, bne_self_eq_false]
    simp [h1, h2]
  · intro hn
    by_cases h1 : allSameLength c.curves = true
    · obtain ⟨T, hT⟩ := (allSameLength_iff c hne).mp h1
      have h2 : baseMismatch c = true := by
        by_contra h2
        apply hn
        refine ⟨T, hT, fun b l hb hl => ?_⟩
        simp only [baseMismatch, hb, hl, headD_length c hne T hT] at h2
        simpa using (Decidable.not_not.mp (by simpa using h2) : T = b.length).symm
      simp [h2]
    · simp [h1]

/-- **C64 (comparisons).** The comparison methods raise `ValueError` when the lengths do not agree. -/
theorem C64_lengths_differ (c : Comp K) (h : Constructed c) (hl : ¬ LengthsAgree c) (junk : List K) :
    meanSqDifference c junk = .error .valueError ∧ meanAbsDifference c junk = .error .valueError := by
  constructor
  · simp only [meanSqDifference, differences, (validate_true c h).2 hl]
  · simp only [meanAbsDifference, differences, (validate_true c h).2 hl]

/-- **C64 (correlation).** So does `correlate`. -/
theorem C64_lengths_differ_corr (c : Comp ℝ) (h : Constructed c) (hl : ¬ LengthsAgree c) :
    correlate c = .error .valueError := by
  simp only [correlate, (validate_true c h).2 hl]

/-- **C64 (base curve without a label).** The length of a base curve without a label is not checked in advance. If it differs from the common length of the curves, `correlate` still raises
`ValueError`; the mean differences raise it too unless one of the two lengths is 1, in which case numpy broadcasts and they return a number: a base curve `[x]` stands for the constant curve `x`, and curves
`[y]` of length 1 are compared with the base curve as the constant `y`. -/
theorem C64_unlabelled (c : Comp ℝ) (h : Constructed c) (T : Nat) (hT : SameLength c T) (b : List ℝ) (hb : c.base = some b)
    (hl : c.baseLabel = none) (hlen : b.length ≠ T) (junk : List ℝ) (hj : junk.length = c.curves.length) :
    correlate c = .error .valueError ∧
    (b.length ≠ 1 → T ≠ 1 → meanSqDifference c junk = .error .valueError ∧ meanAbsDifference c junk = .error .valueError) ∧
    (∀ x, b = [x] → ∃ f g, meanSqDifference c junk = .ok f ∧ meanAbsDifference c junk = .ok g ∧
      (f.data.getD 0 []).getD 0 0 = ((c.curves.headD []).map fun y => (x - y) ^ 2).sum / T ∧
      (g.data.getD 0 []).getD 0 0 = ((c.curves.headD []).map fun y => |x - y|).sum / T) ∧
    (∀ y, c.curves.head? = some [y] → b.length ≠ 1 → ∃ f g, meanSqDifference c junk = .ok f ∧ meanAbsDifference c junk = .ok g ∧
      (f.data.getD 0 []).getD 0 0 = (b.map fun x => (x - y) ^ 2).sum / b.length ∧
      (g.data.getD 0 []).getD 0 0 = (b.map fun x => |x - y|).sum / b.length) := by
  have hv := (validate_true c h).1 ⟨T, hT, fun b' l _ h2 => by rw [hl] at h2; cases h2⟩
  have hne := constructed_ne c h
  obtain ⟨a, cs, hc⟩ := List.exists_cons_of_ne_nil hne
  have ha : a.length = T := hT a (by simp [hc])
  obtain ⟨j0, js, hjs⟩ := List.exists_cons_of_ne_nil (show junk ≠ [] by rintro rfl; simp [hc] at hj)
  have hba : b.length ≠ a.length := by rw [ha]; exact hlen
  refine ⟨?_, ?_, ?_, ?_⟩
  · simp only [correlate, hv, hb, headD_length c hne T hT, ne_eq, hlen, not_false_eq_true, if_true]
  · intro h1 h2
    have hs : bsub b a = .error .valueError := by
      unfold bsub
      rw [if_neg hba]
      split
      · simp at h1
      · simp [← ha] at h2
      · rfl
    simp [meanSqDifference, meanAbsDifference, differences, hv, hb, baseLoop, hc, hs]
  · rintro x rfl
    have hs : bsub [x] a = .ok (a.map fun y => x - y) := by
      unfold bsub
      rw [if_neg hba]
    simp only [meanSqDifference, meanAbsDifference, differences, hv, hb, baseLoop, hc, hs, hjs, List.set_cons_zero]
    refine ⟨_, _, rfl, rfl, ?_, ?_⟩
    · simp [mean, Function.comp_def, ← ha]
    · simp [mean, Function.comp_def, ← ha]
  · intro y hy h1
    have hay : a = [y] := by simpa [hc] using hy
    subst hay
    have hs : bsub b [y] = .ok (b.map fun x => x - y) := by
      unfold bsub
      rw [if_neg hba]
      split
      · simp at h1
      · rename_i heq; cases heq; rfl
      · rename_i h2; exact absurd rfl (h2 y)
    simp only [meanSqDifference, meanAbsDifference, differences, hv, hb, baseLoop, hc, hs, hjs, List.set_cons_zero]
    refine ⟨_, _, rfl, rfl, ?_, ?_⟩
    · simp [mean, Function.comp_def]
    · simp [mean, Function.comp_def]

/-- The hypotheses are met. -/
example : Constructed (⟨[[1, 2], [3, 5]], ["a", "b"], some [7], none⟩ : Comp ℝ) ∧
    SameLength (⟨[[1, 2], [3, 5]], ["a", "b"], some [7], none⟩ : Comp ℝ) 2 := by
  refine ⟨(C64_construct [[1, 2], [3, 5]] ["a", "b"] (some [7]) none).2.mpr (by simp), ?_⟩
  intro x hx
  simp at hx
  rcases hx with rfl | rfl <;> rfl

/-- **C64 (success).** When the lengths agree, and the base curve (if any) has a label, all comparison methods succeed; the labels of the result are those of the object. -/
theorem C64_success (c : Comp ℝ) (h : Constructed c) (hl : LengthsAgree c)
    (hb : c.base ≠ none → c.baseLabel ≠ none) (junk : List ℝ) :
    ∃ f1 f2 f3, meanSqDifference c junk = .ok f1 ∧ meanAbsDifference c junk = .ok f2 ∧ correlate c = .ok f3 ∧
      f1.index = c.labels ∧ f2.index = c.labels ∧ f3.index = c.labels := by
  have hv := (validate_true c h).1 hl
  obtain ⟨T, hT, hbT⟩ := hl
  have hne := constructed_ne c h
  rcases hbase : c.base with _ | b
  · simp only [meanSqDifference, meanAbsDifference, differences, correlate, hv, hbase]
    exact ⟨_, _, _, rfl, rfl, rfl, rfl, rfl, rfl⟩
  · obtain ⟨l, hlab⟩ := Option.ne_none_iff_exists'.mp (hb (by simp [hbase]))
    have hbl := hbT b l hbase hlab
    have hh := headD_length c hne T hT
    have hloop : ∀ g : List ℝ → ℝ, ∃ v, baseLoop g c.curves b junk = .ok v := by
      intro g
      cases hc : c.curves with
      | nil => exact absurd hc hne
      | cons a t =>
        have ha : b.length = a.length := by rw [hbl]; exact (hT a (by simp [hc])).symm
        simp [baseLoop, bsub, ha]
    obtain ⟨v1, hv1⟩ := hloop fun d => mean (d.map fun x => x ^ 2)
    obtain ⟨v2, hv2⟩ := hloop fun d => mean (d.map fun x => |x|)
    simp only [meanSqDifference, meanAbsDifference, differences, correlate, hv, hbase, hv1, hv2, hh, hbl,
      ne_eq, not_true_eq_false, if_false]
    exact ⟨_, _, _, rfl, rfl, rfl, rfl, rfl, rfl⟩

/-! ## C62 -/

theorem mean_zipWith (f : K → K → K) (T : Nat) (a b : List K) (ha : a.length = T) (hb : b.length = T) :
    mean (List.zipWith f a b) = (∑ t ∈ range T, f (a.getD t 0) (b.getD t 0)) / (T : K) := by
  have hl : (List.zipWith f a b).length = T := by simp [ha, hb]
  rw [mean, sum_getD, hl]
  congr 1
  refine Finset.sum_congr rfl fun t ht => ?_
  have ht' := Finset.mem_range.mp ht
  simp [List.getD_eq_getElem?_getD, ha, hb, ht']

/-- A symmetric table of numbers: entry `(i, j)`. -/
def entry (f : Frame K) (i j : Nat) : K := (f.data.getD i []).getD j 0

theorem grid_entry (f : List K → List K → K) (c : List (List K)) (i j : Nat) (hi : i < c.length) (hj : j < c.length) :
    ((grid f c).getD i []).getD j 0 = f (c.getD i []) (c.getD j []) := by
  simp [grid, List.getD_eq_getElem?_getD, hi, hj]

/-- **C62 (entries).** Without a base curve the results are square tables, with the labels of the curves as row and column labels, whose `(i, j)` entry is the mean squared
(absolute) difference of the curves `i` and `j`. -/
theorem C62_entries (c : Comp K) (hc : Constructed c) (hb : c.base = none) (T : Nat) (hT : SameLength c T) (junk : List K) :
    ∃ f g, meanSqDifference c junk = .ok f ∧ meanAbsDifference c junk = .ok g ∧
      f.data.length = c.curves.length ∧ g.data.length = c.curves.length ∧
      (∀ row ∈ f.data, row.length = c.curves.length) ∧ (∀ row ∈ g.data, row.length = c.curves.length) ∧
      f.index = c.labels ∧ g.index = c.labels ∧ f.columns = c.labels.map some ∧ g.columns = c.labels.map some ∧
      ∀ i j, i < c.curves.length → j < c.curves.length →
        entry f i j = msqd T (c.curves.getD i []) (c.curves.getD j []) ∧
        entry g i j = mad T (c.curves.getD i []) (c.curves.getD j []) := by
  have hv := (validate_true c hc).1 ⟨T, hT, fun b l h => by rw [hb] at h; cases h⟩
  have hlen : ∀ f : List K → List K → K, ∀ row ∈ grid f c.curves, row.length = c.curves.length := by
    intro f row hr
    simp only [grid, List.mem_map] at hr
    obtain ⟨i, -, rfl⟩ := hr
    simp
  have hTi : ∀ i, i < c.curves.length → (c.curves.getD i []).length = T := by
    intro i hi
    apply hT
    rw [List.getD_eq_getElem?_getD, List.getElem?_eq_getElem hi]
    exact List.getElem_mem _
  refine ⟨⟨grid meanSq c.curves, c.labels, c.labels.map some⟩, ⟨grid meanAbs c.curves, c.labels, c.labels.map some⟩,
    ?_, ?_, ?_, ?_, hlen _, hlen _, rfl, rfl, rfl, rfl, fun i j hi hj => ⟨?_, ?_⟩⟩
  · simp only [meanSqDifference, differences, hv, hb]
  · simp only [meanAbsDifference, differences, hv, hb]
  · simp [grid]
  · simp [grid]
  · rw [entry, grid_entry _ _ _ _ hi hj, meanSq, mean_zipWith _ T _ _ (hTi i hi) (hTi j hj)]; rfl
  · rw [entry, grid_entry _ _ _ _ hi hj, meanAbs, mean_zipWith _ T _ _ (hTi i hi) (hTi j hj)]; rfl

theorem msqd_symm (T : Nat) (a b : List K) : msqd T a b = msqd T b a := by
  unfold msqd
  congr 1
  exact Finset.sum_congr rfl fun t _ => by ring

theorem mad_symm (T : Nat) (a b : List K) : mad T a b = mad T b a := by
  unfold mad
  congr 1
  exact Finset.sum_congr rfl fun t _ => abs_sub_comm _ _

theorem zero_iff_aux (T : Nat) (hT : 0 < T) (a b : List K) (ha : a.length = T) (hb : b.length = T) (f : K → K)
    (hf : ∀ x, 0 ≤ f x) (h0 : ∀ x, f x = 0 ↔ x = 0) :
    (∑ t ∈ range T, f (a.getD t 0 - b.getD t 0)) / (T : K) = 0 ↔ a = b := by
  have hT' : (T : K) ≠ 0 := by exact_mod_cast hT.ne'
  rw [div_eq_zero_iff, or_iff_left hT', Finset.sum_eq_zero_iff_of_nonneg (fun t _ => hf _)]
  constructor
  · intro h
    refine ext_getD _ _ (by omega) fun i hi => ?_
    exact sub_eq_zero.mp ((h0 _).mp (h i (Finset.mem_range.mpr (by omega))))
  · rintro rfl t _
    simp [h0]

theorem getD_mem_length (c : Comp K) (T : Nat) (hT : SameLength c T) (i : Nat) (hi : i < c.curves.length) :
    (c.curves.getD i []).length = T := by
  apply hT
  rw [List.getD_eq_getElem?_getD, List.getElem?_eq_getElem hi]
  exact List.getElem_mem _

/-- **C62 (metric properties).** The tables are symmetric and non-negative, with zeros exactly where the two curves are equal; the mean absolute difference satisfies the triangle
inequality, and its square is at most the mean squared difference. -/
theorem C62_metric (c : Comp K) (hc : Constructed c) (hb : c.base = none) (T : Nat) (hpos : 0 < T) (hT : SameLength c T)
    (junk : List K) (f g : Frame K) (hf : meanSqDifference c junk = .ok f) (hg : meanAbsDifference c junk = .ok g)
    (i j : Nat) (hi : i < c.curves.length) (hj : j < c.curves.length) :
    entry f i j = entry f j i ∧ entry g i j = entry g j i ∧ 0 ≤ entry f i j ∧ 0 ≤ entry g i j ∧
    (entry f i j = 0 ↔ c.curves.getD i [] = c.curves.getD j []) ∧
    (entry g i j = 0 ↔ c.curves.getD i [] = c.curves.getD j []) ∧
    (∀ k, k < c.curves.length → entry g i k ≤ entry g i j + entry g j k) ∧
    entry g i j ^ 2 ≤ entry f i j := by
  obtain ⟨f', g', hf', hg', -, -, -, -, -, -, -, -, he⟩ := C62_entries c hc hb T hT junk
  rw [hf] at hf'; cases hf'
  rw [hg] at hg'; cases hg'
  have hT' : (0 : K) < T := by exact_mod_cast hpos
  have hli := getD_mem_length c T hT i hi
  have hlj := getD_mem_length c T hT j hj
  rw [(he i j hi hj).1, (he i j hi hj).2, (he j i hj hi).1, (he j i hj hi).2]
  refine ⟨msqd_symm _ _ _, mad_symm _ _ _, ?_, ?_, ?_, ?_, ?_, ?_⟩
  · exact div_nonneg (Finset.sum_nonneg fun t _ => sq_nonneg _) hT'.le
  · exact div_nonneg (Finset.sum_nonneg fun t _ => abs_nonneg _) hT'.le
  · exact zero_iff_aux T hpos _ _ hli hlj (fun x => x ^ 2) (fun x => sq_nonneg x) (fun x => by simp)
  · exact zero_iff_aux T hpos _ _ hli hlj (fun x => |x|) (fun x => abs_nonneg x) (fun x => by simp)
  · intro k hk
    rw [(he i k hi hk).2, (he j k hj hk).2]
    unfold mad
    rw [← add_div]
    apply div_le_div_of_nonneg_right _ hT'.le
    rw [← Finset.sum_add_distrib]
    exact Finset.sum_le_sum fun t _ => abs_sub_le _ _ _
  · unfold mad msqd
    rw [div_pow, div_le_div_iff₀ (by positivity) hT']
    have h := sq_sum_le_card_mul_sum_sq (s := range T)
      (f := fun t => |(c.curves.getD i []).getD t 0 - (c.curves.getD j []).getD t 0|)
    simp only [Finset.card_range, sq_abs] at h
    nlinarith

/-! ## C63 -/

/-- **C63 (what the code computes).** With a base curve, the value for the first curve is its difference from the base; the values for all other curves are those of the uninitialised array. -/
theorem C63_values (c : Comp K) (hc : Constructed c) (b : List K) (hb : c.base = some b) (T : Nat)
    (hT : SameLength c T) (hbT : b.length = T) (junk : List K) (hj : junk.length = c.curves.length) :
    ∃ f g, meanSqDifference c junk = .ok f ∧ meanAbsDifference c junk = .ok g ∧
      f.data.length = c.curves.length ∧ g.data.length = c.curves.length ∧
      f.index = c.labels ∧ g.index = c.labels ∧ f.columns = [c.baseLabel] ∧ g.columns = [c.baseLabel] ∧
      entry f 0 0 = msqd T b (c.curves.getD 0 []) ∧ entry g 0 0 = mad T b (c.curves.getD 0 []) ∧
      ∀ i, 0 < i → i < c.curves.length → entry f i 0 = junk.getD i 0 ∧ entry g i 0 = junk.getD i 0 := by
  have hv := (validate_true c hc).1 ⟨T, hT, fun b' l h _ => by rw [hb] at h; cases h; exact hbT⟩
  have hne := constructed_ne c hc
  have hloop : ∀ g : List K → K, baseLoop g c.curves b junk = .ok (junk.set 0 (g (List.zipWith (· - ·) b (c.curves.getD 0 [])))) := by
    intro g
    cases hcc : c.curves with
    | nil => exact absurd hcc hne
    | cons a t =>
      have ha : b.length = a.length := by rw [hbT]; exact (hT a (by simp [hcc])).symm
      simp [baseLoop, bsub, ha]
  have hpos : 0 < c.curves.length := List.length_pos_iff.mpr hne
  have h0 := getD_mem_length c T hT 0 hpos
  refine ⟨⟨(junk.set 0 (mean ((List.zipWith (· - ·) b (c.curves.getD 0 [])).map fun x => x ^ 2))).map fun x => [x],
      c.labels, [c.baseLabel]⟩,
    ⟨(junk.set 0 (mean ((List.zipWith (· - ·) b (c.curves.getD 0 [])).map fun x => |x|))).map fun x => [x],
      c.labels, [c.baseLabel]⟩, ?_, ?_, ?_, ?_, rfl, rfl, rfl, rfl, ?_, ?_, ?_⟩
  · simp only [meanSqDifference, differences, hv, hb, hloop]
  · simp only [meanAbsDifference, differences, hv, hb, hloop]
  · simp [hj]
  · simp [hj]
  · have : 0 < junk.length := by omega
    simp only [entry, List.getD_eq_getElem?_getD, List.getElem?_map, List.getElem?_set_self this, Option.map_some,
      Option.getD_some, List.getElem?_cons_zero]
    rw [List.map_zipWith, ← List.getD_eq_getElem?_getD, mean_zipWith _ T _ _ hbT h0]
    rfl
  · have : 0 < junk.length := by omega
    simp only [entry, List.getD_eq_getElem?_getD, List.getElem?_map, List.getElem?_set_self this, Option.map_some,
      Option.getD_some, List.getElem?_cons_zero]
    rw [List.map_zipWith, ← List.getD_eq_getElem?_getD, mean_zipWith _ T _ _ hbT h0]
    rfl
  · intro i hi hi2
    have h1 : i < junk.length := by omega
    constructor
    · simp [entry, List.getD_eq_getElem?_getD, List.getElem?_set_ne (Nat.ne_of_lt hi), List.getElem?_eq_getElem h1]
    · simp [entry, List.getD_eq_getElem?_getD, List.getElem?_set_ne (Nat.ne_of_lt hi), List.getElem?_eq_getElem h1]

/-- **C63 (a single curve).** With a single curve the result is right. Missing from the full statement: several curves, where it is false. -/
theorem C63_single_partial (curve b : List K) (label : String) (bl : Option String) (hbT : b.length = curve.length) (junk : List K)
    (hj : junk.length = 1) :
    meanSqDifference ⟨[curve], [label], some b, bl⟩ junk = .ok ⟨[[msqd curve.length b curve]], [label], [bl]⟩ ∧
    meanAbsDifference ⟨[curve], [label], some b, bl⟩ junk = .ok ⟨[[mad curve.length b curve]], [label], [bl]⟩ := by
  have hv : validateLengths (⟨[curve], [label], some b, bl⟩ : Comp K) true = .ok () := by
    refine (validate_true _ ?_).1 ⟨curve.length, ?_, ?_⟩
    · exact (C64_construct [curve] [label] (some b) bl).2.mpr (by simp)
    · intro x hx; simp at hx; rw [hx]
    · intro b' l h _; cases h; exact hbT
  obtain ⟨x, rfl⟩ := List.length_eq_one_iff.mp hj
  constructor
  · simp only [meanSqDifference, differences, hv, baseLoop, bsub, hbT, if_true, List.set_cons_zero, List.map_cons, List.map_nil,
      List.map_zipWith]
    rw [mean_zipWith _ curve.length _ _ hbT rfl]; rfl
  · simp only [meanAbsDifference, differences, hv, baseLoop, bsub, hbT, if_true, List.set_cons_zero, List.map_cons, List.map_nil,
      List.map_zipWith]
    rw [mean_zipWith _ curve.length _ _ hbT rfl]; rfl

/-- **C63 is false.** For every object with at least two curves and a base curve, the value reported for the second curve can be any number. -/
theorem C63_refuted (c : Comp K) (hc : Constructed c) (b : List K) (hb : c.base = some b) (T : Nat)
    (hT : SameLength c T) (hbT : b.length = T) (h2 : 2 ≤ c.curves.length) (v : K) :
    ∃ junk f, junk.length = c.curves.length ∧ meanSqDifference c junk = .ok f ∧ entry f 1 0 = v := by
  obtain ⟨f, g, hf, -, -, -, -, -, -, -, -, -, hr⟩ :=
    C63_values c hc b hb T hT hbT (List.replicate c.curves.length v) (by simp)
  refine ⟨_, f, by simp, hf, ?_⟩
  rw [(hr 1 (by omega) (by omega)).1]
  simp [List.getD_eq_getElem?_getD, (show 1 < c.curves.length by omega)]

/-- The hypotheses are met. -/
example : Constructed (⟨[[1, 2], [3, 5]], ["a", "b"], some [0, 0], some "base"⟩ : Comp ℚ) ∧
    SameLength (⟨[[1, 2], [3, 5]], ["a", "b"], some [0, 0], some "base"⟩ : Comp ℚ) 2 ∧
    Constructed (⟨[[1, 2], [3, 5]], ["a", "b"], none, none⟩ : Comp ℚ) :=
  ⟨(C64_construct [[1, 2], [3, 5]] ["a", "b"] (some [0, 0]) (some "base")).2.mpr (by simp), by simp [SameLength],
    (C64_construct [[1, 2], [3, 5]] ["a", "b"] none none).2.mpr (by simp)⟩
example : ¬ LengthsAgree (⟨[[1, 2], [3]], ["a", "b"], none, none⟩ : Comp ℚ) := by
  rintro ⟨T, hT, -⟩
  have h1 := hT [1, 2] (by simp)
  have h2 := hT [3] (by simp)
  simp at h1 h2
  omega

/-! ## C80 -/

/-- Curve `l` as a function of the time. -/
def asFun (T : Nat) (l : List ℝ) : Fin T → ℝ := fun t => l.getD t 0

theorem corrcoef_entry (curves : List (List ℝ)) (T : Nat) (hT : (curves.headD []).length = T) (h2 : 1 < T) (i j : Nat)
    (hi : i < curves.length) (hj : j < curves.length) :
    ((corrcoef curves).getD i []).getD j 0 =
      pearson (asFun T (curves.getD i [])) (asFun T (curves.getD j [])) := by
  subst hT
  unfold corrcoef
  rw [correlateFast_eq _ 1 h2]
  have e : ∀ k (hk : k < curves.length), toMatrix curves (curves.headD []).length ⟨k, hk⟩ =
      asFun (curves.headD []).length (curves.getD k []) := fun k hk => rfl
  rw [← e i hi, ← e j hj]
  simp [List.getD_eq_getElem?_getD, hi, hj, corrMatrix]

theorem pearson_self (T : Nat) (l : List ℝ) (h : NonConstant (asFun T l)) : pearson (asFun T l) (asFun T l) = 1 := by
  have hT : 0 < T := by obtain ⟨s, -, -⟩ := h; exact s.pos
  let X : Matrix (Fin 1) (Fin T) ℝ := fun _ => asFun T l
  have h1 := pearson_eq X hT 0 0
  have hp := S_self_pos X 0 h
  have : pearson (asFun T l) (asFun T l) = pearson (X 0) (X 0) := rfl
  rw [this, h1]
  have hs : Real.sqrt (S X 0 0) * Real.sqrt (S X 0 0) = S X 0 0 := Real.mul_self_sqrt hp.le
  rw [hs, div_self hp.ne']

/-- **C80 (no base).** Without a base curve, `correlate` returns the table of the Pearson correlations of the curves: symmetric, entries in `[-1, 1]`, and ones on the diagonal for
curves that are not constant. -/
theorem C80_correlate (c : Comp ℝ) (hc : Constructed c) (hb : c.base = none) (T : Nat) (h2 : 1 < T) (hT : SameLength c T) :
    ∃ f, correlate c = .ok f ∧ f.index = c.labels ∧ f.columns = c.labels.map some ∧ f.data.length = c.curves.length ∧
      (∀ row ∈ f.data, row.length = c.curves.length) ∧
      ∀ i j, i < c.curves.length → j < c.curves.length →
        entry f i j = pearson (asFun T (c.curves.getD i [])) (asFun T (c.curves.getD j [])) ∧
        |entry f i j| ≤ 1 ∧ entry f i j = entry f j i ∧
        (NonConstant (asFun T (c.curves.getD i [])) → entry f i i = 1) := by
  have hv := (validate_true c hc).1 ⟨T, hT, fun b l h => by rw [hb] at h; cases h⟩
  have hh := headD_length c (constructed_ne c hc) T hT
  refine ⟨⟨corrcoef c.curves, c.labels, c.labels.map some⟩, ?_, rfl, rfl, by simp [corrcoef], ?_, fun i j hi hj => ?_⟩
  · simp only [correlate, hv, hb]
  · intro row hr
    simp only [corrcoef, List.mem_ofFn] at hr
    obtain ⟨i, rfl⟩ := hr
    simp
  · have e := corrcoef_entry c.curves T hh h2 i j hi hj
    have e' := corrcoef_entry c.curves T hh h2 j i hj hi
    have ei := corrcoef_entry c.curves T hh h2 i i hi hi
    simp only [entry]
    rw [e, e', ei]
    let X : Matrix (Fin 2) (Fin T) ℝ := fun k => if k = 0 then asFun T (c.curves.getD i []) else asFun T (c.curves.getD j [])
    refine ⟨rfl, ?_, ?_, pearson_self T _⟩
    · have := pearson_abs_le X (by omega) 0 1
      simpa [X] using this
    · have := corrMatrix_isSymm X
      have h3 := congrFun (congrFun this 1) 0
      simpa [corrMatrix, X, Matrix.transpose] using h3

/-- **C80 (base).** With a base curve, `correlate` returns for every curve its Pearson correlation with the base curve. -/
theorem C80_correlate_base (c : Comp ℝ) (hc : Constructed c) (b : List ℝ) (hb : c.base = some b) (T : Nat) (h2 : 1 < T)
    (hT : SameLength c T) (hbT : b.length = T) :
    ∃ f, correlate c = .ok f ∧ f.index = c.labels ∧ f.columns = [c.baseLabel] ∧ f.data.length = c.curves.length ∧
      ∀ i, i < c.curves.length →
        f.data.getD i [] = [pearson (asFun T b) (asFun T (c.curves.getD i []))] := by
  have hv := (validate_true c hc).1 ⟨T, hT, fun b' l h _ => by rw [hb] at h; cases h; exact hbT⟩
  have hh := headD_length c (constructed_ne c hc) T hT
  refine ⟨⟨(((corrcoef (b :: c.curves)).headD []).drop 1).map fun x => [x], c.labels, [c.baseLabel]⟩, ?_, rfl, rfl, ?_, fun i hi => ?_⟩
  · simp only [correlate, hv, hb, hh, hbT, ne_eq, not_true_eq_false, if_false]
  · simp [corrcoef, List.ofFn_succ]
  · have e := corrcoef_entry (b :: c.curves) T (by simpa using hbT) h2 0 (i + 1) (by simp) (by simpa using hi)
    have hlen : i + 1 < ((corrcoef (b :: c.curves)).getD 0 []).length := by
      simp [corrcoef, List.getD_eq_getElem?_getD]; omega
    have hhd : (corrcoef (b :: c.curves)).headD [] = (corrcoef (b :: c.curves)).getD 0 [] := by
      cases corrcoef (b :: c.curves) <;> rfl
    simp only [List.getD_cons_zero, List.getD_cons_succ] at e
    rw [← e, hhd]
    generalize (corrcoef (b :: c.curves)).getD 0 [] = row at *
    simp [List.getD_eq_getElem?_getD, List.getElem?_eq_getElem hlen]

/-- **C80 (ensemble_compare).** The comparison of an observable with its expected curve of the same length (at least 2) gives the mean absolute difference, the mean squared difference or the correlation
according to the metric, and `ValueError` for another metric. -/
theorem C80_metric (expected curve junk : List ℝ) (name metric : String) (h : expected.length = curve.length) (h2 : 2 ≤ curve.length)
    (hj : junk.length = 1) :
    ensembleMetric expected curve junk name metric =
      if metric = "mad" then .ok (mad curve.length expected curve)
      else if metric = "msqd" then .ok (msqd curve.length expected curve)
      else if metric = "corr" then .ok (pearson (asFun curve.length expected) (asFun curve.length curve))
      else .error .valueError := by
  have hi : initCompare [arr1d curve] [name] (some (arr1d expected)) (some "exp") =
      .ok ⟨[curve], [name], some expected, some "exp"⟩ :=
    (C64_construct [curve] [name] (some expected) (some "exp")).2.mpr (by simp)
  have hC : Constructed (⟨[curve], [name], some expected, some "exp"⟩ : Comp ℝ) := hi
  obtain ⟨s1, s2⟩ := C63_single_partial curve expected name (some "exp") h junk hj
  have s3 : correlate ⟨[curve], [name], some expected, some "exp"⟩ =
      .ok ⟨[[pearson (asFun curve.length expected) (asFun curve.length curve)]], [name], [some "exp"]⟩ := by
    obtain ⟨f, hf, h1, h3, h4, h5⟩ := C80_correlate_base _ hC expected rfl curve.length (by omega)
      (by intro x hx; simp at hx; rw [hx]) h
    rw [hf]
    obtain ⟨d, ix, cl⟩ := f
    simp only at h1 h3 h4 h5
    obtain ⟨r, rfl⟩ := List.length_eq_one_iff.mp (by simpa using h4)
    have := h5 0 (by simp)
    simp at this
    rw [h1, h3, this]
  simp only [ensembleMetric, hi, bind, Except.bind]
  by_cases m1 : metric = "mad"
  · simp only [if_pos m1, s2, frameEntry]
  · by_cases m2 : metric = "msqd"
    · simp only [if_neg m1, if_pos m2, s1, frameEntry]
    · by_cases m3 : metric = "corr"
      · simp only [if_neg m1, if_neg m2, if_pos m3, s3, frameEntry]
      · simp only [if_neg m1, if_neg m2, if_neg m3]

/-- **C80 (different lengths).** A curve of another length than the expected one raises `ValueError`, for every metric. -/
theorem C80_metric_lengths (expected curve junk : List ℝ) (name metric : String) (h : expected.length ≠ curve.length) :
    ensembleMetric expected curve junk name metric = .error .valueError := by
  have hi : initCompare [arr1d curve] [name] (some (arr1d expected)) (some "exp") =
      .ok ⟨[curve], [name], some expected, some "exp"⟩ :=
    (C64_construct [curve] [name] (some expected) (some "exp")).2.mpr (by simp)
  have hC : Constructed (⟨[curve], [name], some expected, some "exp"⟩ : Comp ℝ) := hi
  have hn : ¬ LengthsAgree (⟨[curve], [name], some expected, some "exp"⟩ : Comp ℝ) := by
    rintro ⟨T, hT, hb⟩
    exact h ((hb expected "exp" rfl rfl).trans (hT curve (by simp)).symm)
  simp only [ensembleMetric, hi, bind, Except.bind]
  by_cases m1 : metric = "mad"
  · simp only [if_pos m1, (C64_lengths_differ _ hC hn junk).2]
  · by_cases m2 : metric = "msqd"
    · simp only [if_neg m1, if_pos m2, (C64_lengths_differ _ hC hn junk).1]
    · by_cases m3 : metric = "corr"
      · simp only [if_neg m1, if_neg m2, if_pos m3, C64_lengths_differ_corr _ hC hn]
      · simp only [if_neg m1, if_neg m2, if_neg m3]

example : ensembleMetric [0, 0] [1, 3] [7] "nnsd" "mad" = .ok 2 := by
  rw [C80_metric [0, 0] [1, 3] [7] _ _ (by simp) (by simp) (by simp), if_pos rfl]
  norm_num [mad, Finset.sum_range_succ]

end Props
end RMT
