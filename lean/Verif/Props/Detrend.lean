import Verif.Lemmas.Detrend
import Verif.Lemmas.Eigenvalues

/-!
# Properties C57 - C61: detrending and signal selection
-/

set_option linter.unusedSectionVars false

namespace RMT
namespace Props
open Detrending Spec EigValsM Finset

variable {K : Type} [Field K] [LinearOrder K] [IsStrictOrderedRing K]

/-! ## C57 -/

theorem detrend_linear_eq (lib : Lib K) (y : List K) (h : 2 ≤ y.length) (m : MethodArg)
    (hm : m = .str "linear" ∨ m = .member .linear) :
    detrend lib y m = .ok (lineRes y) := by
  have hv : validate m = .ok (.member .linear) := by
    rcases hm with rfl | rfl
    · decide
    · rfl
  simp only [detrend, hv, bind, Except.bind, trendOf, linregress_ok lib y h, unpack2, List.take]
  rfl

/-- **C57 (linear).** `detrend(y, "linear")` of a series with at least two entries returns the residuals of `y` with respect to a straight line; the residuals have
mean zero, are orthogonal to time, and have the least sum of squares of all residuals with respect to straight lines. -/
theorem C57_linear (lib : Lib K) (y : List K) (h : 2 ≤ y.length) (m : MethodArg)
    (hm : m = .str "linear" ∨ m = .member .linear) :
    ∃ r, detrend lib y m = .ok r ∧ IsLineResidual y r ∧ ZeroSum r ∧ OrthTime r ∧ IsLeastResidual y r := by
  refine ⟨_, detrend_linear_eq lib y h m hm, lineRes_isLine y, (lineRes_normal y).1, (lineRes_normal y).2,
    lineRes_isLine y, fun r' hr' => ?_⟩
  rw [sq_decomp y _ r' (lineRes_isLine y) (lineRes_normal y).1 (lineRes_normal y).2 hr']
  have : 0 ≤ ∑ i ∈ range (lineRes y).length, (r'.getD i 0 - (lineRes y).getD i 0) ^ 2 :=
    Finset.sum_nonneg fun i _ => sq_nonneg _
  linarith

/-- **C57 (characterisation).** The result is the only one with these properties. -/
theorem C57_linear_unique (lib : Lib K) (y : List K) (h : 2 ≤ y.length) (r : List K) :
    detrend lib y (.str "linear") = .ok r ↔ IsLineResidual y r ∧ ZeroSum r ∧ OrthTime r := by
  rw [detrend_linear_eq lib y h _ (Or.inl rfl), Except.ok.injEq, eq_comm]
  exact lineRes_eq_iff y r

/-- **C57 (idempotence).** Detrending a detrended series changes nothing. -/
theorem C57_idempotent (lib lib' : Lib K) (y r : List K) (h : 2 ≤ y.length)
    (hr : detrend lib y (.str "linear") = .ok r) : detrend lib' r (.str "linear") = .ok r := by
  obtain ⟨⟨hl, a, b, hi⟩, h0, h1⟩ := (C57_linear_unique lib y h r).mp hr
  refine (C57_linear_unique lib' r (by omega) r).mpr ⟨⟨rfl, 0, 0, fun i _ => by simp⟩, h0, h1⟩

/-- **C57 (trend-invariance).** Adding a straight line to the series does not change the result. -/
theorem C57_line_invariant (lib : Lib K) (y y' : List K) (h : 2 ≤ y.length) (hl : y'.length = y.length) (a b : K)
    (hy : ∀ i < y.length, y'.getD i 0 = y.getD i 0 + (a * (i : K) + b)) :
    detrend lib y' (.str "linear") = detrend lib y (.str "linear") := by
  obtain ⟨r, hr, -⟩ := C57_linear lib y h _ (Or.inl rfl)
  rw [hr]
  obtain ⟨⟨hl1, a1, b1, hi⟩, h0, h1⟩ := (C57_linear_unique lib y h r).mp hr
  refine (C57_linear_unique lib y' (by omega) r).mpr ⟨⟨by omega, a1 + a, b1 + b, fun i hi' => ?_⟩, h0, h1⟩
  rw [hi i (by omega), hy i (by omega)]; ring

/-- **C57 (lines).** Straight lines are mapped to zero. -/
theorem C57_line_to_zero (lib : Lib K) (y : List K) (h : 2 ≤ y.length) (a b : K)
    (hy : ∀ i < y.length, y.getD i 0 = a * (i : K) + b) :
    detrend lib y (.str "linear") = .ok (List.replicate y.length 0) := by
  refine (C57_linear_unique lib y h _).mpr ⟨⟨by simp, a, b, fun i hi => ?_⟩, ?_, ?_⟩
  · rw [hy i hi]; simp [List.getD_eq_getElem?_getD, hi]
  · unfold ZeroSum
    refine Finset.sum_eq_zero fun i hi => ?_
    simp only [List.length_replicate, Finset.mem_range] at hi
    simp [List.getD_eq_getElem?_getD, hi]
  · unfold OrthTime
    refine Finset.sum_eq_zero fun i hi => ?_
    simp only [List.length_replicate, Finset.mem_range] at hi
    simp [List.getD_eq_getElem?_getD, hi]

/-- **C57 (quadratic).** If the library's fit is a least-squares polynomial of degree 2, the residuals of the quadratic detrending have mean zero and are orthogonal to time and to
its square. -/
theorem C57_quadratic (lib : Lib K) (y : List K) (c : List K)
    (hq : lib.quad (arange y.length) y = polyAt c) (hc : IsPolyLS c (arange y.length) y 2) (m : MethodArg)
    (hm : m = .str "quadratic" ∨ m = .member .quadratic) :
    ∃ r, detrend lib y m = .ok r ∧ r.length = y.length ∧ ZeroSum r ∧ OrthTime r ∧
      ∑ i ∈ range r.length, (i : K) ^ 2 * r.getD i 0 = 0 := by
  have hv : validate m = .ok (.member .quadratic) := by
    rcases hm with rfl | rfl
    · decide
    · rfl
  refine ⟨Detrending.sub y ((arange y.length).map (lib.quad (arange y.length) y)), ?_, ?_, ?_⟩
  · simp only [detrend, hv, bind, Except.bind, trendOf]
  · simp [Detrending.sub]
  · have hl : (Detrending.sub y ((arange y.length).map (lib.quad (arange y.length) y))).length = y.length := by
      simp [Detrending.sub]
    have key : ∀ k, k ≤ 2 → ∑ i ∈ range y.length, (i : K) ^ k *
        (Detrending.sub y ((arange y.length).map (lib.quad (arange y.length) y))).getD i 0 = 0 := by
      intro k hk
      have := normal_of_isPolyLS c _ _ 2 hc k hk
      rw [sum_getD] at this
      have hl2 : (List.zipWith (fun x y => (y - polyAt c x) * x ^ k) (arange y.length) y).length = y.length := by
        simp
      rw [hl2] at this
      refine Eq.trans (Finset.sum_congr rfl fun i hi => ?_) this
      have hi' := Finset.mem_range.mp hi
      rw [getD_sub_map y _ i hi', hq]
      simp [List.getD_eq_getElem?_getD, hi', arange]
      ring
    unfold ZeroSum OrthTime
    rw [hl]
    refine ⟨?_, ?_, key 2 le_rfl⟩
    · simpa using key 0 (by omega)
    · simpa using key 1 (by omega)

/-- **C57 (EMD).** The EMD detrending subtracts the last component of the decomposition. -/
theorem C57_emd (lib : Lib K) (y : List K) (imfs : List (List K)) (trend : List K) (h : lib.emd y = imfs ++ [trend]) :
    detrend lib y (.str "emd") = .ok (List.zipWith (· - ·) y trend) ∧
    detrendEmd lib y = .ok (List.zipWith (· - ·) y trend) := by
  have hv : validate (.str "emd") = .ok (.member .emd) := by decide
  have hlast : lastComponent (lib.emd y) = .ok trend := by
    have hi : pyIdx (imfs ++ [trend]).length (-1) = some imfs.length := by
      simp [pyIdx]
    unfold lastComponent pyGet
    rw [h, hi]
    simp
  constructor
  · simp only [detrend, hv, bind, Except.bind, trendOf, hlast]; rfl
  · simp only [detrendEmd, hlast, bind, Except.bind]; rfl

/-- **C57 (mean_detrend).** For every order of the parallel iterations, each row of the result is the row minus a constant, with sum zero. -/
theorem C57_mean_detrend (order : List Nat) (signals ret : List (List K))
    (horder : order.Perm (List.range signals.length)) (hret : ret.length = signals.length) :
    ∃ out, meanDetrend order signals ret = .ok out ∧ out.length = signals.length ∧
      ∀ i (hi : i < signals.length) (ho : i < out.length), ∃ c, out[i] = signals[i].map (· - c) ∧ out[i].sum = 0 := by
  obtain ⟨r, h1, h2, h3⟩ := prangeWrite_ok order
    (fun i => let y := signals.getD i []; Except.ok (ε := PyErr) (y.map fun v => v - mean y))
    (fun i => let y := signals.getD i []; (y.map fun v => v - mean y)) ret (fun _ _ => rfl)
  refine ⟨r, h1, by omega, fun i hi ho => ⟨mean signals[i], ?_⟩⟩
  have := h3 i
  rw [if_pos ⟨horder.mem_iff.mpr (List.mem_range.mpr hi), by omega⟩] at this
  have h4 : r[i] = signals[i].map (· - mean signals[i]) := by
    rw [List.getElem?_eq_getElem ho] at this
    simpa [List.getD_eq_getElem?_getD, hi] using this
  refine ⟨h4, ?_⟩
  rw [h4]
  by_cases hn : signals[i] = []
  · simp [hn]
  · have hl : (signals[i].length : K) ≠ 0 := by
      have : signals[i].length ≠ 0 := by simpa using hn
      exact_mod_cast this
    have e : ∀ (l : List K) (c : K), (l.map (· - c)).sum = l.sum - l.length * c := by
      intro l c
      induction l with
      | nil => simp
      | cons a l ih => simp [ih]; ring
    rw [e, mean]
    field_simp
    ring

/-- The hypotheses are met: a parabola. -/
example : ∃ r, detrend (K := ℚ) ⟨fun _ => [], fun _ _ _ => 0, fun _ _ => (0, 0, 0)⟩ [0, 1, 4] (.str "linear") = .ok r ∧
    r = [1 / 3, -2 / 3, 1 / 3] := by
  refine ⟨_, (C57_linear_unique _ _ (by decide) [1 / 3, -2 / 3, 1 / 3]).mpr ?_, rfl⟩
  refine ⟨⟨rfl, 2, -1 / 3, ?_⟩, ?_, ?_⟩
  · intro i hi
    have : i = 0 ∨ i = 1 ∨ i = 2 := by simp at hi; omega
    rcases this with rfl | rfl | rfl <;> norm_num
  · simp [ZeroSum, Finset.sum_range_succ]; norm_num
  · simp [OrthTime, Finset.sum_range_succ]; norm_num

/-! ## C58 -/

theorem linearDetrendRow_getD (m : Nat) (y : List K) (i : Nat) (hi : i < y.length) :
    (linearDetrendRow m y).getD i 0 = (lineRes y).getD i 0 +
      (Rigidity.slope (arange y.length) y - m) * (i : K) := by
  unfold linearDetrendRow lineRes
  rw [getD_sub_map y _ i hi, getD_sub_map y _ i hi]; ring

/-- **C58 (what the code computes).** Row `i` of the output is the row of least-squares residuals `r` plus `(a - m) t`, where `a` is the least-squares slope of the row and `m` the number
of rows of the matrix, for every order of the parallel iterations. -/
theorem C58_rows (order : List Nat) (signals ret : List (List K))
    (horder : order.Perm (List.range signals.length)) (hret : ret.length = signals.length) :
    ∃ out, linearDetrend order signals ret = .ok out ∧ out.length = signals.length ∧
      ∀ i (hi : i < signals.length) (ho : i < out.length), ∃ r a b, 
        IsLeastResidual signals[i] r ∧ (∀ t < r.length, r.getD t 0 = signals[i].getD t 0 - (a * (t : K) + b)) ∧
        out[i].length = signals[i].length ∧
        ∀ t < signals[i].length, out[i].getD t 0 = r.getD t 0 + (a - signals.length) * (t : K) := by
  obtain ⟨r, h1, h2, h3⟩ := prangeWrite_ok order
    (fun i => Except.ok (ε := PyErr) (linearDetrendRow signals.length (signals.getD i [])))
    (fun i => (linearDetrendRow signals.length (signals.getD i []))) ret (fun _ _ => rfl)
  refine ⟨r, h1, by omega, fun i hi ho => ⟨lineRes signals[i], Rigidity.slope (arange signals[i].length) signals[i],
    Rigidity.intercept (arange signals[i].length) signals[i] (Rigidity.slope (arange signals[i].length) signals[i]), ?_⟩⟩
  have := h3 i
  rw [if_pos ⟨horder.mem_iff.mpr (List.mem_range.mpr hi), by omega⟩] at this
  have h4 : r[i] = linearDetrendRow signals.length signals[i] := by
    rw [List.getElem?_eq_getElem ho] at this
    simpa [List.getD_eq_getElem?_getD, hi] using this
  refine ⟨⟨lineRes_isLine _, fun r' hr' => ?_⟩, fun t ht => ?_, ?_, fun t ht => ?_⟩
  · rw [sq_decomp _ _ r' (lineRes_isLine _) (lineRes_normal _).1 (lineRes_normal _).2 hr']
    have : 0 ≤ ∑ j ∈ range (lineRes signals[i]).length, (r'.getD j 0 - (lineRes signals[i]).getD j 0) ^ 2 :=
      Finset.sum_nonneg fun i _ => sq_nonneg _
    linarith
  · rw [lineRes, getD_sub_map _ _ t (by simpa using ht)]
  · rw [h4]; simp [linearDetrendRow, Detrending.sub]
  · rw [h4, linearDetrendRow_getD _ _ t ht]

/-- **C58 (the exact condition).** Row `i` is replaced by its least-squares residuals exactly if its least-squares line has the slope `m`, the number of rows (or the row has at most one entry).
Missing from the full statement: all other rows, where it is false. -/
theorem C58_correct_rows_partial (order : List Nat) (signals ret : List (List K))
    (horder : order.Perm (List.range signals.length)) (hret : ret.length = signals.length) (out : List (List K))
    (hout : linearDetrend order signals ret = .ok out) (i : Nat) (hi : i < signals.length) (ho : i < out.length)
    (hT : 2 ≤ signals[i].length) :
    (ZeroSum out[i] ∧ OrthTime out[i] ∧ IsLineResidual signals[i] out[i]) ↔
      ∃ r b, ZeroSum r ∧ OrthTime r ∧ r.length = signals[i].length ∧
        ∀ t < r.length, signals[i].getD t 0 = r.getD t 0 + ((signals.length : K) * (t : K) + b) := by
  obtain ⟨o, h1, h2, h3⟩ := C58_rows order signals ret horder hret
  rw [hout] at h1
  cases h1
  constructor
  · rintro ⟨hz, ht, hl⟩
    obtain ⟨r, a, b, hr, hab, hlen, ht'⟩ := h3 i hi ho
    have hr' : ZeroSum (lineRes signals[i]) ∧ OrthTime (lineRes signals[i]) := lineRes_normal _
    have heq : out[i] = lineRes signals[i] := (lineRes_eq_iff _ _).mpr ⟨hl, hz, ht⟩
    -- the least residual is unique
    have hru : r = lineRes signals[i] := by
      have e := sq_decomp _ _ r (lineRes_isLine signals[i]) hr'.1 hr'.2 hr.1
      have hle := hr.2 _ (lineRes_isLine signals[i])
      have hz2 : ∑ j ∈ range (lineRes signals[i]).length, (r.getD j 0 - (lineRes signals[i]).getD j 0) ^ 2 = 0 := by
        have : 0 ≤ ∑ j ∈ range (lineRes signals[i]).length, (r.getD j 0 - (lineRes signals[i]).getD j 0) ^ 2 :=
          Finset.sum_nonneg fun i _ => sq_nonneg _
        linarith
      rw [Finset.sum_eq_zero_iff_of_nonneg (fun i _ => sq_nonneg _)] at hz2
      refine ext_getD _ _ (by rw [hr.1.1, length_lineRes]) fun j hj => ?_
      have := pow_eq_zero_iff (two_ne_zero) |>.mp (hz2 j (Finset.mem_range.mpr (by rw [length_lineRes]; rw [hr.1.1] at hj; exact hj)))
      exact sub_eq_zero.mp this
    have h1 := ht' 1 (by omega)
    rw [heq, hru] at h1
    have ha : a = signals.length := by
      have : (a - signals.length) * ((1 : ℕ) : K) = 0 := by linarith
      simp at this
      linarith
    refine ⟨r, b, by rw [hru]; exact hr'.1, by rw [hru]; exact hr'.2, hr.1.1, fun t htt => ?_⟩
    rw [hab t htt, ha]; ring
  · rintro ⟨r, b, hz, ht, hlen, hs⟩
    have hrl : r = lineRes signals[i] := (lineRes_eq_iff _ _).mpr
      ⟨⟨hlen, signals.length, b, fun t htt => by rw [hs t (by omega)]; ring⟩, hz, ht⟩
    obtain ⟨x, h4, h5, h6⟩ := prangeWrite_ok order
      (fun i => Except.ok (ε := PyErr) (linearDetrendRow signals.length (signals.getD i [])))
      (fun i => (linearDetrendRow signals.length (signals.getD i []))) ret (fun _ _ => rfl)
    have h7 : linearDetrend order signals ret = .ok x := h4
    rw [hout] at h7
    cases h7
    have := h6 i
    rw [if_pos ⟨horder.mem_iff.mpr (List.mem_range.mpr hi), by omega⟩] at this
    have h8 : out[i] = linearDetrendRow signals.length signals[i] := by
      rw [List.getElem?_eq_getElem ho] at this
      simpa [List.getD_eq_getElem?_getD, hi] using this
    have hslope : Rigidity.slope (arange signals[i].length) signals[i] = signals.length := by
      have e0 := getD_sub_map signals[i] (fun t => Rigidity.slope (arange signals[i].length) signals[i] * t +
        Rigidity.intercept (arange signals[i].length) signals[i] (Rigidity.slope (arange signals[i].length) signals[i])) 0 (by omega)
      have e1 := getD_sub_map signals[i] (fun t => Rigidity.slope (arange signals[i].length) signals[i] * t +
        Rigidity.intercept (arange signals[i].length) signals[i] (Rigidity.slope (arange signals[i].length) signals[i])) 1 (by omega)
      have f0 := hs 0 (by omega)
      have f1 := hs 1 (by omega)
      change (lineRes signals[i]).getD 0 0 = _ at e0
      change (lineRes signals[i]).getD 1 0 = _ at e1
      rw [← hrl] at e0 e1
      push_cast at e0 e1 f0 f1
      linarith
    have heq : out[i] = lineRes signals[i] := by
      rw [h8]
      refine ext_getD _ _ (by simp [linearDetrendRow, Detrending.sub]) fun j hj => ?_
      rw [linearDetrendRow_getD _ _ j (by simpa [linearDetrendRow, Detrending.sub] using hj), hslope]; ring
    obtain ⟨h9, h10, h11⟩ := (lineRes_eq_iff _ _).mp heq
    exact ⟨h10, h11, h9⟩

/-- **C58 is false.** A single constant row is not replaced by its least-squares residuals (zeros). -/
theorem C58_refuted : ∃ out, linearDetrend (K := ℚ) [0] [[5, 5, 5]] [[0, 0, 0]] = .ok out ∧
    out = [[0, -1, -2]] ∧ IsLeastResidual [5, 5, 5] ([0, 0, 0] : List ℚ) ∧
    ¬ IsLeastResidual [5, 5, 5] ([0, -1, -2] : List ℚ) := by
  have hl : IsLineResidual [5, 5, 5] ([0, 0, 0] : List ℚ) := ⟨rfl, 0, 5, fun i hi => by
    have : i = 0 ∨ i = 1 ∨ i = 2 := by simp at hi; omega
    rcases this with rfl | rfl | rfl <;> norm_num⟩
  refine ⟨_, rfl, by decide +kernel, ⟨hl, fun r' _ => ?_⟩, fun h => ?_⟩
  · have : ∑ i ∈ range ([0, 0, 0] : List ℚ).length, ([0, 0, 0] : List ℚ).getD i 0 ^ 2 = 0 := by
      simp [Finset.sum_range_succ]
    rw [this]
    exact Finset.sum_nonneg fun i _ => sq_nonneg _
  · have := h.2 _ hl
    simp [Finset.sum_range_succ] at this
    norm_num at this

/-! ## C59 -/

/-- **C59 (linear).** `Detrend().linear(series)` raises `ValueError` for every series. -/
theorem C59_linear_always_raises (lib : Lib K) (y : List K) : detrendLinear lib y = .error .valueError := by
  unfold detrendLinear linregress
  simp only [bind, Except.bind]
  split <;> rename_i h
  · split at h <;> [skip; split at h] <;> simp_all
  · split at h <;> [skip; split at h] <;> simp_all
    subst h
    rfl

/-- **C59 (difference).** The result has as many entries as the series (not one less); entry `i` is the difference of the entries `i + 1` and `i`, except for the last one, which is
whatever the uninitialised array contained. -/
theorem C59_difference (y junk : List K) (hj : junk.length = y.length) :
    (difference y junk).length = y.length ∧
    (∀ i, i + 1 < y.length → (difference y junk).getD i 0 = y.getD (i + 1) 0 - y.getD i 0) ∧
    (y ≠ [] → (difference y junk).getD (y.length - 1) 0 = junk.getD (y.length - 1) 0) := by
  have key : ∀ n, n ≤ y.length - 1 → ∀ out : List K,
      out = (List.range n).foldl (fun out (i : Nat) => out.set i (nth y (i + 1) - nth y i)) junk →
      out.length = junk.length ∧ (∀ i, i < n → out.getD i 0 = y.getD (i + 1) 0 - y.getD i 0) ∧
      (∀ i, n ≤ i → out.getD i 0 = junk.getD i 0) := by
    intro n
    induction n with
    | zero => intro _ out ho; subst ho; simp
    | succ n ih =>
      intro hn out ho
      rw [List.range_succ, List.foldl_append] at ho
      obtain ⟨h1, h2, h3⟩ := ih (by omega) _ rfl
      simp only [List.foldl_cons, List.foldl_nil] at ho
      refine ⟨by rw [ho]; simpa using h1, fun i hi => ?_, fun i hi => ?_⟩
      · by_cases hin : i = n
        · subst hin
          rw [ho, nth_of_eq y _ (i + 1) (by push_cast; rfl) (by omega), nth_nat y i (by omega)]
          simp only [List.getD_eq_getElem?_getD]
          rw [List.getElem?_set_self (by omega)]
          simp [List.getElem?_eq_getElem (show i + 1 < y.length by omega),
            List.getElem?_eq_getElem (show i < y.length by omega)]
        · rw [← h2 i (by omega), ho]
          simp only [List.getD_eq_getElem?_getD]
          rw [List.getElem?_set_ne (by omega)]
      · rw [← h3 i (by omega), ho]
        simp only [List.getD_eq_getElem?_getD]
        rw [List.getElem?_set_ne (by omega)]
  obtain ⟨h1, h2, h3⟩ := key (y.length - 1) le_rfl (difference y junk) rfl
  exact ⟨by omega, fun i hi => h2 i (by omega), fun _ => h3 _ le_rfl⟩

/-- **C59 is false.** The length of the result of `difference` is wrong for every non-empty series, and its last entry arbitrary; `linear` always raises. Proved: the first `n - 1` entries
(`C59_difference`). -/
theorem C59_refuted (y junk : List K) (hy : y ≠ []) (hj : junk.length = y.length) (lib : Lib K) :
    (difference y junk).length ≠ y.length - 1 ∧
    (∀ v : K, ∃ junk' : List K, junk'.length = y.length ∧ (difference y junk').getD (y.length - 1) 0 = v) ∧
    ∀ r, detrendLinear lib y ≠ .ok r := by
  have hl : 0 < y.length := List.length_pos_iff.mpr hy
  refine ⟨?_, fun v => ⟨List.replicate y.length v, by simp, ?_⟩, fun r h => ?_⟩
  · rw [(C59_difference y junk hj).1]; omega
  · rw [(C59_difference y _ (by simp)).2.2 hy]
    simp [List.getD_eq_getElem?_getD, hl]
  · rw [C59_linear_always_raises] at h; cases h

/-- **C59 (the part that holds).** The first `n - 1` entries of the result of `difference` are the first differences. -/
theorem C59_difference_partial (y junk : List K) (hj : junk.length = y.length) :
    (difference y junk).take (y.length - 1) = diff y := by
  obtain ⟨h1, h2, -⟩ := C59_difference y junk hj
  refine ext_getD _ _ (by simp [length_diff, h1]) fun i hi => ?_
  have hi' : i < y.length - 1 := by simp [h1] at hi; omega
  have e : ((difference y junk).take (y.length - 1)).getD i 0 = (difference y junk).getD i 0 := by
    simp [List.getD_eq_getElem?_getD, hi']
  rw [e, h2 i (by omega)]
  have hd : i < (diff y).length := by rw [length_diff]; exact hi'
  have hg := getElem_diff y i hd
  simp only [List.getD_eq_getElem?_getD, List.getElem?_eq_getElem hd, List.getElem?_eq_getElem (show i + 1 < y.length by omega),
            List.getElem?_eq_getElem (show i < y.length by omega), Option.getD_some]
  exact hg.symm

example : (difference [1, 4, 9] [7, 7, 7] : List ℚ) = [3, 5, 7] := by decide +kernel

/-! ## C60 -/

/-- **C60 (names).** A string is accepted exactly if it is `'emd'`, `'linear'` or `'quadratic'`, and converted to the member of that name; otherwise `ValueError` is raised. -/
theorem C60_names (s : String) :
    (validate (.str s) = .ok (.member .emd) ↔ s = "emd") ∧
    (validate (.str s) = .ok (.member .linear) ↔ s = "linear") ∧
    (validate (.str s) = .ok (.member .quadratic) ↔ s = "quadratic") ∧
    (validate (.str s) = .error .valueError ↔ s ≠ "emd" ∧ s ≠ "linear" ∧ s ≠ "quadratic") := by
  by_cases h1 : s = "emd"
  · subst h1; decide
  by_cases h2 : s = "linear"
  · subst h2; decide
  by_cases h3 : s = "quadratic"
  · subst h3; decide
  have : validate (.str s) = .error .valueError := by
    have e1 : ("emd" == s) = false := by simpa using Ne.symm h1
    have e2 : ("linear" == s) = false := by simpa using Ne.symm h2
    have e3 : ("quadratic" == s) = false := by simpa using Ne.symm h3
    simp only [validate, List.find?, Method.value, e1, e2, e3]
  rw [this]
  simp [h1, h2, h3]

/-- The values of `method` that `detrend` can work with. -/
def ValidMethod (m : MethodArg) : Prop :=
  m = .str "emd" ∨ m = .str "linear" ∨ m = .str "quadratic" ∨ ∃ k, m = .member k

/-- **C60 (exceptions of `detrend`).** With a string that is no method name `detrend` raises `ValueError`, with another value that is not a member `UnboundLocalError`. -/
theorem C60_invalid (lib : Lib K) (y : List K) (m : MethodArg) (h : ¬ ValidMethod m) :
    ((∃ s, m = .str s) → detrend lib y m = .error .valueError) ∧
    ((¬ ∃ s, m = .str s) → detrend lib y m = .error .unboundLocalError) := by
  cases m with
  | str s =>
    have : validate (.str s) = .error .valueError := (C60_names s).2.2.2.mpr
      ⟨fun e => h (Or.inl (by rw [e])), fun e => h (Or.inr (Or.inl (by rw [e]))),
        fun e => h (Or.inr (Or.inr (Or.inl (by rw [e]))))⟩
    refine ⟨fun _ => by simp only [detrend, this, bind, Except.bind], fun h' => absurd ⟨s, rfl⟩ h'⟩
  | member k => exact absurd (Or.inr (Or.inr (Or.inr ⟨k, rfl⟩))) h
  | none => simp [detrend, validate, trendOf, bind, Except.bind]
  | other => simp [detrend, validate, trendOf, bind, Except.bind]

/-- **C60 (result).** `detrend` of an `Eigenvalues` object succeeds exactly if the object was not detrended and the detrending of its values succeeds; the new object holds the sorted detrended values, and is marked as
detrended. -/
theorem C60_result (lib : Lib K) (o o' : DetObj K) (m : MethodArg) :
    eigenvaluesDetrend lib o m = .ok o' ↔
      o.detrending = .none ∧ ∃ d, detrend lib o.obj.vals m = .ok d ∧
        o' = ⟨⟨npSort d, npSort d, none⟩, m⟩ := by
  unfold eigenvaluesDetrend newEigenvalues
  by_cases h : o.detrending = .none
  · simp only [h, ne_eq, not_true_eq_false, if_false, true_and]
    rcases hd : detrend lib o.obj.vals m with e | d
    · simp [bind, Except.bind]
    · simp only [bind, Except.bind, initEigVals1d_ok, Except.ok.injEq, exists_eq_left']
      exact eq_comm
  · simp [h]

/-- **C60 (at most once).** Detrending the result of a detrending raises `ValueError`, for every pair of methods. -/
theorem C60_at_most_once (lib : Lib K) (o o' : DetObj K) (m m' : MethodArg)
    (h : eigenvaluesDetrend lib o m = .ok o') :
    eigenvaluesDetrend lib o' m' = .error .valueError := by
  obtain ⟨h0, d, hd, rfl⟩ := (C60_result lib o o' m).mp h
  have hm : m ≠ .none := by
    rintro rfl
    rw [(C60_invalid lib _ _ (by simp [ValidMethod])).2 (by simp)] at hd
    cases hd
  simp [eigenvaluesDetrend, hm]

/-- **C60 (histories).** In any sequence of calls of `detrend` starting from any object, each applied to the latest result, at most one succeeds. -/
theorem C60_history (lib : Lib K) (ms : List MethodArg) (o : DetObj K) :
    (ms.foldl (fun (s : DetObj K × Nat) m => match eigenvaluesDetrend lib s.1 m with
      | .ok o' => (o', s.2 + 1)
      | .error _ => s) (o, 0)).2 ≤ 1 := by
  have gen : ∀ (s : DetObj K × Nat), (s.2 = 0 ∨ (s.2 = 1 ∧ s.1.detrending ≠ .none)) →
      (ms.foldl (fun (s : DetObj K × Nat) m => match eigenvaluesDetrend lib s.1 m with
      | .ok o' => (o', s.2 + 1)
      | .error _ => s) s).2 ≤ 1 := by
    induction ms with
    | nil => intro s hs; simp only [List.foldl_nil]; omega
    | cons m ms ih =>
      intro s hs
      rw [List.foldl_cons]
      apply ih
      rcases he : eigenvaluesDetrend lib s.1 m with e | o'
      · exact hs
      · have h0 := ((C60_result lib s.1 o' m).mp he).1
        rcases hs with h | ⟨-, h⟩
        · right
          refine ⟨by simp [h], ?_⟩
          have h2 := C60_at_most_once lib s.1 o' m m he
          intro h3
          obtain ⟨-, d, hd, rfl⟩ := (C60_result lib s.1 o' m).mp he
          have hm : m = .none := h3
          subst hm
          rw [(C60_invalid lib _ _ (by simp [ValidMethod])).2 (by simp)] at hd
          cases hd
        · exact absurd h0 h
  exact gen (o, 0) (Or.inl rfl)

example : ∃ o o' : DetObj ℚ, newEigenvalues [0, 1, 4] .none = .ok o ∧
    eigenvaluesDetrend ⟨fun _ => [], fun _ _ _ => 0, fun _ _ => (0, 0, 0)⟩ o (.str "linear") = .ok o' := by
  refine ⟨⟨⟨npSort [0, 1, 4], npSort [0, 1, 4], none⟩, .none⟩, 
    ⟨⟨npSort (lineRes (npSort [0, 1, 4])), npSort (lineRes (npSort [0, 1, 4])), none⟩, .str "linear"⟩, ?_, ?_⟩
  · simp [newEigenvalues, initEigVals1d_ok, bind, Except.bind]
  · exact (C60_result _ _ _ _).mpr ⟨rfl, _, detrend_linear_eq _ _ (by simp [npSort]) _ (Or.inl rfl), rfl⟩

/-! ## C61 -/

/-- **C61.** For every order of the parallel iterations, `get_signals` of a 2-D array returns, in order, exactly the rows whose population variance and Euclidean norm both exceed the threshold. -/
theorem C61_rows (order : List Nat) (rows : List (List ℝ)) (threshold : ℝ)
    (horder : order.Perm (List.range rows.length)) :
    getSignals order (.dim2 rows) threshold = .ok (rows.filter fun row => decide (
      (row.map fun v => (v - row.sum / row.length) ^ 2).sum / row.length > threshold ∧
      Real.sqrt (row.map fun v => v ^ 2).sum > threshold)) := by
  obtain ⟨r, h1, h2, h3⟩ := prangeWrite_ok order
    (fun i => Except.ok (ε := PyErr) (maskBody threshold (rows.getD i []) ((List.replicate rows.length true).getD i true)))
    (fun i => maskBody threshold (rows.getD i []) ((List.replicate rows.length true).getD i true))
    (List.replicate rows.length true) (fun _ _ => rfl)
  have hm : fillMask order (List.replicate rows.length true) rows threshold = .ok r := h1
  simp only [getSignals, hm, bind, Except.bind, Except.ok.injEq]
  set p : List ℝ → Bool := fun row => decide (
      (row.map fun v => (v - row.sum / row.length) ^ 2).sum / row.length > threshold ∧
      Real.sqrt (row.map fun v => v ^ 2).sum > threshold) with hp
  have hr : r = rows.map p := by
    apply List.ext_getElem?
    intro k
    rw [h3 k]
    by_cases hk : k < rows.length
    · rw [if_pos ⟨horder.mem_iff.mpr (List.mem_range.mpr hk), by simpa using hk⟩]
      simp only [List.getElem?_map, List.getD_eq_getElem?_getD, List.getElem?_eq_getElem hk, Option.getD_some,
        Option.map_some, Option.some.injEq]
      rw [List.getElem?_replicate, if_pos hk, Option.getD_some, Bool.eq_iff_iff]
      simp only [maskBody, hp, decide_eq_true_eq, npVar, norm2, mean, List.length_map]
      split
      · rename_i hn
        simp only [Bool.false_eq_true, gt_iff_lt, false_iff, not_and, not_lt]
        intro _; exact hn
      · rename_i hn
        split
        · rename_i hv
          simp only [Bool.false_eq_true, gt_iff_lt, false_iff, not_and, not_lt]
          intro h; exact absurd h (not_lt.mpr hv)
        · rename_i hv
          simp only [gt_iff_lt, true_iff]
          exact ⟨not_le.mp hv, not_le.mp hn⟩
    · rw [if_neg (by simp; omega)]
      simp [hk]
  rw [hr]
  clear_value p
  clear hm h1 h2 h3 hr hp horder
  induction rows with
  | nil => simp [selectRows]
  | cons a rows ih =>
    simp only [selectRows, List.map_cons, List.zip_cons_cons, List.filter_cons] at *
    by_cases ha : p a
    · simp [ha, ih]
    · simp [ha, ih]

/-- **C61 (dimension).** An array of another dimension raises. -/
theorem C61_dimension (order : List Nat) (threshold : ℝ) :
    getSignals order .other threshold = .error .exception := rfl

/-- **C61 (consequence).** With a non-negative threshold no kept row is constant: a correlation of kept rows never divides by zero. -/
theorem C61_no_constant_rows (order : List Nat) (rows out : List (List ℝ)) (threshold : ℝ) (ht : 0 ≤ threshold)
    (horder : order.Perm (List.range rows.length)) (h : getSignals order (.dim2 rows) threshold = .ok out)
    (row : List ℝ) (hrow : row ∈ out) : ¬ AllEqual row := by
  rw [C61_rows order rows threshold horder, Except.ok.injEq] at h
  subst h
  simp only [List.mem_filter, decide_eq_true_eq] at hrow
  obtain ⟨-, hv, -⟩ := hrow
  intro hall
  have hz : (row.map fun v => (v - row.sum / row.length) ^ 2).sum = 0 := by
    apply List.sum_eq_zero
    intro w hw
    obtain ⟨v, hv', rfl⟩ := List.mem_map.mp hw
    have hs : row = List.replicate row.length v := List.eq_replicate_iff.mpr ⟨rfl, fun b hb => hall b hb v hv'⟩
    have hn : (row.length : ℝ) ≠ 0 := by
      have : row.length ≠ 0 := by intro h0; simp at h0; subst h0; simp at hv'
      exact_mod_cast this
    have hsum : row.sum = row.length * v := by
      conv_lhs => rw [hs]
      simp
    rw [hsum]; field_simp; simp
  rw [hz] at hv
  simp at hv
  linarith

example : getSignals [1, 0] (.dim2 [[1, 1], [0, 2]]) (1 / 2) = .ok [[0, 2]] := by
  rw [C61_rows [1, 0] _ _ (by decide)]
  have h2 : Real.sqrt 4 = 2 := by
    rw [show (4 : ℝ) = 2 ^ 2 by norm_num]; exact Real.sqrt_sq (by norm_num)
  norm_num [List.filter, h2]

end Props
end RMT
