import Verif.Spec.Rounding
import Verif.Props.ReportApi
import Mathlib.Data.Rat.Floor

/-!
# Properties C28, C30, C31: the cells of the summary in terms of the spectrum

The percentages, the decimals in the column names, and the contents of the columns, stated without the helper functions of the code.
-/

set_option linter.unusedSectionVars false

namespace RMT
namespace Props
open Smooth Trim Report Unfold EigValsM Spec Format

theorem roundHalfEven_spec (q : ℚ) (hq : 0 ≤ q) :
    |q - roundHalfEven q| ≤ 1 / 2 ∧ (|q - roundHalfEven q| = 1 / 2 → Even (roundHalfEven q)) := by
  have hf : ((q.floor.toNat : ℕ) : ℚ) = (⌊q⌋ : ℚ) := by
    have h0 : 0 ≤ q.floor := Rat.le_floor_iff.mpr (by simpa using hq)
    have : ((q.floor.toNat : ℕ) : ℤ) = q.floor := Int.toNat_of_nonneg h0
    exact_mod_cast congrArg (fun z : ℤ => (z : ℚ)) this
  have h1 := Int.floor_le q
  have h2 := Int.lt_floor_add_one q
  unfold roundHalfEven
  simp only
  rw [← hf] at h1 h2
  split_ifs with ha hb hc
  · constructor
    · rw [abs_le]; constructor <;> linarith
    · intro h; rw [abs_of_nonneg (by linarith)] at h; linarith
  · push_cast
    constructor
    · rw [abs_le]; constructor <;> linarith
    · intro h; rw [abs_of_nonpos (by linarith)] at h; linarith
  · refine ⟨by rw [abs_le]; constructor <;> linarith, fun _ => Nat.even_iff.mpr hc⟩
  · push_cast
    refine ⟨by rw [abs_le]; constructor <;> linarith, fun _ => ?_⟩
    exact Nat.even_add_one.mpr (by rw [Nat.even_iff]; exact hc)

theorem round1_spec (q : ℚ) : RoundsTo 1 q (round1 q) := by
  obtain ⟨h1, h2⟩ := roundHalfEven_spec (|q| * 10) (by positivity)
  rcases lt_or_ge q 0 with hq | hq
  · refine ⟨-(roundHalfEven (|q| * 10) : ℤ), ?_, ?_, ?_⟩
    · simp [round1, hq]
    · rw [round1, if_pos hq]
      rw [abs_of_neg hq] at h1 ⊢
      rw [abs_le] at h1 ⊢
      constructor <;> linarith
    · intro h
      rw [round1, if_pos hq] at h
      have : |(|q| * 10) - (roundHalfEven (|q| * 10) : ℚ)| = 1 / 2 := by
        have e : |q| * 10 - (roundHalfEven (|q| * 10) : ℚ) = -10 * (q - -1 * (roundHalfEven (|q| * 10) : ℚ) / 10) := by
          nth_rewrite 1 [abs_of_neg hq]; ring
        rw [e, abs_mul, h]; norm_num
      have := h2 this
      rw [even_neg]
      exact_mod_cast this
  · refine ⟨(roundHalfEven (|q| * 10) : ℤ), ?_, ?_, ?_⟩
    · simp [round1, not_lt.mpr hq]
    · rw [round1, if_neg (not_lt.mpr hq)]
      rw [abs_of_nonneg hq] at h1 ⊢
      rw [abs_le] at h1 ⊢
      constructor <;> linarith
    · intro h
      rw [round1, if_neg (not_lt.mpr hq)] at h
      have : |(|q| * 10) - (roundHalfEven (|q| * 10) : ℚ)| = 1 / 2 := by
        have e : |q| * 10 - (roundHalfEven (|q| * 10) : ℚ) = 10 * (q - 1 * (roundHalfEven (|q| * 10) : ℚ) / 10) := by
          nth_rewrite 1 [abs_of_nonneg hq]; ring
        rw [e, abs_mul, h]; norm_num
      exact_mod_cast h2 this

/-! ## C28 -/

section
variable {α : Type} [LinearOrder α]

/-- **C28 (what is counted).** For an ascending spectrum (ties allowed) and a non-empty contiguous block of it, the amount trimmed below is the number of original values strictly below all kept ones and the amount trimmed above the number strictly above all kept ones. -/
theorem C28_counts (t : Iter α) (ho : Ascending t.origs) (hne : t.eigs ≠ []) (hinf : t.eigs <:+: t.origs) :
    t.lowerTrimLength = .ok (t.origs.countP fun v => t.eigs.all fun e => decide (v < e) : ℕ) ∧
    t.upperTrimLength = .ok (t.origs.countP fun v => t.eigs.all fun e => decide (e < v) : ℕ) := by
  have hlen : 0 < t.eigs.length := List.length_pos_iff.mpr hne
  have hasc : Ascending t.eigs := ho.sublist hinf.sublist
  have hlow : ∀ v, (t.eigs.all fun e => decide (v < e)) = decide (v < t.eigs[0]) := by
    intro v
    rw [Bool.eq_iff_iff]
    simp only [List.all_eq_true, decide_eq_true_eq]
    refine ⟨fun h => h _ (List.getElem_mem _), fun h e he => ?_⟩
    obtain ⟨i, hi, rfl⟩ := List.mem_iff_getElem.mp he
    exact lt_of_lt_of_le h (hasc.le 0 i hlen hi (by omega))
  have hup : ∀ v, (t.eigs.all fun e => decide (e < v)) = decide (t.eigs[t.eigs.length - 1] < v) := by
    intro v
    rw [Bool.eq_iff_iff]
    simp only [List.all_eq_true, decide_eq_true_eq]
    refine ⟨fun h => h _ (List.getElem_mem _), fun h e he => ?_⟩
    obtain ⟨i, hi, rfl⟩ := List.mem_iff_getElem.mp he
    exact lt_of_le_of_lt (hasc.le i _ hi (by omega) (by omega)) h
  simp only [hlow, hup]
  constructor
  · rcases C06_find_first t.origs (t.eigs[0]) with ⟨hc, -⟩ | ⟨s, hs, hff, hse, hsm⟩
    · exact absurd (hinf.subset (List.getElem_mem _)) hc
    simp only [Iter.lowerTrimLength, pyGet_zero _ hlen, bind, Except.bind, pure, Except.pure, hff]
    congr 2
    have hsplit : t.origs = t.origs.take s ++ t.origs.drop s := (List.take_append_drop _ _).symm
    have e1 : (t.origs.take s).countP (fun v => decide (v < t.eigs[0])) = s := by
      rw [List.countP_eq_length.mpr, List.length_take]
      · omega
      · intro v hv
        obtain ⟨i, hi, rfl⟩ := List.mem_iff_getElem.mp hv
        rw [List.length_take] at hi
        rw [List.getElem_take, decide_eq_true_eq, ← hse]
        exact lt_of_le_of_ne (ho.le i s (by omega) hs (by omega)) (by rw [hse]; exact hsm i (by omega) (by omega))
    have e2 : (t.origs.drop s).countP (fun v => decide (v < t.eigs[0])) = 0 := by
      rw [List.countP_eq_zero]
      intro v hv
      obtain ⟨i, hi, rfl⟩ := List.mem_iff_getElem.mp hv
      rw [List.length_drop] at hi
      rw [List.getElem_drop, decide_eq_true_eq, not_lt, ← hse]
      exact ho.le s (s + i) hs (by omega) (by omega)
    rw [hsplit, List.countP_append, e1, e2, add_zero]
  · rcases C06_find_last t.origs (t.eigs[t.eigs.length - 1]) with ⟨hc, -⟩ | ⟨s, hs, hff, hse, hsm⟩
    · exact absurd (hinf.subset (List.getElem_mem _)) hc
    simp only [Iter.upperTrimLength, pyGet_neg_one _ hlen, bind, Except.bind, pure, Except.pure, hff]
    have hsplit : t.origs = t.origs.take (s + 1) ++ t.origs.drop (s + 1) := (List.take_append_drop _ _).symm
    have e1 : (t.origs.take (s + 1)).countP (fun v => decide (t.eigs[t.eigs.length - 1] < v)) = 0 := by
      rw [List.countP_eq_zero]
      intro v hv
      obtain ⟨i, hi, rfl⟩ := List.mem_iff_getElem.mp hv
      rw [List.length_take] at hi
      rw [List.getElem_take, decide_eq_true_eq, not_lt, ← hse]
      exact ho.le i s (by omega) hs (by omega)
    have e2 : (t.origs.drop (s + 1)).countP (fun v => decide (t.eigs[t.eigs.length - 1] < v)) = t.origs.length - 1 - s := by
      rw [List.countP_eq_length.mpr, List.length_drop]
      · omega
      · intro v hv
        obtain ⟨i, hi, rfl⟩ := List.mem_iff_getElem.mp hv
        rw [List.length_drop] at hi
        rw [List.getElem_drop, decide_eq_true_eq]
        have := ho.le s (s + 1 + i) hs (by omega) (by omega)
        rw [hse] at this
        exact lt_of_le_of_ne this (Ne.symm (hsm (s + 1 + i) (by omega) (by omega)))
    have : t.origs.countP (fun v => decide (t.eigs[t.eigs.length - 1] < v)) = t.origs.length - 1 - s := by
      rw [show t.origs.countP (fun v => decide (t.eigs[t.eigs.length - 1] < v)) =
        (t.origs.take (s + 1) ++ t.origs.drop (s + 1)).countP (fun v => decide (t.eigs[t.eigs.length - 1] < v)) by rw [← hsplit], List.countP_append, e1, e2, zero_add]
    rw [this]
    congr 1
    omega

-- C28: a block with ties at both ends
example : Ascending [1, 1, 2, 2, (3 : ℚ)] ∧ [1, 2, (2 : ℚ)] <:+: [1, 1, 2, 2, 3] :=
  ⟨by decide, ⟨[1], [3], rfl⟩⟩

end

/-! ## C30 -/

section
variable {K : Type} [Field K] [LinearOrder K]

/-- **C30 (percentages).** For every spectrum, detector, fits and limits: the row of trim iteration `i` contains, rounded to one decimal, the percentage of the eigenvalues that are not in the iteration (`trim_percent`), the percentage lying below
all of its values (`trim_low`) and the percentage lying above all of them (`trim_high`). -/
theorem C30_percentages (hbos : List K → List Bool) (hlen : ∀ l, (hbos l).length = l.length) (F : Fitters K) (vals : List K) (hne : vals ≠ []) (maxTrim : ℚ)
    (maxIters : Nat) (a : FitArgs) (l : List ℚ) (hl : a.smooths = .list l)
    (hg : a.gompertz = .pyTrue ∨ a.gompertz = .pyFalse)
    (r : TrimReport K) (h : mkReport hbos F vals maxTrim maxIters a = .ok r) :
    ∃ (hr : r.rows.length = r.iters.length), ∀ i (hi : i < r.iters.length), ∃ p lo up : ℚ,
      cell r.names r.rows[i] "trim_percent" = .ok (p : K) ∧
      RoundsTo 1 (100 * ((vals.length : ℚ) - (r.iters[i].eigs.length : ℚ)) / vals.length) p ∧
      cell r.names r.rows[i] "trim_low" = .ok (lo : K) ∧
      RoundsTo 1 (100 * ((vals.countP fun v => r.iters[i].eigs.all fun e => decide (v < e) : ℕ) : ℚ) / vals.length) lo ∧
      cell r.names r.rows[i] "trim_high" = .ok (up : K) ∧
      RoundsTo 1 (100 * ((vals.countP fun v => r.iters[i].eigs.all fun e => decide (e < v) : ℕ) : ℚ) / vals.length) up := by
  obtain ⟨hu, hr, hall⟩ := C30_cells hbos F vals maxTrim maxIters a l hl hg r h
  obtain ⟨ht, -⟩ := report_ok hbos F vals maxTrim maxIters a r h
  obtain ⟨iters, hti, -, -, hblock, -⟩ := C25_nested_blocks hbos hlen vals hne maxTrim maxIters
  rw [ht] at hti
  cases hti
  refine ⟨hr, fun i hi => ?_⟩
  obtain ⟨-, -, -, h1, ⟨lo, h2, h2'⟩, ⟨up, h3, h3'⟩⟩ := hall i hi
  obtain ⟨ho, hn, hinf, -⟩ := hblock _ (List.getElem_mem hi)
  have hperm := npSort_perm vals
  have hcard : (vals.length : ℚ) ≠ 0 := by
    have := List.length_pos_iff.mpr hne
    exact_mod_cast this.ne'
  obtain ⟨c1, c2⟩ := C28_counts r.iters[i] (by rw [ho]; exact npSort_ascending _) hn (by rw [ho]; exact hinf)
  rw [ho, hperm.countP_eq] at c1 c2
  simp only [lowerPercentRemoved, upperPercentRemoved, c1, c2, bind, Except.bind, Except.ok.injEq, ho, hperm.length_eq, Int.cast_natCast] at h2 h3
  refine ⟨_, lo, up, h1, ?_, h2', ?_, h3', ?_⟩
  · rw [percentRemoved, ho, hperm.length_eq]
    have : 100 * ((vals.length : ℚ) - (r.iters[i].eigs.length : ℚ)) / vals.length = 100 - 100 * (r.iters[i].eigs.length : ℚ) / vals.length := by
      field_simp
    rw [this]
    exact round1_spec _
  · rw [← h2]; exact round1_spec _
  · rw [← h3]; exact round1_spec _

/-- **C30 (decimals in the names).** The name of the column of a spline of degree `d` with smoothing factor `s` consists of the name of the degree, `-spline_`, a minus sign if `s < 0`, digits, a point and three digits, which
together are `|s|` rounded to three decimals. -/
theorem C30_name_decimals (d : Int) (s : ℚ) : ∃ a b : List Char, b.length = 3 ∧ (∀ c ∈ a ++ b, c.isDigit = true) ∧
    (splineCol 3 d s).toList = (splineName d).toList ++ "-spline_".toList ++ (if s < 0 then ['-'] else []) ++ a ++ '.' :: b ∧
    RoundsTo 3 |s| ((decimal (a ++ b) : ℚ) / 10 ^ 3) := by
  obtain ⟨h1, h2⟩ := roundHalfEven_spec (|s| * 10 ^ 3) (by positivity)
  refine ⟨Nat.toDigits 10 (roundHalfEven (|s| * 10 ^ 3) / 10 ^ 3), padDigits 3 (roundHalfEven (|s| * 10 ^ 3)), padDigits_length _ _, ?_, ?_, ?_⟩
  · intro c hc
    rcases List.mem_append.mp hc with hc | hc
    · exact toDigits_isDigit _ c hc
    · exact padDigits_isDigit _ _ c hc
  · simp only [splineCol, String.toList_append, fmtFixed_toList, List.append_assoc]
  · have e : decimal (Nat.toDigits 10 (roundHalfEven (|s| * 10 ^ 3) / 10 ^ 3) ++ padDigits 3 (roundHalfEven (|s| * 10 ^ 3))) = roundHalfEven (|s| * 10 ^ 3) := ofDigitChars_pad 3 _
    rw [e]
    have e2 : |(|s| * 10 ^ 3 - (roundHalfEven (|s| * 10 ^ 3) : ℚ))| = 10 ^ 3 * |(|s| - (roundHalfEven (|s| * 10 ^ 3) : ℚ) / 10 ^ 3)| := by
      generalize (roundHalfEven (|s| * 10 ^ 3) : ℚ) = m
      generalize |s| = x
      rw [show x * 10 ^ 3 - m = 10 ^ 3 * (x - m / 10 ^ 3) by ring, abs_mul, abs_of_pos (show (0 : ℚ) < 10 ^ 3 by norm_num)]
    rw [e2] at h1 h2
    refine ⟨(roundHalfEven (|s| * 10 ^ 3) : ℤ), by simp, by linarith, fun h => ?_⟩
    exact_mod_cast h2 (by rw [h]; norm_num)

/-- The values and the mean squared error of one column, for a fitted curve `f`. -/
theorem fitOne_curve (F : Fitters K) (eigs : List K) (name : String) (sm d ss : PyVal) (c : Col K)
    (h : fitOne F eigs false name sm d ss = .ok c) : ∃ (f : K → K) (q : FitResult K), fit F eigs sm d ss false true = .ok q ∧ q.unfolded = eigs.map f ∧ c.name = name ∧
      c.unfolded = npSort (eigs.map f) ∧ c.spacings = diff (npSort (eigs.map f)) ∧
      c.msqe = (List.zipWith (fun x (i : ℕ) => (f x - ((i : K) + 1)) ^ 2) eigs (List.range eigs.length)).sum / (eigs.length : K) := by
  simp only [fitOne, bind, Except.bind] at h
  rcases hf : fit F eigs sm d ss false true with e | q
  · simp [hf] at h
  simp only [hf] at h
  cases h
  obtain ⟨f, hu, hst, -⟩ := fit_ok F _ _ _ _ _ _ q hf
  simp only [Bool.false_eq_true, if_false] at hu
  refine ⟨f, q, rfl, hu, rfl, by simp only [hu], by simp only [hu], ?_⟩
  simp only [hu, hst, mean, stepsOf, List.zipWith_map_left, List.zipWith_map_right, List.map_zipWith, List.length_zipWith, List.length_range, min_self]

/-- The curves that `fit` can produce without detrending, with the library routine that produces them. -/
theorem fit_curve_poly (F : Fitters K) (eigs : List K) (d : Int) (ss : PyVal) (q : FitResult K)
    (h : fit F eigs (.method .polynomial) (.int d) ss false true = .ok q) :
    ∃ c, F.polyfit eigs (stepsOf eigs.length) d = .ok c ∧ q.unfolded = eigs.map (polyAt c) := by
  simp only [fit, validateArgs, validate, bind, Except.bind, PyVal.asInt] at h
  split at h
  · cases h
  rcases hc : F.polyfit eigs (stepsOf eigs.length) d with e | c
  · simp [hc] at h
  simp only [hc] at h
  cases h
  have hp : polyval c = polyAt c := funext fun x => polyval_eq_polyAt c x
  exact ⟨c, rfl, by simp [hp]⟩

theorem fit_curve_spline (F : Fitters K) (eigs : List K) (d : Int) (s : ℚ) (q : FitResult K)
    (h : fit F eigs (.method .spline) (.int d) (.float s) false true = .ok q) :
    ∃ f, F.spline eigs (stepsOf eigs.length) d (s : K) = .ok f ∧ q.unfolded = eigs.map f := by
  simp only [fit, validateArgs, validate, bind, Except.bind, PyVal.asInt, PyVal.floatConv, reduceCtorEq, or_self, if_false] at h
  split at h
  · cases h
  rcases hc : F.spline eigs (stepsOf eigs.length) d (s : K) with e | f
  · simp [hc] at h
  simp only [hc] at h
  cases h
  exact ⟨f, rfl, by simp⟩

theorem fit_curve_gompertz (F : Fitters K) (eigs : List K) (d ss : PyVal) (q : FitResult K)
    (h : fit F eigs (.method .gompertz) d ss false true = .ok q) :
    ∃ a b c, F.fitGompertz eigs (stepsOf eigs.length) = .ok (a, b, c) ∧ q.unfolded = eigs.map fun x => a * F.exp (-b * F.exp (-c * x)) := by
  simp only [fit, validateArgs, validate, bind, Except.bind] at h
  rcases hc : F.fitGompertz eigs (stepsOf eigs.length) with e | ⟨a, b, c⟩
  · simp [hc] at h
  simp only [hc] at h
  cases h
  exact ⟨a, b, c, rfl, by simp [gompertzFn]⟩

/-- What a column of `fit_all` holds for a fitted curve `f`: the values of the curve at the eigenvalues in ascending order, their spacings, and the mean squared distance of `f(e_i)` from `i + 1` (before sorting). -/
structure HoldsCurve (eigs : List K) (f : K → K) (c : Col K) : Prop where
  ascending : Ascending c.unfolded
  values : c.unfolded.Perm (eigs.map f)
  spacings : c.spacings = gaps c.unfolded
  msqe : c.msqe = (List.zipWith (fun x (i : ℕ) => (f x - ((i : K) + 1)) ^ 2) eigs (List.range eigs.length)).sum / (eigs.length : K)

theorem holdsCurve (F : Fitters K) (eigs : List K) (name : String) (sm d ss : PyVal) (c : Col K)
    (h : fitOne F eigs false name sm d ss = .ok c) : ∃ q, fit F eigs sm d ss false true = .ok q ∧ c.name = name ∧ ∀ f, q.unfolded = eigs.map f → HoldsCurve eigs f c := by
  obtain ⟨f, q, hq, hu, hn, h1, h2, h3⟩ := fitOne_curve F eigs name sm d ss c h
  refine ⟨q, hq, hn, fun g hg => ?_⟩
  rw [hu] at hg
  refine ⟨by rw [h1]; exact npSort_ascending _, by rw [h1, ← hg]; exact npSort_perm _, by rw [h2, h1, gaps_eq_diff], ?_⟩
  rw [h3]
  congr 2
  have hz : ∀ f : K → K, List.zipWith (fun x (i : ℕ) => (f x - ((i : K) + 1)) ^ 2) eigs (List.range eigs.length) =
      List.zipWith (fun y (i : ℕ) => (y - ((i : K) + 1)) ^ 2) (eigs.map f) (List.range eigs.length) := fun f => by rw [List.zipWith_map_left]
  rw [hz f, hz g, hg]

/-- **C30 (columns).** The columns of `fit_all` without detrending, for a list of smoothing factors: for each requested polynomial degree there is a column named after it holding the fitted polynomial, for each smoothing factor and spline degree one holding the spline fitted with that degree and factor, and with
`gompertz=True` one holding the Gompertz curve. All fits are to the points `(e_i, i + 1)`. -/
theorem C30_columns (F : Fitters K) (eigs : List K) (a : FitArgs) (ha : a.detrend = false) (l : List ℚ) (hl : a.smooths = .list l) (cols : List (Col K)) (h : fitAll F eigs a = .ok cols) :
    (∀ d ∈ a.polyDegrees, ∃ c ∈ cols, c.name = polyName d ∧ ∃ co, F.polyfit eigs ((List.range eigs.length).map fun (i : ℕ) => (i : K) + 1) d = .ok co ∧ HoldsCurve eigs (polyAt co) c) ∧
    (∀ d ∈ a.splineDegrees, ∀ s ∈ l, ∃ c ∈ cols, c.name = splineCol 3 d s ∧ ∃ f, F.spline eigs ((List.range eigs.length).map fun (i : ℕ) => (i : K) + 1) d (s : K) = .ok f ∧ HoldsCurve eigs f c) ∧
    (a.gompertz = .pyTrue → ∃ c ∈ cols, c.name = "gompertz" ∧ ∃ x y z, F.fitGompertz eigs ((List.range eigs.length).map fun (i : ℕ) => (i : K) + 1) = .ok (x, y, z) ∧
      HoldsCurve eigs (fun t => x * F.exp (-y * F.exp (-z * t))) c) := by
  have key : ∀ name sm d ss, (name, sm, d, ss) ∈ fitCalls F eigs.length a → ∃ c ∈ cols, ∃ q, fit F eigs sm d ss false true = .ok q ∧ c.name = name ∧ ∀ f, q.unfolded = eigs.map f → HoldsCurve eigs f c := by
    intro name sm d ss hc
    obtain ⟨c, hcm, hce⟩ := mapPy_mem _ _ _ h _ hc
    simp only [ha] at hce
    exact ⟨c, hcm, holdsCurve F eigs name sm d ss c hce⟩
  refine ⟨fun d hd => ?_, fun d hd s hs => ?_, fun hg => ?_⟩
  · obtain ⟨c, hc, q, hq, hn, hh⟩ := key (polyName d) (.method .polynomial) (.int d) (.float (7 / 5)) (by
      simp only [fitCalls, List.mem_append]; exact Or.inl (Or.inl (List.mem_map.mpr ⟨d, hd, rfl⟩)))
    obtain ⟨co, h1, h2⟩ := fit_curve_poly F eigs d _ q hq
    exact ⟨c, hc, hn, co, h1, hh _ h2⟩
  · obtain ⟨c, hc, q, hq, hn, hh⟩ := key (splineCol 3 d s) (.method .spline) (.int d) (.float s) (by
      simp only [fitCalls, List.mem_append, hl]
      exact Or.inl (Or.inr (List.mem_flatMap.mpr ⟨s, hs, List.mem_map.mpr ⟨d, hd, rfl⟩⟩)))
    obtain ⟨f, h1, h2⟩ := fit_curve_spline F eigs d s q hq
    exact ⟨c, hc, hn, f, h1, hh _ h2⟩
  · obtain ⟨c, hc, q, hq, hn, hh⟩ := key "gompertz" (.method .gompertz) (.int 7) (.float (7 / 5)) (by
      simp [fitCalls, hg, Flag.truthy])
    obtain ⟨x, y, z, h1, h2⟩ := fit_curve_gompertz F eigs _ _ q hq
    exact ⟨c, hc, hn, x, y, z, h1, hh _ h2⟩

/-- **C31 (columns, partial).** With `spline_smooths="heuristic"` the spline columns (under names with two decimals) hold the splines whose smoothing factor is the number of eigenvalues raised to each default exponent. What is missing: the summary looks
for other names (`C31_refuted`). -/
theorem C31_columns_partial (F : Fitters K) (eigs : List K) (a : FitArgs) (ha : a.detrend = false) (hl : a.smooths = .heuristic) (cols : List (Col K)) (h : fitAll F eigs a = .ok cols)
    (d : Int) (hd : d ∈ a.splineDegrees) (s : ℚ) (hs : s ∈ defaultSplineSmooths) :
    ∃ c ∈ cols, c.name = splineColHeur 2 d s ∧ ∃ f, F.spline eigs ((List.range eigs.length).map fun (i : ℕ) => (i : K) + 1) d ((F.pow eigs.length s : ℚ) : K) = .ok f ∧ HoldsCurve eigs f c := by
  have hc : (splineColHeur 2 d s, PyVal.method .spline, PyVal.int d, PyVal.float (F.pow eigs.length s)) ∈ fitCalls F eigs.length a := by
    simp only [fitCalls, List.mem_append, hl]
    exact Or.inl (Or.inr (List.mem_flatMap.mpr ⟨s, hs, List.mem_map.mpr ⟨d, hd, rfl⟩⟩))
  obtain ⟨c, hcm, hce⟩ := mapPy_mem _ _ _ h _ hc
  simp only [ha] at hce
  obtain ⟨q, hq, hn, hh⟩ := holdsCurve F eigs _ _ _ _ c hce
  obtain ⟨f, h1, h2⟩ := fit_curve_spline F eigs d _ q hq
  exact ⟨c, hcm, hn, f, h1, hh _ h2⟩

-- C30, C31: hypotheses met by the report and the fits of the earlier examples
example : ∃ r, mkReport lastOfFive slopeFits [1, 2, 3, 4, 5] (1 / 2) 1 twoDegrees = .ok r := slope_report
example : ∃ cols, fitAll (constFitters [0, 1]) [1, 2, (3 : ℚ)] ⟨[3], .list [7 / 5], [3], .pyTrue, false⟩ = .ok cols := ⟨_, rfl⟩
example : ∃ cols, fitAll (constFitters [0, 1]) [1, 2, (3 : ℚ)] ⟨[3], .heuristic, [3], .pyFalse, false⟩ = .ok cols := ⟨_, rfl⟩
example : RoundsTo 1 (100 / 3) (333 / 10) ∧ RoundsTo 1 (1 / 4) (1 / 5) ∧ ¬ RoundsTo 1 (1 / 4) (3 / 10) := by
  refine ⟨⟨333, by norm_num, by rw [abs_le]; norm_num, fun h => ?_⟩, ⟨2, by norm_num, by rw [abs_le]; norm_num, fun _ => by decide⟩, ?_⟩
  · rw [abs_of_pos (by norm_num)] at h; norm_num at h
  · rintro ⟨m, hm, -, he⟩
    have h3 : m = 3 := by
      have : (m : ℚ) = 3 := by linarith
      exact_mod_cast this
    have := he (by rw [abs_of_neg (by norm_num)]; norm_num)
    rw [h3] at this
    revert this
    decide

end

end Props
end RMT
