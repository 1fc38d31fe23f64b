import Verif.Lemmas.Score
import Verif.Props.Unfolding
import Verif.Lemmas.TrimIter

/-!
# Properties C30-C33, C76: summary table, automatic unfolding, GOE score

`hbos` is an arbitrary outlier detector, `F` arbitrary fitting routines.
-/

set_option linter.unusedSectionVars false

namespace RMT
namespace Props
open Smooth Unfold EigValsM Spec Report Trim Format

variable {K : Type} [Field K] [LinearOrder K]

/-! ## Names -/

/-- The name of a column of `fitAll` is the name of its call. -/
theorem fitAll_name (F : Fitters K) (eigs : List K) (a : FitArgs) (cols : List (Col K))
    (h : fitAll F eigs a = .ok cols) : cols.map (·.name) = (fitCalls F eigs.length a).map (·.1) := by
  obtain ⟨h1, h2⟩ := mapPy_ok _ _ _ h
  apply List.ext_getElem (by simpa using h1)
  intro i h3 h4
  simp only [List.getElem_map]
  have := h2 i (by simpa using h4)
  simp only [fitOne, bind, Except.bind] at this
  split at this
  · cases this
  · simp only [Except.ok.injEq] at this
    rw [← this]

/-- **C30 (names agree).** With a list of smoothing factors and a Boolean `gompertz`, the names used for the summary are the names of the
columns of the unfoldings, in the same order, for every spectrum and fitting routines. -/
theorem C30_names (F : Fitters K) (eigs : List K) (a : FitArgs) (l : List ℚ) (hl : a.smooths = .list l)
    (hg : a.gompertz = .pyTrue ∨ a.gompertz = .pyFalse) (cols : List (Col K))
    (h : fitAll F eigs a = .ok cols) : cols.map (·.name) = smootherNames a := by
  have hgg : a.gompertz.truthy = a.gompertz.isTrue := by rcases hg with h | h <;> rw [h] <;> rfl
  rw [fitAll_name F eigs a cols h]
  simp only [fitCalls, smootherNames, hl, hgg, List.map_append, List.map_map, List.map_flatMap]
  congr 1
  split_ifs <;> rfl

/-- The sign and the value rounded to three decimals. -/
def threeDecimals (s : ℚ) : Bool × Nat := (decide (s < 0), roundHalfEven (|s| * 10 ^ 3))

/-- **C30 (names are distinct).** Distinct degrees and smoothing factors that differ after rounding to three decimals give distinct column
names. -/
theorem C30_names_distinct (a : FitArgs) (l : List ℚ) (hl : a.smooths = .list l)
    (hp : a.polyDegrees.Nodup) (hd : a.splineDegrees.Nodup) (hs : (l.map threeDecimals).Nodup) :
    (smootherNames a).Nodup := by
  have hinj : ∀ s s' : ℚ, fmtFixed 3 s = fmtFixed 3 s' → threeDecimals s = threeDecimals s' := by
    intro s s' h
    obtain ⟨h1, h2⟩ := fmtFixed_inj 3 s s' h
    simp only [threeDecimals, h2, Prod.mk.injEq, and_true]
    rw [Bool.eq_iff_iff, decide_eq_true_iff, decide_eq_true_iff, h1]
  have hspl : (l.flatMap fun s => a.splineDegrees.map fun (d : Int) => splineCol 3 d s).Nodup := by
    rw [List.nodup_flatMap]
    refine ⟨fun s _ => ?_, ?_⟩
    · exact hd.map fun d d' h => (splineCol_inj 3 d d' s s h).1
    · have hs' : l.Pairwise fun s s' => threeDecimals s ≠ threeDecimals s' := by
        simpa [List.Nodup, List.pairwise_map] using hs
      refine hs'.imp fun {s s'} hne => ?_
      simp only [Function.onFun, List.disjoint_left, List.mem_map]
      rintro x ⟨d, -, rfl⟩ ⟨d', -, h⟩
      exact hne (hinj s s' (splineCol_inj 3 d' d s' s h).2.symm)
  simp only [smootherNames, hl]
  rw [List.nodup_append, List.nodup_append]
  refine ⟨⟨hp.map fun d d' h => polyName_inj d d' h, hspl, ?_⟩, ?_, ?_⟩
  · intro x hx y hy he
    subst he
    simp only [List.mem_map, List.mem_flatMap] at hx hy
    obtain ⟨d, -, rfl⟩ := hx
    obtain ⟨s, -, d', -, h⟩ := hy
    exact polyName_ne_splineCol d d' 3 s h.symm
  · split_ifs <;> simp
  · intro x hx y hy he
    subst he
    split_ifs at hy
    · simp only [List.mem_singleton] at hy
      subst hy
      simp only [List.mem_append, List.mem_map, List.mem_flatMap] at hx
      rcases hx with ⟨d, -, h⟩ | ⟨s, -, d', -, h⟩
      · exact polyName_ne_gompertz d h
      · exact splineCol_ne_gompertz 3 d' s h
    · simp at hy

/-- Everything known about a successfully constructed report. -/
theorem report_ok (hbos : List K → List Bool) (F : Fitters K) (vals : List K) (maxTrim : ℚ)
    (maxIters : Nat) (a : FitArgs) (r : TrimReport K)
    (h : mkReport hbos F vals maxTrim maxIters a = .ok r) :
    trimIters hbos vals maxTrim maxIters = .ok r.iters ∧
    r.names = summaryNames (smootherNames a) ∧
    ∃ (hu : r.unfoldings.length = r.iters.length) (hr : r.rows.length = r.iters.length),
      ∀ i (hi : i < r.iters.length),
        fitAll F (npSort r.iters[i].eigs) a = .ok (r.unfoldings[i]) ∧
        summaryRow ((smootherNames a).length * 4 + 3) r.iters[i] r.unfoldings[i] = .ok (r.rows[i]) := by
  simp only [mkReport, bind, Except.bind] at h
  rcases h1 : trimIters hbos vals maxTrim maxIters with e | iters
  · simp [h1] at h
  simp only [h1] at h
  rcases h2 : mapPy (fun t => fitAll F (npSort t.eigs) a) iters with e | unf
  · simp [h2] at h
  simp only [h2] at h
  rcases h3 : mapPy (fun p => summaryRow ((smootherNames a).length * 4 + 3) p.1 p.2) (iters.zip unf) with e | rows
  · simp [h3] at h
  simp only [h3] at h
  cases h
  obtain ⟨l2, e2⟩ := mapPy_ok _ _ _ h2
  obtain ⟨l3, e3⟩ := mapPy_ok _ _ _ h3
  have l3' : rows.length = iters.length := by rw [l3, List.length_zip, l2]; simp
  refine ⟨rfl, rfl, l2, l3', fun i hi => ⟨e2 i hi, ?_⟩⟩
  have hi' : i < iters.length := hi
  have := e3 i (by rw [List.length_zip]; omega)
  simpa using this

theorem summaryRow_ok (width : Nat) (t : Iter K) (cols : List (Col K)) (row : List K)
    (h : summaryRow width t cols = .ok row) :
    (cols.map (·.name)).Nodup ∧ row.length = width ∧ (cols ≠ [] → 4 * cols.length + 3 ≤ width) ∧
    row[0]? = some (percentRemoved t : K) ∧
    (∃ lo, lowerPercentRemoved t = .ok lo ∧ row[1]? = some (lo : K)) ∧
    (∃ hi, upperPercentRemoved t = .ok hi ∧ row[2]? = some (hi : K)) ∧
    ∀ i (hi : i < cols.length),
      row[4 * i + 3]? = some (avg (gaps cols[i].unfolded)) ∧
      row[4 * i + 4]? = some (sampleVar (gaps cols[i].unfolded)) ∧
      row[4 * i + 5]? = some cols[i].msqe ∧
      row[4 * i + 6]? = some (goeScore cols[i].unfolded) := by
  simp only [summaryRow, bind, Except.bind] at h
  rcases h1 : writeCell (List.replicate width (0 : K)) 0 (percentRemoved t : K) with e | r1
  · simp [h1] at h
  simp only [h1] at h
  rcases h2 : lowerPercentRemoved t with e | lo
  · simp [h2] at h
  simp only [h2] at h
  rcases h3 : writeCell r1 1 (lo : K) with e | r2
  · simp [h3] at h
  simp only [h3] at h
  rcases h4 : upperPercentRemoved t with e | hi
  · simp [h4] at h
  simp only [h4] at h
  rcases h5 : writeCell r2 2 (hi : K) with e | r3
  · simp [h5] at h
  simp only [h5] at h
  obtain ⟨-, rfl⟩ := writeCell_ok _ _ _ _ h1
  obtain ⟨-, rfl⟩ := writeCell_ok _ _ _ _ h3
  obtain ⟨l5, rfl⟩ := writeCell_ok _ _ _ _ h5
  simp only [List.length_set, List.length_replicate] at l5
  obtain ⟨a0, a1, a2, a3, a4⟩ := fillCols_ok _ _ _ _ _ h
  simp only [List.length_set, List.length_replicate, Nat.zero_add] at a1 a2 a3 a4
  refine ⟨?_, a1, a2, ?_, ⟨lo, rfl, ?_⟩, ⟨hi, rfl, ?_⟩, ?_⟩
  · rw [List.nodup_iff_count_le_one]
    intro n
    by_cases hn : n ∈ cols.map (·.name)
    · obtain ⟨c, hc, rfl⟩ := List.mem_map.mp hn
      have := a0 c hc
      simp only [decide_eq_false_iff_not, not_lt] at this
      exact this
    · rw [List.count_eq_zero_of_not_mem hn]
      omega
  · rw [a3 0 (by omega), List.getElem?_set_ne (by omega), List.getElem?_set_ne (by omega),
      List.getElem?_set_self (by simp only [List.length_replicate]; omega)]
  · rw [a3 1 (by omega), List.getElem?_set_ne (by omega),
      List.getElem?_set_self (by simp only [List.length_set, List.length_replicate]; omega)]
  · rw [a3 2 (by omega),
      List.getElem?_set_self (by simp only [List.length_set, List.length_replicate]; omega)]
  · intro i hi
    have := a4 i hi
    simpa only [evaluateUnfolding_eq] using this

/-- **C30 (cells).** In a report built with a list of smoothing factors and a Boolean `gompertz`: there is one row and one set of
unfoldings per trim iteration, and for every iteration and every column of its unfoldings the summary cells of that name hold the mean and
the sample variance of its spacings, its mean squared error and its GOE score; the first three cells are the
percentages trimmed. -/
theorem C30_cells (hbos : List K → List Bool) (F : Fitters K) (vals : List K) (maxTrim : ℚ)
    (maxIters : Nat) (a : FitArgs) (l : List ℚ) (hl : a.smooths = .list l)
    (hg : a.gompertz = .pyTrue ∨ a.gompertz = .pyFalse)
    (r : TrimReport K) (h : mkReport hbos F vals maxTrim maxIters a = .ok r) :
    ∃ (hu : r.unfoldings.length = r.iters.length) (hr : r.rows.length = r.iters.length),
      ∀ i (hi : i < r.iters.length),
        r.rows[i].length = r.names.length ∧
        (r.unfoldings[i]).map (·.name) = smootherNames a ∧
        (∀ c ∈ r.unfoldings[i],
          cell r.names r.rows[i] (c.name ++ "--mean_spacing") = .ok (avg (gaps c.unfolded)) ∧
          cell r.names r.rows[i] (c.name ++ "--var_spacing") = .ok (sampleVar (gaps c.unfolded)) ∧
          cell r.names r.rows[i] (c.name ++ "--msqe") = .ok c.msqe ∧
          cell r.names r.rows[i] (c.name ++ "--score") = .ok (goeScore c.unfolded)) ∧
        cell r.names r.rows[i] "trim_percent" = .ok (percentRemoved r.iters[i] : K) ∧
        (∃ lo, lowerPercentRemoved r.iters[i] = .ok lo ∧ cell r.names r.rows[i] "trim_low" = .ok (lo : K)) ∧
        (∃ hi', upperPercentRemoved r.iters[i] = .ok hi' ∧
          cell r.names r.rows[i] "trim_high" = .ok (hi' : K)) := by
  obtain ⟨-, hn, hu, hr, hall⟩ := report_ok hbos F vals maxTrim maxIters a r h
  refine ⟨hu, hr, fun i hi => ?_⟩
  obtain ⟨hf, hrow⟩ := hall i hi
  have hnames := C30_names F _ a l hl hg _ hf
  obtain ⟨b0, b1, -, b3, ⟨lo, hlo, b4⟩, ⟨hi', hhi, b5⟩, b6⟩ := summaryRow_ok _ _ _ _ hrow
  have hnd : r.names.Nodup := by
    rw [hn]
    exact summaryNames_nodup _ (hnames ▸ b0)
  have hT : ∀ k, k < 3 → r.names[k]? = ["trim_percent", "trim_low", "trim_high"][k]? := by
    intro k hk
    rw [hn, summaryNames, List.getElem?_append_left (by simpa using hk)]
  refine ⟨by rw [b1, hn, summaryNames_length], hnames, ?_,
    cell_of_nodup _ hnd _ 0 _ _ (hT 0 (by omega)) b3,
    ⟨lo, hlo, cell_of_nodup _ hnd _ 1 _ _ (hT 1 (by omega)) b4⟩,
    ⟨hi', hhi, cell_of_nodup _ hnd _ 2 _ _ (hT 2 (by omega)) b5⟩⟩
  intro c hc
  obtain ⟨j, hj, rfl⟩ := List.mem_iff_getElem.mp hc
  have hjn : j < (smootherNames a).length := by rw [← hnames]; simpa using hj
  have hname : (r.unfoldings[i][j]).name = (smootherNames a)[j] := by
    have : ((r.unfoldings[i]).map (·.name))[j]? = (smootherNames a)[j]? := by rw [hnames]
    rw [List.getElem?_map, List.getElem?_eq_getElem hj, List.getElem?_eq_getElem hjn] at this
    simpa using this
  obtain ⟨n1, n2, n3, n4⟩ := summaryNames_getElem? (smootherNames a) j hjn
  obtain ⟨c1, c2, c3, c4⟩ := b6 j hj
  rw [← hn, ← hname] at n1 n2 n3 n4
  exact ⟨cell_of_nodup _ hnd _ _ _ _ n1 c1, cell_of_nodup _ hnd _ _ _ _ n2 c2,
    cell_of_nodup _ hnd _ _ _ _ n3 c3, cell_of_nodup _ hnd _ _ _ _ n4 c4⟩

/-- **C30 (non-Boolean `gompertz`).** With a truthy `gompertz` that is not `True` (for example `1`) no report can be constructed: the unfoldings have one column
more than the summary. -/
theorem C30_gompertz_truthy (hbos : List K → List Bool) (F : Fitters K) (vals : List K) (maxTrim : ℚ)
    (maxIters : Nat) (a : FitArgs) (hg : a.gompertz = .otherTruthy) (r : TrimReport K) :
    mkReport hbos F vals maxTrim maxIters a ≠ .ok r := by
  intro h
  obtain ⟨ht, hn, hu, hr, hall⟩ := report_ok hbos F vals maxTrim maxIters a r h
  have hpos : 0 < r.iters.length := by
    simp only [trimIters, bind, Except.bind] at ht
    split at ht
    · cases ht
    · split at ht
      · cases ht
      · simp only [pure, Except.pure, Except.ok.injEq] at ht
        rw [← ht]; simp
  obtain ⟨hf, hrow⟩ := hall 0 hpos
  have hlen := congrArg List.length (fitAll_name F _ a _ hf)
  simp only [List.length_map] at hlen
  have hcalls : ∀ n, (fitCalls F n a).length = (smootherNames a).length + 1 := by
    intro n
    simp only [fitCalls, smootherNames, hg, Flag.truthy, Flag.isTrue]
    cases a.smooths <;> simp <;> omega
  rw [hcalls] at hlen
  obtain ⟨-, -, b2, -⟩ := summaryRow_ok _ _ _ _ hrow
  have := b2 (by intro hc; rw [hc] at hlen; simp at hlen)
  omega

-- C30: hypotheses met by a concrete choice of parameters
example : (([14 / 10, 15 / 10, 1401 / 1000] : List ℚ).map threeDecimals).Nodup := by decide +kernel
example : smootherNames ⟨[3, 11], .list [7 / 5, 3 / 2], [3, 1], .pyTrue, false⟩ =
    ["poly_3", "poly_11", "cubic-spline_1.400", "deg1-spline_1.400", "cubic-spline_1.500",
      "deg1-spline_1.500", "gompertz"] := by decide +kernel

/-- One trim iteration of four values. -/
def sampleArgs : FitArgs := ⟨[3, 4], .list [], [], .pyFalse, false⟩

example : ∃ r, mkReport (fun l => l.map fun _ => false) (constFitters [0, 1]) [2, 1, 4, 3] (1 / 2) 0 sampleArgs = .ok r := by
  have h : npSort [2, 1, 4, (3 : ℚ)] = [1, 2, 3, 4] := npSort_unique (by decide) (by decide)
  have h2 : npSort [1, 2, 3, (4 : ℚ)] = [1, 2, 3, 4] := npSort_unique (by decide) (by decide)
  simp only [mkReport, trimIters, h]
  exact ⟨_, rfl⟩

end Props
end RMT
