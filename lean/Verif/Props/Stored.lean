import Verif.Model.Stored
import Verif.Props.ReportApi
import Verif.Props.Cells
import Verif.Spec.Float

/-!
# Property C170: the choice of `trim_unfold_auto` is made from single-precision scores
-/

set_option linter.unusedSectionVars false

namespace RMT
namespace Props
open Smooth Trim Report Unfold EigValsM Spec ReportApi Stored Format

section field
variable {K : Type} [Field K] [LinearOrder K]

/-- The stored absolute GOE scores, one per trim iteration, of the unfoldings with name `n`. -/
def storedScores (st : K → K) (unfoldings : List (List (Col K))) (n : String) : List K :=
  unfoldings.flatMap fun cols => (cols.filter fun c => decide (c.name = n)).map fun c => |st (goeScore c.unfolded)|

theorem idxMin_first (l : List K) (k : Nat) (h : idxMin l = .ok k) (i : Nat) (hik : i < k) (hi : i < l.length) (hk : k < l.length) : l[k] < l[i] := by
  obtain ⟨_, hle⟩ := idxMin_ok l k h
  refine lt_of_le_of_ne (hle _ (List.getElem_mem hi)) ?_
  cases l with
  | nil => simp at hi
  | cons a as =>
    simp only [idxMin, Except.ok.injEq] at h
    subst h
    have hv : (a :: as)[List.idxOf (minOf a as) (a :: as)] = minOf a as := List.getElem_idxOf hk
    rw [hv]
    intro he
    have h2 := List.not_of_lt_findIdx (p := fun x => x == minOf a as) (xs := a :: as) (by simpa [List.idxOf] using hik)
    simp only [beq_eq_false_iff_ne, ne_eq] at h2
    exact h2 he.symm

/-- The stored score column of smoother number `j`. -/
theorem stored_column (st : K → K) (hbos : List K → List Bool) (F : Fitters K) (vals : List K) (maxTrim : ℚ)
    (maxIters : Nat) (a : FitArgs) (ha : PlainArgs a) (r : TrimReport K)
    (h : mkReport hbos F vals maxTrim maxIters a = .ok r) (j : Nat) (hj : j < (smootherNames a).length) :
    ((storeReport st r).rows.map fun row => |row.getD (4 * j + 6) 0|) = storedScores st r.unfoldings (smootherNames a)[j] ∧
    ∀ i (hi : i < r.iters.length), ∃ (hu : i < r.unfoldings.length) (hc : j < r.unfoldings[i].length),
        (storedScores st r.unfoldings (smootherNames a)[j])[i]? = some |st (goeScore r.unfoldings[i][j].unfolded)| := by
  obtain ⟨l, hl, hs⟩ := ha.listSmooths
  obtain ⟨-, hn, hu, hr, hall⟩ := report_ok hbos F vals maxTrim maxIters a r h
  obtain ⟨_, _, hrow⟩ := plain_report hbos F vals maxTrim maxIters a ha r h j hj
  have hcell : ∀ i (hi : i < r.iters.length) (hc : j < (r.unfoldings[i]'(by omega)).length),
      (r.rows[i]'(by omega)).getD (4 * j + 6) 0 = goeScore (r.unfoldings[i]'(by omega))[j].unfolded ∧ 4 * j + 6 < (r.rows[i]'(by omega)).length := by
    intro i hi hc
    obtain ⟨-, -, -, -, -, -, b6⟩ := summaryRow_ok _ _ _ _ (hall i hi).2
    have := (b6 j hc).2.2.2
    refine ⟨by simp [List.getD, this], ?_⟩
    exact (List.getElem?_eq_some_iff.mp this).1
  have key : ((storeReport st r).rows.map fun row => |row.getD (4 * j + 6) 0|) = storedScores st r.unfoldings (smootherNames a)[j] := by
    have e1 : storedScores st r.unfoldings (smootherNames a)[j] =
        r.unfoldings.map fun cols => |st (goeScore ((cols[j]?.map (·.unfolded)).getD []))| := by
      unfold storedScores
      rw [List.map_eq_flatMap]
      apply List.flatMap_congr
      intro cols hc
      obtain ⟨i, hi, rfl⟩ := List.mem_iff_getElem.mp hc
      have hi' : i < r.iters.length := by rw [← hu]; exact hi
      obtain ⟨hj', hname, -⟩ := hrow i hi'
      have h1 := C30_names F _ a l hl ha.boolGompertz _ (hall i hi').1
      rw [← hname, filter_name_nodup _ (by rw [h1]; exact ha.nodup) j hj']
      simp [List.getElem?_eq_getElem hj']
    rw [e1]
    apply List.ext_getElem (by simp [storeReport, hr, hu])
    intro i h1 h2
    have hi : i < r.iters.length := by simpa [storeReport, hr] using h1
    obtain ⟨hj', -, -⟩ := hrow i hi
    obtain ⟨c1, c2⟩ := hcell i hi hj'
    have c3 : (r.rows[i]'(by omega))[4 * j + 6] = goeScore (r.unfoldings[i]'(by omega))[j].unfolded := by
      rw [← c1, List.getD_eq_getElem _ _ c2]
    simp only [storeReport, List.getElem_map, List.getD, List.getElem?_map, List.getElem?_eq_getElem c2, Option.map_some, Option.getD_some, c3,
      List.getElem?_eq_getElem hj']
  refine ⟨key, fun i hi => ?_⟩
  obtain ⟨hj', -, -⟩ := hrow i hi
  obtain ⟨c1, c2⟩ := hcell i hi hj'
  have c3 : (r.rows[i]'(by omega))[4 * j + 6] = goeScore (r.unfoldings[i]'(by omega))[j].unfolded := by
    rw [← c1, List.getD_eq_getElem _ _ c2]
  refine ⟨by omega, hj', ?_⟩
  rw [← key, List.getElem?_map]
  have hrl : i < (storeReport st r).rows.length := by simp [storeReport]; omega
  rw [List.getElem?_eq_getElem hrl]
  simp [storeReport, List.getD, List.getElem?_eq_getElem c2, c3]

/-- The automatic choice from the stored table: iteration `i` and column number `j`. -/
theorem stored_choice (st : K → K) (hbos : List K → List Bool) (F : Fitters K) (vals : List K) (maxTrim : ℚ)
    (maxIters : Nat) (a : FitArgs) (ha : PlainArgs a) (r : TrimReport K)
    (h : mkReport hbos F vals maxTrim maxIters a = .ok r) (hne : smootherNames a ≠ []) :
    ∃ (hu : r.unfoldings.length = r.iters.length) (j : Nat) (hj : j < (smootherNames a).length) (i : Nat)
      (hi : i < r.iters.length) (hc : j < r.unfoldings[i].length),
      bestScoreCol (scoreCols (storeReport st r)) = .ok ((smootherNames a)[j] ++ "--score", storedScores st r.unfoldings (smootherNames a)[j]) ∧
      idxMin (storedScores st r.unfoldings (smootherNames a)[j]) = .ok i ∧
      r.unfoldings[i][j].name = (smootherNames a)[j] ∧
      autounfoldVals (storeReport st r) = .ok (r.iters[i].eigs, r.unfoldings[i][j].unfolded) := by
  obtain ⟨l, hl, hs⟩ := ha.listSmooths
  obtain ⟨ht, hn, hu, hr, hall⟩ := report_ok hbos F vals maxTrim maxIters a r h
  have hn' : (storeReport st r).names = summaryNames (smootherNames a) := hn
  have hpos : 0 < r.iters.length := by
    obtain ⟨_, _, _, i, hi, _⟩ := autounfold_ok hbos F vals maxTrim maxIters a ha r h hne
    omega
  have hsc := scoreCols_eq (storeReport st r) (smootherNames a) (goodName_names a) hn'
  obtain ⟨b, hb⟩ : ∃ b, bestScoreCol (scoreCols (storeReport st r)) = .ok b := by
    unfold bestScoreCol
    split
    · rename_i heq
      have := congrArg List.length heq
      rw [List.length_mergeSort, hsc] at this
      simp at this
      exact absurd this hne
    · exact ⟨_, rfl⟩
  obtain ⟨hbm, -⟩ := bestScoreCol_ok _ _ hb
  rw [hsc, List.mem_map] at hbm
  obtain ⟨⟨n, j⟩, hp, rfl⟩ := hbm
  rw [List.mem_zipIdx_iff_getElem?] at hp
  simp only at hp
  obtain ⟨hj, rfl⟩ := List.getElem?_eq_some_iff.mp hp
  obtain ⟨hkey, -⟩ := stored_column st hbos F vals maxTrim maxIters a ha r h j hj
  obtain ⟨_, _, hrow⟩ := plain_report hbos F vals maxTrim maxIters a ha r h j hj
  simp only at hb
  rw [hkey] at hb
  have hlen : (storedScores st r.unfoldings (smootherNames a)[j]).length = r.iters.length := by
    rw [← hkey]; simpa [storeReport] using hr
  obtain ⟨i, hi⟩ := idxMin_isOk (storedScores st r.unfoldings (smootherNames a)[j]) (by
    intro hc; rw [hc] at hlen; simp at hlen; omega)
  obtain ⟨hi', -⟩ := idxMin_ok _ _ hi
  rw [hlen] at hi'
  obtain ⟨hc, hname, -⟩ := hrow i hi'
  refine ⟨hu, j, hj, i, hi', hc, hb, hi, hname, ?_⟩
  have hcols := C30_names F _ a l hl ha.boolGompertz _ (hall i hi').1
  have hnd : ((r.unfoldings[i]).map (·.name)).Nodup := by rw [hcols]; exact ha.nodup
  have hget := getCol_nodup _ hnd j hc
  rw [hname] at hget
  have hpu : pyGet (storeReport st r).unfoldings (i : Int) = .ok (r.unfoldings[i]) := by
    have h2 : i < r.unfoldings.length := by omega
    simp [pyGet, pyIdx, h2, storeReport]
  have hpi : pyGet (storeReport st r).iters (i : Int) = .ok (r.iters[i]) := by
    simp [pyGet, pyIdx, hi', storeReport]
  simp only [autounfoldVals, hb, bind, Except.bind, regexCols_eq (storeReport st r) a ha.nodup hn' j hj, mapPy, hkey, hi, item, hpu,
    dropScore_append, hget, hpi]

/-- **C170 (defined).** Whatever the rounding, `trim_unfold_auto` returns a value for plain arguments with at least one smoother whenever its report can be built. -/
theorem C170_defined (st : K → K) (hbos : List K → List Bool) (F : Fitters K) (vals : List K) (maxTrim : ℚ)
    (maxIters : Nat) (a : FitArgs) (ha : PlainArgs a) (r : TrimReport K)
    (h : mkReport hbos F vals maxTrim maxIters a = .ok r) (hne : smootherNames a ≠ []) :
    ∃ u, trimUnfoldAutoStored st hbos F vals maxTrim maxIters a = .ok u := by
  obtain ⟨hu, j, hj, i, hi, hc, -, -, -, hv⟩ := stored_choice st hbos F vals maxTrim maxIters a ha r h hne
  simp only [trimUnfoldAutoStored, h, hv, bind, Except.bind, mkUnfolded_eq]
  exact ⟨_, rfl⟩

/-- **C170 (the choice).** Whatever the rounding of the table, `trim_unfold_auto` returns the values of one unfolding `c` of one trim iteration `i`, equally many originals and unfolded values; `c` has the smallest stored absolute score of all unfoldings with its smoother, the
iteration is the earliest (the least trimmed) with that stored score, and no smoother has a better criterion (C32) in stored scores. -/
theorem C170_choice (st : K → K) (hbos : List K → List Bool) (F : Fitters K) (vals : List K) (maxTrim : ℚ)
    (maxIters : Nat) (a : FitArgs) (ha : PlainArgs a) (hne : smootherNames a ≠ []) (u : Unfolded K)
    (h : trimUnfoldAutoStored st hbos F vals maxTrim maxIters a = .ok u) :
    ∃ r, mkReport hbos F vals maxTrim maxIters a = .ok r ∧
    ∃ (hu : r.unfoldings.length = r.iters.length) (i : Nat) (hi : i < r.iters.length),
    ∃ c ∈ r.unfoldings[i],
      u.originals = npSort r.iters[i].eigs ∧ u.vals = c.unfolded ∧ u.vals.length = u.originals.length ∧
      (∀ cols ∈ r.unfoldings, ∀ c' ∈ cols, c'.name = c.name → |st (goeScore c.unfolded)| ≤ |st (goeScore c'.unfolded)|) ∧
      (∀ k (hk : k < i), ∀ c' ∈ r.unfoldings[k], c'.name = c.name → |st (goeScore c.unfolded)| < |st (goeScore c'.unfolded)|) ∧
      (∀ n ∈ smootherNames a, AtLeastAsGood (maskedMean (storedScores st r.unfoldings c.name)) (maskedMean (storedScores st r.unfoldings n))) := by
  rcases hrep : mkReport hbos F vals maxTrim maxIters a with e | r
  · simp [trimUnfoldAutoStored, hrep, bind, Except.bind] at h
  obtain ⟨l, hl, hs⟩ := ha.listSmooths
  obtain ⟨-, hn, _, hr, hall⟩ := report_ok hbos F vals maxTrim maxIters a r hrep
  obtain ⟨hu, j, hj, i, hi, hc, hb, hm, hname, hv⟩ := stored_choice st hbos F vals maxTrim maxIters a ha r hrep hne
  simp only [trimUnfoldAutoStored, hrep, hv, bind, Except.bind, mkUnfolded_eq, Except.ok.injEq] at h
  subst h
  have hsc := scoreCols_eq (storeReport st r) (smootherNames a) (goodName_names a) hn
  obtain ⟨hi', hle⟩ := idxMin_ok _ _ hm
  obtain ⟨hkey, hval⟩ := stored_column st hbos F vals maxTrim maxIters a ha r hrep j hj
  have hval' : (storedScores st r.unfoldings (smootherNames a)[j])[i] = |st (goeScore r.unfoldings[i][j].unfolded)| := by
    obtain ⟨_, _, hval⟩ := hval i hi
    rw [List.getElem?_eq_getElem hi'] at hval
    simpa using hval
  refine ⟨r, rfl, hu, i, hi, r.unfoldings[i][j], List.getElem_mem hc, rfl, rfl, ?_, ?_, ?_, ?_⟩
  · show (r.unfoldings[i][j].unfolded).length = (npSort r.iters[i].eigs).length
    exact fitAll_length F _ a _ (hall i hi).1 _ (List.getElem_mem hc)
  · intro cols hcols c' hc' hcn
    rw [← hval']
    apply hle
    unfold storedScores
    rw [List.mem_flatMap]
    refine ⟨cols, hcols, List.mem_map.mpr ⟨c', ?_, rfl⟩⟩
    rw [List.mem_filter]
    exact ⟨hc', by rw [decide_eq_true_iff, hcn, hname]⟩
  · intro k hk c' hc' hcn
    have hk' : k < r.iters.length := by omega
    obtain ⟨hku, hkc, hkv⟩ := hval k hk'
    have hks : k < (storedScores st r.unfoldings (smootherNames a)[j]).length := by omega
    have hlt := idxMin_first _ _ hm k hk hks hi'
    rw [List.getElem?_eq_getElem hks] at hkv
    rw [hval', Option.some.inj hkv] at hlt
    have hcols := C30_names F _ a l hl ha.boolGompertz _ (hall k hk').1
    have hfil := filter_name_nodup r.unfoldings[k] (by rw [hcols]; exact ha.nodup) j hkc
    obtain ⟨_, _, hrow⟩ := plain_report hbos F vals maxTrim maxIters a ha r hrep j hj
    obtain ⟨_, hnk, -⟩ := hrow k hk'
    have : c' ∈ (r.unfoldings[k].filter fun c => decide (c.name = r.unfoldings[k][j].name)) := by
      rw [List.mem_filter]
      exact ⟨hc', by rw [decide_eq_true_iff, hcn, hname, hnk]⟩
    rw [hfil, List.mem_singleton] at this
    rw [this]
    exact hlt
  · intro n hn'
    obtain ⟨k, hk, rfl⟩ := List.mem_iff_getElem.mp hn'
    obtain ⟨-, hmin⟩ := bestScoreCol_ok _ _ hb
    have := hmin ((smootherNames a)[k] ++ "--score", (storeReport st r).rows.map fun row => |row.getD (4 * k + 6) 0|) (by
      rw [hsc, List.mem_map]
      exact ⟨((smootherNames a)[k], k), by
        rw [List.mem_zipIdx_iff_getElem?]; exact List.getElem?_eq_getElem hk, rfl⟩)
    simp only [(stored_column st hbos F vals maxTrim maxIters a ha r hrep k hk).1] at this
    rw [hname]
    exact (atLeastAsGood_iff _ _).mp this

end field

/-- **C170 (accuracy).** If storing has relative error at most `ε < 1`, the score of the unfolding returned is the best of all trims with its smoother up to the factor `(1 + ε) / (1 - ε)`. -/
theorem C170_accuracy {K : Type} [Field K] [LinearOrder K] [IsStrictOrderedRing K] (st : K → K) (ε : K) (hst : RelRounding st ε) (hbos : List K → List Bool) (F : Fitters K) (vals : List K) (maxTrim : ℚ)
    (maxIters : Nat) (a : FitArgs) (ha : PlainArgs a) (hne : smootherNames a ≠ []) (u : Unfolded K)
    (h : trimUnfoldAutoStored st hbos F vals maxTrim maxIters a = .ok u) :
    ∃ r, mkReport hbos F vals maxTrim maxIters a = .ok r ∧
    ∃ (hu : r.unfoldings.length = r.iters.length) (i : Nat) (hi : i < r.iters.length),
    ∃ c ∈ r.unfoldings[i], u.originals = npSort r.iters[i].eigs ∧ u.vals = c.unfolded ∧
      ∀ cols ∈ r.unfoldings, ∀ c' ∈ cols, c'.name = c.name → (1 - ε) * |goeScore c.unfolded| ≤ (1 + ε) * |goeScore c'.unfolded| := by
  obtain ⟨r, h1, hu, i, hi, c, hc, h2, h3, -, h4, -⟩ := C170_choice st hbos F vals maxTrim maxIters a ha hne u h
  refine ⟨r, h1, hu, i, hi, c, hc, h2, h3, fun cols hcols c' hc' hn => ?_⟩
  have h5 := h4 cols hcols c' hc' hn
  have e1 := hst (goeScore c.unfolded)
  have e2 := hst (goeScore c'.unfolded)
  have a1 := abs_sub_abs_le_abs_sub (goeScore c.unfolded) (st (goeScore c.unfolded))
  have a2 := abs_sub_abs_le_abs_sub (st (goeScore c'.unfolded)) (goeScore c'.unfolded)
  rw [abs_sub_comm] at a1
  linarith

/-- **C170 (unchanged choices).** If storing preserves the order of the absolute scores of the table, and keeps different ones different, the result is that with an exact table (C32): the exactly best trim is returned. -/
theorem C170_exact {K : Type} [Field K] [LinearOrder K] [IsStrictOrderedRing K] (st : K → K) (hbos : List K → List Bool) (F : Fitters K) (vals : List K) (maxTrim : ℚ)
    (maxIters : Nat) (a : FitArgs) (ha : PlainArgs a) (hne : smootherNames a ≠ []) (u : Unfolded K)
    (h : trimUnfoldAutoStored st hbos F vals maxTrim maxIters a = .ok u)
    (hst : ∀ r, mkReport hbos F vals maxTrim maxIters a = .ok r → ∀ cols ∈ r.unfoldings, ∀ c ∈ cols, ∀ cols' ∈ r.unfoldings, ∀ c' ∈ cols',
      |goeScore c.unfolded| < |goeScore c'.unfolded| → |st (goeScore c.unfolded)| < |st (goeScore c'.unfolded)|) :
    ∃ r, mkReport hbos F vals maxTrim maxIters a = .ok r ∧
    ∃ (hu : r.unfoldings.length = r.iters.length) (i : Nat) (hi : i < r.iters.length),
    ∃ c ∈ r.unfoldings[i], u.originals = npSort r.iters[i].eigs ∧ u.vals = c.unfolded ∧
      ∀ cols ∈ r.unfoldings, ∀ c' ∈ cols, c'.name = c.name → |goeScore c.unfolded| ≤ |goeScore c'.unfolded| := by
  obtain ⟨r, h1, hu, i, hi, c, hc, h2, h3, -, h4, -⟩ := C170_choice st hbos F vals maxTrim maxIters a ha hne u h
  refine ⟨r, h1, hu, i, hi, c, hc, h2, h3, fun cols hcols c' hc' hn => ?_⟩
  by_contra hlt
  exact absurd (h4 cols hcols c' hc' hn) (not_le.mpr (hst r h1 cols hcols c' hc' _ (List.getElem_mem (by omega)) c hc (not_le.mp hlt)))

/-- **C170 (single precision).** The rounding to 24 binary digits has relative error at most `2⁻²⁴`. -/
theorem C170_single : RelRounding single (1 / 2 ^ 24) := by
  intro x
  rcases eq_or_ne x 0 with rfl | hx
  · have h0 : roundHalfEven 0 = 0 := by decide +kernel
    simp [single, h0]
  have hx' : 0 < |x| := abs_pos.mpr hx
  set u : ℚ := 2 ^ (Int.log 2 |x| - 23) with hu
  have hupos : 0 < u := zpow_pos (by norm_num) _
  have hux : u ≤ |x| / 2 ^ 23 := by
    have := Int.zpow_log_le_self (b := 2) (by norm_num) hx'
    rw [hu, zpow_sub₀ (by norm_num)]
    norm_num at this ⊢
    linarith
  obtain ⟨h1, -⟩ := roundHalfEven_spec (|x| / u) (by positivity)
  have h2 : |(roundHalfEven (|x| / u) : ℚ) * u - (|x|)| ≤ u / 2 := by
    have : (roundHalfEven (|x| / u) : ℚ) * u - |x| = -((|x| / u - roundHalfEven (|x| / u)) * u) := by
      field_simp
      ring
    rw [this, abs_neg, abs_mul, abs_of_pos hupos]
    nlinarith
  have h3 : |single x - x| ≤ u / 2 := by
    unfold single
    simp only [← hu]
    split_ifs with hneg
    · have hax : |x| = -x := abs_of_neg hneg
      rw [show -((roundHalfEven (|x| / u) : ℚ) * u) - x = -((roundHalfEven (|x| / u) : ℚ) * u - |x|) by rw [hax]; ring, abs_neg]
      exact h2
    · have hax : |x| = x := abs_of_nonneg (not_lt.mp hneg)
      rw [show (roundHalfEven (|x| / u) : ℚ) * u - x = (roundHalfEven (|x| / u) : ℚ) * u - |x| by rw [hax]]
      exact h2
  refine h3.trans ?_
  norm_num at hux ⊢
  linarith

/-- Polynomial fits that are lines through the origin: slope 1 for five eigenvalues, very slightly more otherwise. -/
def closeFits : Fitters ℚ where
  polyfit := fun x _ _ => .ok [0, if x.length = 5 then 1 else 1 + 1 / 2 ^ 30]
  spline := fun _ _ _ _ => .ok id
  fitExp := fun _ _ => .ok (1, 1)
  fitGompertz := fun _ _ => .ok (1, 1, 1)
  exp := id
  pow := fun _ _ => 1
  trend := fun l => l.map fun _ => 0

/-- One polynomial degree. -/
def oneDegree : FitArgs := ⟨[3], .list [], [], .pyFalse, false⟩

theorem oneDegree_plain : PlainArgs oneDegree :=
  ⟨⟨[], rfl, by simp⟩, Or.inr rfl, by simp [oneDegree], by simp [oneDegree]⟩

theorem close_cols0 : ∃ c : Col ℚ, fitAll closeFits [1, 2, 3, 4, 5] oneDegree = .ok [c] ∧ c.name = "poly_3" ∧ goeScore c.unfolded = -1 := by
  refine ⟨_, rfl, by decide, ?_⟩
  have : npSort ([1, 2, 3, 4, 5].map (polyval [0, (1 : ℚ)])) = [1, 2, 3, 4, 5] := npSort_unique (by decide +kernel) (by decide +kernel)
  show goeScore (npSort ([1, 2, 3, 4, 5].map (polyval [0, (1 : ℚ)]))) = -1
  rw [this]
  decide +kernel

theorem close_cols1 : ∃ c : Col ℚ, fitAll closeFits [1, 2, 3, 4] oneDegree = .ok [c] ∧ c.name = "poly_3" ∧ goeScore c.unfolded = -(1 - 1 / 2 ^ 31) := by
  refine ⟨_, rfl, by decide, ?_⟩
  have : npSort ([1, 2, 3, 4].map (polyval [0, (1 + 1 / 2 ^ 30 : ℚ)])) = [1 + 1 / 2 ^ 30, 2 + 2 / 2 ^ 30, 3 + 3 / 2 ^ 30, 4 + 4 / 2 ^ 30] := npSort_unique (by decide +kernel) (by decide +kernel)
  show goeScore (npSort ([1, 2, 3, 4].map (polyval [0, (1 + 1 / 2 ^ 30 : ℚ)]))) = _
  rw [this]
  decide +kernel

theorem close_report : ∃ r, mkReport lastOfFive closeFits [1, 2, 3, 4, 5] (1 / 2) 1 oneDegree = .ok r := by
  simp only [mkReport, slope_iters, bind, Except.bind, slope0, slope1]
  exact ⟨_, rfl⟩

theorem single_one : single (-1) = -1 := by
  have h : Int.log 2 |(-1 : ℚ)| = 0 := by norm_num [Int.log_one_right]
  simp only [single, h]
  decide +kernel

theorem single_close : single (-(1 - 1 / 2 ^ 31)) = -1 := by
  have hlog : Int.log 2 |(-(1 - 1 / 2 ^ 31) : ℚ)| = -1 := by
    have hpos : (0 : ℚ) < |(-(1 - 1 / 2 ^ 31) : ℚ)| := by norm_num
    apply le_antisymm
    · have : Int.log 2 |(-(1 - 1 / 2 ^ 31) : ℚ)| < 0 := by
        rw [← Int.lt_zpow_iff_log_lt (by norm_num) hpos]
        norm_num [abs_of_neg]
      omega
    · rw [← Int.zpow_le_iff_le_log (by norm_num) hpos]
      norm_num [abs_of_neg]
  simp only [single, hlog]
  decide +kernel

/-- **C170 (near ties).** The exactly best trim is not always returned: a spectrum with two trim iterations whose absolute scores for the only smoother differ by less than single precision; `trim_unfold_auto` returns the unfolding of the first, although
that of the second has the smaller absolute score. -/
theorem C170_near_ties : ∃ (hbos : List ℚ → List Bool) (F : Fitters ℚ) (vals : List ℚ) (u : Unfolded ℚ) (r : TrimReport ℚ), (∀ l, (hbos l).length = l.length) ∧
    trimUnfoldAutoStored single hbos F vals (1 / 2) 1 oneDegree = .ok u ∧ mkReport hbos F vals (1 / 2) 1 oneDegree = .ok r ∧
    ∃ cols ∈ r.unfoldings, ∃ c ∈ cols, |goeScore c.unfolded| < |goeScore u.vals| := by
  have hne : smootherNames oneDegree ≠ [] := by decide
  obtain ⟨r, hr⟩ := close_report
  obtain ⟨u, hu⟩ := C170_defined single _ _ _ _ _ _ oneDegree_plain r hr hne
  refine ⟨lastOfFive, closeFits, [1, 2, 3, 4, 5], u, r, by simp [lastOfFive], hu, hr, ?_⟩
  obtain ⟨r', hr', hlen, i, hi, c, hc, ho, hv, -, -, hfirst, -⟩ := C170_choice _ _ _ _ _ _ _ oneDegree_plain hne u hu
  rw [hr] at hr'
  cases hr'
  obtain ⟨ht, -, hlu, hrw, hall⟩ := report_ok _ _ _ _ _ _ r hr
  rw [slope_iters] at ht
  obtain ⟨c0, f0, n0, s0⟩ := close_cols0
  obtain ⟨c1, f1, n1, s1⟩ := close_cols1
  obtain ⟨iters, unf, nm, rows⟩ := r
  have ht' : iters = [slope0, slope1] := (Except.ok.inj ht).symm
  subst ht'
  obtain ⟨a0, a1, rfl⟩ : ∃ a0 a1, unf = [a0, a1] := by
    have : unf.length = 2 := hlen
    match unf, this with
    | [a0, a1], _ => exact ⟨_, _, rfl⟩
  have g0 := (hall 0 (by simp)).1
  have g1 := (hall 1 (by simp)).1
  have e0 : slope0.eigs = [1, 2, 3, 4, 5] := rfl
  have e1 : slope1.eigs = [1, 2, 3, 4] := rfl
  simp only [List.getElem_cons_zero, List.getElem_cons_succ, e0, e1, sort12345, sort1234, f0, f1, Except.ok.injEq] at g0 g1
  subst g0 g1
  refine ⟨[c1], by simp, c1, by simp, ?_⟩
  have hc0 : c = c0 := by
    match i, hi, hc, hfirst with
    | 0, _, hc, _ => simpa using hc
    | 1, _, hc, hfirst =>
      exfalso
      simp only [List.getElem_cons_succ, List.getElem_cons_zero, List.mem_cons, List.not_mem_nil, or_false] at hc
      subst hc
      have := hfirst 0 (by norm_num) c0 (by simp) (by rw [n0, n1])
      rw [s0, s1, single_one, single_close] at this
      exact lt_irrefl _ this
  rw [hv, hc0, s0, s1]
  norm_num [abs_of_neg]

end Props
end RMT
