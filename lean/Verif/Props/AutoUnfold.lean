import Verif.Lemmas.Regex
import Verif.Props.Summary
import Mathlib.Data.Rat.Floor

/-!
# Properties C31-C33, C76: automatic unfolding, `get_best_trimmed`, GOE score

`hbos` is an arbitrary outlier detector, `F` arbitrary fitting routines.
-/

set_option linter.unusedSectionVars false

namespace RMT
namespace Props
open Smooth Unfold EigValsM Spec Report Trim Format

variable {K : Type} [Field K] [LinearOrder K]

/-! ## Score columns -/

theorem isScoreName_stat (n suf : String) (hn : GoodName n) (hs : NoSC suf.toList) :
    isScoreName (n ++ suf) = false := by
  simp only [isScoreName, decide_eq_false_iff_not, String.toList_append]
  exact not_score_infix _ (GoodName_append_list _ _ hn.1 hs hn.2)

theorem isScoreName_score (n : String) : isScoreName (n ++ "--score") = true := by
  simp only [isScoreName, decide_eq_true_eq, String.toList_append]
  refine ⟨n.toList ++ "--".toList, [], ?_⟩
  simp

theorem filter_flatMap (names : List String) (P : String → Bool) (k : Nat)
    (h1 : ∀ n ∈ names, P (n ++ "--mean_spacing") = false ∧ P (n ++ "--var_spacing") = false ∧
      P (n ++ "--msqe") = false) :
    ((names.flatMap fun n => [n ++ "--mean_spacing", n ++ "--var_spacing", n ++ "--msqe", n ++ "--score"]).zipIdx
        (4 * k + 3)).filter (fun p => P p.1) =
      ((names.zipIdx k).filter fun p => P (p.1 ++ "--score")).map fun p => (p.1 ++ "--score", 4 * p.2 + 6) := by
  induction names generalizing k with
  | nil => rfl
  | cons n ns ih =>
    have ih' := ih (k + 1) (fun m hm => h1 m (by simp [hm]))
    obtain ⟨e1, e2, e3⟩ := h1 n (by simp)
    rw [List.flatMap_cons, List.zipIdx_append, List.filter_append, List.zipIdx_cons]
    rw [show (4 * k + 3 + [n ++ "--mean_spacing", n ++ "--var_spacing", n ++ "--msqe", n ++ "--score"].length) =
      4 * (k + 1) + 3 by simp; omega, ih']
    simp only [List.zipIdx_cons, List.zipIdx_nil, List.filter_cons, e1, e2, e3, Bool.false_eq_true, if_false,
      List.filter_nil]
    split_ifs <;> simp

/-- The score columns of a report. -/
theorem scoreCols_eq (r : TrimReport K) (names : List String) (hg : ∀ n ∈ names, GoodName n)
    (hr : r.names = summaryNames names) :
    scoreCols r = names.zipIdx.map fun p =>
      (p.1 ++ "--score", r.rows.map fun row => |row.getD (4 * p.2 + 6) 0|) := by
  have hf := filter_flatMap names isScoreName 0 (fun n hn =>
    ⟨isScoreName_stat n _ (hg n hn) (by decide), isScoreName_stat n _ (hg n hn) (by decide),
      isScoreName_stat n _ (hg n hn) (by decide)⟩)
  simp only [isScoreName_score, List.filter_true] at hf
  simp only [scoreCols, hr, summaryNames, List.zipIdx_append, List.filter_append]
  rw [show (0 + ["trim_percent", "trim_low", "trim_high"].length) = 4 * 0 + 3 by rfl, hf]
  have : (["trim_percent", "trim_low", "trim_high"].zipIdx.filter fun p => isScoreName p.1) = [] := by
    decide +kernel
  rw [this, List.nil_append, List.map_map]
  rfl

/-- The columns selected by the regular expression of a score column. -/
theorem regexCols_eq (r : TrimReport K) (a : FitArgs) (hnd : (smootherNames a).Nodup)
    (hr : r.names = summaryNames (smootherNames a)) (j : Nat) (hj : j < (smootherNames a).length) :
    regexCols r ((smootherNames a)[j] ++ "--score") =
      [r.rows.map fun row => |row.getD (4 * j + 6) 0|] := by
  set names := smootherNames a with hnames
  have hmem : names[j] ∈ smootherNames a := List.getElem_mem hj
  have hs : ∀ x ∈ summaryNames (smootherNames a),
      dotSearch (names[j] ++ "--score").toList x.toList = decide (x = names[j] ++ "--score") := by
    intro x hx
    rw [Bool.eq_iff_iff, decide_eq_true_iff]
    exact dotSearch_score a names[j] hmem x hx
  have hfil : (r.names.zipIdx.filter fun p => dotSearch (names[j] ++ "--score").toList p.1.toList) =
      r.names.zipIdx.filter fun p => decide (p.1 = names[j] ++ "--score") := by
    apply List.filter_congr
    intro p hp
    have : p.1 ∈ r.names := List.fst_mem_of_mem_zipIdx hp
    rw [hr] at this
    exact hs p.1 this
  have hf := filter_flatMap names (fun x => decide (x = names[j] ++ "--score")) 0 (fun n hn => by
    have : ∀ s ∈ suffixes, s ≠ "--score" → decide (n ++ s = names[j] ++ "--score") = false := by
      intro s hs' hne
      rw [decide_eq_false_iff_not]
      exact fun h => hne (suffix_inj _ _ _ _ hs' (by decide) h).2
    exact ⟨this _ (by decide) (by decide), this _ (by decide) (by decide), this _ (by decide) (by decide)⟩)
  have hz : (names.zipIdx.filter fun p => decide (p.1 ++ "--score" = names[j] ++ "--score")) = [(names[j], j)] := by
    have e : (fun p : String × Nat => decide (p.1 ++ "--score" = names[j] ++ "--score")) =
        fun p => decide (p.1 = names[j]) := by
      funext p
      rw [Bool.eq_iff_iff, decide_eq_true_iff, decide_eq_true_iff]
      exact ⟨fun h => (suffix_inj _ _ _ _ (by decide) (by decide) h).1, fun h => by rw [h]⟩
    rw [e]
    exact filter_zipIdx_nodup names hnd j hj
  have hreg : regexCols r (names[j] ++ "--score") = (r.names.zipIdx.filter fun p =>
      dotSearch (names[j] ++ "--score").toList p.1.toList).map fun p => r.rows.map fun row => |row.getD p.2 0| := rfl
  refine Eq.trans hreg ?_
  rw [hfil, hr]
  simp only [summaryNames, List.zipIdx_append, List.filter_append]
  rw [show (0 + ["trim_percent", "trim_low", "trim_high"].length) = 4 * 0 + 3 by rfl, hf, hz]
  have : (["trim_percent", "trim_low", "trim_high"].zipIdx.filter fun p => decide (p.1 = names[j] ++ "--score")) = [] := by
    rw [List.filter_eq_nil_iff]
    intro p hp
    rw [decide_eq_true_eq]
    intro h
    exact suffix_ne_trim names[j] "--score" p.1 (by decide) (List.fst_mem_of_mem_zipIdx hp) h.symm
  rw [this]
  rfl


/-! ## C32 -/

/-- The absolute GOE scores, one per trim iteration, of the unfoldings with name `n`. -/
def scoresOf (unfoldings : List (List (Col K))) (n : String) : List K :=
  unfoldings.flatMap fun cols => (cols.filter fun c => decide (c.name = n)).map fun c => |goeScore c.unfolded|

/-- Arguments of the documented types, with distinct degrees and smoothing factors distinct after
rounding to three decimals. -/
structure PlainArgs (a : FitArgs) : Prop where
  listSmooths : ∃ l, a.smooths = .list l ∧ (l.map threeDecimals).Nodup
  boolGompertz : a.gompertz = .pyTrue ∨ a.gompertz = .pyFalse
  nodupPoly : a.polyDegrees.Nodup
  nodupSpline : a.splineDegrees.Nodup

theorem PlainArgs.nodup {a : FitArgs} (h : PlainArgs a) : (smootherNames a).Nodup := by
  obtain ⟨l, hl, hs⟩ := h.listSmooths
  exact C30_names_distinct a l hl h.nodupPoly h.nodupSpline hs

theorem filter_name_nodup (cols : List (Col K)) (h : (cols.map (·.name)).Nodup) (j : Nat)
    (hj : j < cols.length) : (cols.filter fun c => decide (c.name = cols[j].name)) = [cols[j]] := by
  induction cols generalizing j with
  | nil => simp at hj
  | cons c cols ih =>
    simp only [List.map_cons, List.nodup_cons] at h
    cases j with
    | zero =>
      simp only [List.getElem_cons_zero, List.filter_cons, decide_true, if_true, List.cons.injEq, true_and,
        List.filter_eq_nil_iff, decide_eq_true_eq]
      intro d hd he
      exact h.1 (he ▸ List.mem_map_of_mem hd)
    | succ j =>
      have hj' : j < cols.length := by simpa using hj
      have hne : ¬ c.name = cols[j].name := fun he => h.1 (he ▸ List.mem_map_of_mem (List.getElem_mem hj'))
      simp only [List.getElem_cons_succ, List.filter_cons, hne, decide_false, Bool.false_eq_true, if_false]
      exact ih h.2 j hj'

/-- Facts about a report built with plain arguments. -/
theorem plain_report (hbos : List K → List Bool) (F : Fitters K) (vals : List K) (maxTrim : ℚ)
    (maxIters : Nat) (a : FitArgs) (ha : PlainArgs a) (r : TrimReport K)
    (h : mkReport hbos F vals maxTrim maxIters a = .ok r) (j : Nat) (hj : j < (smootherNames a).length) :
    (r.rows.map fun row => |row.getD (4 * j + 6) 0|) = scoresOf r.unfoldings (smootherNames a)[j] ∧
    ∃ hu : r.unfoldings.length = r.iters.length, ∀ i (hi : i < r.iters.length),
      ∃ hc : j < r.unfoldings[i].length, r.unfoldings[i][j].name = (smootherNames a)[j] ∧
        (scoresOf r.unfoldings (smootherNames a)[j])[i]? = some |goeScore r.unfoldings[i][j].unfolded| := by
  obtain ⟨l, hl, hs⟩ := ha.listSmooths
  obtain ⟨-, hn, hu, hr, hall⟩ := report_ok hbos F vals maxTrim maxIters a r h
  have hlen : ∀ i (hi : i < r.iters.length), (r.unfoldings[i]).length = (smootherNames a).length := by
    intro i hi
    have := C30_names F _ a l hl ha.boolGompertz _ (hall i hi).1
    rw [← this]; simp
  have hname : ∀ i (hi : i < r.iters.length), (r.unfoldings[i][j]'(by rw [hlen i hi]; exact hj)).name =
      (smootherNames a)[j] := by
    intro i hi
    have h1 := C30_names F _ a l hl ha.boolGompertz _ (hall i hi).1
    have h2 : ((r.unfoldings[i]).map (·.name))[j]? = (smootherNames a)[j]? := by rw [h1]
    rw [List.getElem?_map, List.getElem?_eq_getElem (by rw [hlen i hi]; exact hj),
      List.getElem?_eq_getElem hj] at h2
    simpa using h2
  have key : (r.rows.map fun row => |row.getD (4 * j + 6) 0|) = scoresOf r.unfoldings (smootherNames a)[j] := by
    have e1 : scoresOf r.unfoldings (smootherNames a)[j] =
        r.unfoldings.map fun cols => |goeScore ((cols[j]?.map (·.unfolded)).getD [])| := by
      unfold scoresOf
      rw [List.map_eq_flatMap]
      apply List.flatMap_congr
      intro cols hc
      obtain ⟨i, hi, rfl⟩ := List.mem_iff_getElem.mp hc
      have hi' : i < r.iters.length := by rw [← hu]; exact hi
      have hj' : j < r.unfoldings[i].length := by rw [hlen i hi']; exact hj
      have h1 := C30_names F _ a l hl ha.boolGompertz _ (hall i hi').1
      rw [← hname i hi', filter_name_nodup _ (by rw [h1]; exact ha.nodup) j hj']
      simp [List.getElem?_eq_getElem hj']
    rw [e1]
    apply List.ext_getElem (by simp [hr, hu])
    intro i h1 h2
    have hi : i < r.iters.length := by simpa [hr] using h1
    have hj' : j < r.unfoldings[i].length := by rw [hlen i hi]; exact hj
    obtain ⟨-, -, -, -, -, -, b6⟩ := summaryRow_ok _ _ _ _ (hall i hi).2
    have := (b6 j hj').2.2.2
    simp only [List.getElem_map, List.getD, this, List.getElem?_eq_getElem hj', Option.map_some, Option.getD_some]
  refine ⟨key, hu, fun i hi => ⟨by rw [hlen i hi]; exact hj, hname i hi, ?_⟩⟩
  have hj' : j < r.unfoldings[i].length := by rw [hlen i hi]; exact hj
  obtain ⟨-, -, -, -, -, -, b6⟩ := summaryRow_ok _ _ _ _ (hall i hi).2
  have := (b6 j hj').2.2.2
  rw [← key, List.getElem?_map, List.getElem?_eq_getElem (by rw [hr]; exact hi)]
  simp [List.getD, this]

theorem dropScore_append (n : String) : dropScore (n ++ "--score") = n := by
  apply String.ext
  simp only [dropScore, String.toList_append, String.toList_ofList, List.length_append]
  rw [show "--score".toList.length = 7 by decide]
  simp

theorem getCol_nodup (cols : List (Col K)) (h : (cols.map (·.name)).Nodup) (j : Nat) (hj : j < cols.length) :
    getCol cols cols[j].name = .ok cols[j] := by
  have : cols.find? (fun c => c.name == cols[j].name) = some cols[j] := by
    rw [← List.head?_filter]
    have e : (fun c : Col K => c.name == cols[j].name) = fun c => decide (c.name = cols[j].name) := by
      funext c; rw [Bool.eq_iff_iff]; simp
    rw [e, filter_name_nodup cols h j hj]; rfl
  simp [getCol, this]

/-- The unfoldings of an iteration have one value per eigenvalue. -/
theorem fitAll_length (F : Fitters K) (eigs : List K) (a : FitArgs) (cols : List (Col K))
    (h : fitAll F eigs a = .ok cols) : ∀ c ∈ cols, c.unfolded.length = eigs.length := by
  obtain ⟨h1, h2⟩ := mapPy_ok _ _ _ h
  intro c hc
  obtain ⟨i, hi, rfl⟩ := List.mem_iff_getElem.mp hc
  have := h2 i (by omega)
  simp only [fitOne, bind, Except.bind] at this
  split at this
  · cases this
  · rename_i q hq
    obtain ⟨f, hf, -⟩ := fit_ok F eigs _ _ _ _ _ q hq
    simp only [Except.ok.injEq] at this
    rw [← this]
    simp only [(npSort_perm _).length_eq, hf]
    split_ifs
    · rw [emdDetrend_length]; simp
    · simp

theorem atLeastAsGood_iff (a b : Option K) : leNaN a b = true ↔ AtLeastAsGood a b := by
  unfold AtLeastAsGood
  cases a <;> cases b <;> simp [leNaN]

/-- The automatic choice in a report: iteration `i` and column number `j`. -/
theorem autounfold_ok (hbos : List K → List Bool) (F : Fitters K) (vals : List K) (maxTrim : ℚ)
    (maxIters : Nat) (a : FitArgs) (ha : PlainArgs a) (r : TrimReport K)
    (h : mkReport hbos F vals maxTrim maxIters a = .ok r) (hne : smootherNames a ≠ []) :
    ∃ (hu : r.unfoldings.length = r.iters.length) (j : Nat) (hj : j < (smootherNames a).length) (i : Nat)
      (hi : i < r.iters.length) (hc : j < r.unfoldings[i].length),
      bestScoreCol (scoreCols r) = .ok ((smootherNames a)[j] ++ "--score", scoresOf r.unfoldings (smootherNames a)[j]) ∧
      idxMin (scoresOf r.unfoldings (smootherNames a)[j]) = .ok i ∧
      r.unfoldings[i][j].name = (smootherNames a)[j] ∧
      autounfoldVals r = .ok (r.iters[i].eigs, r.unfoldings[i][j].unfolded) := by
  obtain ⟨l, hl, hs⟩ := ha.listSmooths
  obtain ⟨ht, hn, hu, hr, hall⟩ := report_ok hbos F vals maxTrim maxIters a r h
  have hpos : 0 < r.iters.length := by
    simp only [trimIters, bind, Except.bind] at ht
    split at ht
    · cases ht
    · split at ht
      · cases ht
      · simp only [pure, Except.pure, Except.ok.injEq] at ht
        rw [← ht]; simp
  have hsc := scoreCols_eq r (smootherNames a) (goodName_names a) hn
  obtain ⟨b, hb⟩ : ∃ b, bestScoreCol (scoreCols r) = .ok b := by
    unfold bestScoreCol
    split
    · rename_i heq
      have := congrArg List.length heq
      rw [List.length_mergeSort, hsc] at this
      simp at this
      exact absurd this hne
    · exact ⟨_, rfl⟩
  obtain ⟨hbm, -⟩ := bestScoreCol_ok _ _ hb
  rw [hsc, List.mem_map] at hbm
  obtain ⟨⟨n, j⟩, hp, rfl⟩ := hbm
  rw [List.mem_zipIdx_iff_getElem?] at hp
  simp only at hp
  obtain ⟨hj, rfl⟩ := List.getElem?_eq_some_iff.mp hp
  obtain ⟨hkey, _, hrow⟩ := plain_report hbos F vals maxTrim maxIters a ha r h j hj
  simp only at hb
  rw [hkey] at hb
  have hlen : (scoresOf r.unfoldings (smootherNames a)[j]).length = r.iters.length := by
    rw [← hkey]; simpa using hr
  obtain ⟨i, hi⟩ := idxMin_isOk (scoresOf r.unfoldings (smootherNames a)[j]) (by
    intro hc; rw [hc] at hlen; simp at hlen; omega)
  obtain ⟨hi', -⟩ := idxMin_ok _ _ hi
  rw [hlen] at hi'
  obtain ⟨hc, hname, -⟩ := hrow i hi'
  refine ⟨hu, j, hj, i, hi', hc, hb, hi, hname, ?_⟩
  have hcols := C30_names F _ a l hl ha.boolGompertz _ (hall i hi').1
  have hnd : ((r.unfoldings[i]).map (·.name)).Nodup := by rw [hcols]; exact ha.nodup
  have hget := getCol_nodup _ hnd j hc
  rw [hname] at hget
  have hpu : pyGet r.unfoldings (i : Int) = .ok (r.unfoldings[i]) := by
    have h2 : i < r.unfoldings.length := by omega
    simp [pyGet, pyIdx, h2]
  have hpi : pyGet r.iters (i : Int) = .ok (r.iters[i]) := by
    simp [pyGet, pyIdx, hi']
  simp only [autounfoldVals, hb, bind, Except.bind, regexCols_eq r a ha.nodup hn j hj, mapPy, hkey, hi, item, hpu,
    dropScore_append, hget, hpi]

/-- **C32 (defined).** For plain arguments with at least one smoother `trim_unfold_auto` returns a value whenever its report can be
built. -/
theorem C32_defined (hbos : List K → List Bool) (F : Fitters K) (vals : List K) (maxTrim : ℚ)
    (maxIters : Nat) (a : FitArgs) (ha : PlainArgs a) (r : TrimReport K)
    (h : mkReport hbos F vals maxTrim maxIters a = .ok r) (hne : smootherNames a ≠ []) :
    ∃ u, trimUnfoldAuto hbos F vals maxTrim maxIters a = .ok u := by
  obtain ⟨hu, j, hj, i, hi, hc, -, -, -, hv⟩ := autounfold_ok hbos F vals maxTrim maxIters a ha r h hne
  simp only [trimUnfoldAuto, h, hv, bind, Except.bind, mkUnfolded_eq]
  exact ⟨_, rfl⟩

/-- **C32 (no smoother).** Without any smoother the automatic unfolding raises `IndexError`. -/
theorem C32_no_smoother (hbos : List K → List Bool) (F : Fitters K) (vals : List K) (maxTrim : ℚ)
    (maxIters : Nat) (a : FitArgs) (r : TrimReport K)
    (h : mkReport hbos F vals maxTrim maxIters a = .ok r) (hne : smootherNames a = []) :
    trimUnfoldAuto hbos F vals maxTrim maxIters a = .error .indexError := by
  obtain ⟨-, hn, -⟩ := report_ok hbos F vals maxTrim maxIters a r h
  have hsc := scoreCols_eq r (smootherNames a) (goodName_names a) hn
  rw [hne] at hsc
  simp [trimUnfoldAuto, h, autounfoldVals, hsc, bind, Except.bind, bestScoreCol]

/-- **C32 (the criterion).** The criterion for a smoother with absolute scores `l`, one per trim iteration, `n ≥ 2` in all: let `s` be the scores in ascending order, let `k` be the whole part of `9 (n - 1) / 10`, and
let `q` be the value which divides the step from `s[k]` to `s[k + 1]` in the proportion of the fractional part. The criterion is the mean of the scores below `q`; there is none if no score is below `q`. -/
theorem C32_criterion [IsStrictOrderedRing K] (l s : List K) (hp : s.Perm l) (hs : Ascending s) (k : Nat) (hk : 10 * k ≤ 9 * (l.length - 1)) (hk' : 9 * (l.length - 1) < 10 * (k + 1)) (h1 : k + 1 < s.length) :
    (∀ x ∈ l, ¬ x < s[k] + (9 * ((l.length : K) - 1) / 10 - k) * (s[k + 1] - s[k])) ∧ maskedMean l = none ∨
    (∃ x ∈ l, x < s[k] + (9 * ((l.length : K) - 1) / 10 - k) * (s[k + 1] - s[k])) ∧
      maskedMean l = some (avg (l.filter fun x => decide (x < s[k] + (9 * ((l.length : K) - 1) / 10 - k) * (s[k + 1] - s[k])))) := by
  have hlen := hp.length_eq
  obtain ⟨m, hm⟩ : ∃ m, l.length = m + 1 := ⟨l.length - 1, by omega⟩
  rw [hm, Nat.add_sub_cancel] at hk hk'
  have hq : quantile (9 / 10) l = s[k] + (9 * ((l.length : K) - 1) / 10 - k) * (s[k + 1] - s[k]) := by
    have hns : npSort l = s := npSort_unique hp hs
    have hfl : ((s.length - 1 : ℚ) * (9 / 10)).floor.toNat = k := by
      rw [hlen, hm]
      have hq0 : ((((m + 1 : ℕ) : ℚ) - 1) * (9 / 10)) = 9 * (m : ℚ) / 10 := by push_cast; ring
      rw [hq0]
      have : (9 * (m : ℚ) / 10).floor = (k : ℤ) := by
        have hfl' : ⌊9 * (m : ℚ) / 10⌋ = (k : ℤ) := by
          rw [Int.floor_eq_iff]
          have a : (10 * k : ℚ) ≤ 9 * m := by exact_mod_cast hk
          have b : (9 * m : ℚ) < 10 * (k + 1) := by exact_mod_cast hk'
          constructor
          · push_cast; linarith
          · push_cast; linarith
        exact hfl'
      rw [this, Int.toNat_natCast]
    simp only [quantile, hns, hfl]
    have hcast : ((s.length : ℚ) : K) = (l.length : K) := by rw [hlen]; push_cast; rfl
    rw [List.getD_eq_getElem _ _ (by omega : k < s.length), List.getD_eq_getElem _ _ h1]
    push_cast at hcast ⊢
    rw [hcast]
    ring
  have hfil : ∀ q : K, (l.filter fun x => decide (x < q)).length = 0 ↔ ∀ x ∈ l, ¬ x < q := by
    intro q
    rw [List.length_eq_zero_iff, List.filter_eq_nil_iff]
    simp
  simp only [maskedMean, hq]
  generalize s[k] + (9 * ((l.length : K) - 1) / 10 - k) * (s[k + 1] - s[k]) = q at *
  by_cases h : ∀ x ∈ l, ¬ x < q
  · exact Or.inl ⟨h, by rw [if_pos ((hfil q).mpr h)]⟩
  · refine Or.inr ⟨by simpa using h, ?_⟩
    rw [if_neg (fun hc => h ((hfil q).mp hc))]
    rfl

-- C32: twelve scores; the criterion drops the two largest
example : maskedMean (List.range 12 |>.map fun (i : Nat) => (i : ℚ)) = some (9 / 2) := by
  have h := C32_criterion (List.range 12 |>.map fun (i : Nat) => (i : ℚ)) (List.range 12 |>.map fun (i : Nat) => (i : ℚ)) (List.Perm.refl _) (by unfold Ascending; decide +kernel) 9
    (by decide) (by decide) (by decide)
  rcases h with ⟨h, -⟩ | ⟨-, h⟩
  · exact absurd (h 0 (by decide +kernel)) (by decide +kernel)
  · rw [h]
    decide +kernel

/-- **C32 (the choice).** What `trim_unfold_auto` returns: there are a trim iteration `i` and an unfolding `c` of that iteration such that the returned
originals are the eigenvalues of iteration `i` and the unfolded values are those of `c`, equally many; `c` has the smallest absolute GOE score
of all unfoldings with its smoother, over all iterations; and no smoother has a better criterion, the mean of the absolute scores below their
0.9 quantile. With two to ten iterations that criterion is the mean of all but the largest absolute
scores. -/
theorem C32_choice [IsStrictOrderedRing K] (hbos : List K → List Bool) (F : Fitters K) (vals : List K) (maxTrim : ℚ)
    (maxIters : Nat) (a : FitArgs) (ha : PlainArgs a) (hne : smootherNames a ≠ []) (u : Unfolded K)
    (h : trimUnfoldAuto hbos F vals maxTrim maxIters a = .ok u) :
    ∃ r, mkReport hbos F vals maxTrim maxIters a = .ok r ∧
    ∃ (hu : r.unfoldings.length = r.iters.length) (i : Nat) (hi : i < r.iters.length),
    ∃ c ∈ r.unfoldings[i],
      u.originals = npSort r.iters[i].eigs ∧ u.vals = c.unfolded ∧
      u.vals.length = u.originals.length ∧
      (∀ cols ∈ r.unfoldings, ∀ c' ∈ cols, c'.name = c.name → |goeScore c.unfolded| ≤ |goeScore c'.unfolded|) ∧
      (∀ n ∈ smootherNames a,
        AtLeastAsGood (maskedMean (scoresOf r.unfoldings c.name)) (maskedMean (scoresOf r.unfoldings n))) ∧
      (2 ≤ r.iters.length → r.iters.length ≤ 10 → ∀ n ∈ smootherNames a,
        AtLeastAsGood (meanBelowMax (scoresOf r.unfoldings c.name)) (meanBelowMax (scoresOf r.unfoldings n))) := by
  rcases hrep : mkReport hbos F vals maxTrim maxIters a with e | r
  · simp [trimUnfoldAuto, hrep, bind, Except.bind] at h
  obtain ⟨-, hn, _, hr, hall⟩ := report_ok hbos F vals maxTrim maxIters a r hrep
  obtain ⟨hu, j, hj, i, hi, hc, hb, hm, hname, hv⟩ := autounfold_ok hbos F vals maxTrim maxIters a ha r hrep hne
  simp only [trimUnfoldAuto, hrep, hv, bind, Except.bind, mkUnfolded_eq, Except.ok.injEq] at h
  subst h
  have hsc := scoreCols_eq r (smootherNames a) (goodName_names a) hn
  have hlen : ∀ n ∈ smootherNames a, (scoresOf r.unfoldings n).length = r.iters.length := by
    intro n hn'
    obtain ⟨k, hk, rfl⟩ := List.mem_iff_getElem.mp hn'
    rw [← (plain_report hbos F vals maxTrim maxIters a ha r hrep k hk).1]
    simpa using hr
  have hgood : ∀ n ∈ smootherNames a,
      AtLeastAsGood (maskedMean (scoresOf r.unfoldings r.unfoldings[i][j].name))
        (maskedMean (scoresOf r.unfoldings n)) := by
    intro n hn'
    obtain ⟨k, hk, rfl⟩ := List.mem_iff_getElem.mp hn'
    obtain ⟨-, hmin⟩ := bestScoreCol_ok _ _ hb
    have := hmin ((smootherNames a)[k] ++ "--score", r.rows.map fun row => |row.getD (4 * k + 6) 0|) (by
      rw [hsc, List.mem_map]
      exact ⟨((smootherNames a)[k], k), by
        rw [List.mem_zipIdx_iff_getElem?]; exact List.getElem?_eq_getElem hk, rfl⟩)
    simp only [(plain_report hbos F vals maxTrim maxIters a ha r hrep k hk).1] at this
    rw [hname]
    exact (atLeastAsGood_iff _ _).mp this
  refine ⟨r, rfl, hu, i, hi, r.unfoldings[i][j], List.getElem_mem hc, rfl, rfl, ?_, ?_, hgood, ?_⟩
  · show (r.unfoldings[i][j].unfolded).length = (npSort r.iters[i].eigs).length
    exact fitAll_length F _ a _ (hall i hi).1 _ (List.getElem_mem hc)
  · intro cols hcols c' hc' hcn
    obtain ⟨hi', hle⟩ := idxMin_ok _ _ hm
    obtain ⟨-, _, hrow⟩ := plain_report hbos F vals maxTrim maxIters a ha r hrep j hj
    obtain ⟨_, _, hval⟩ := hrow i hi
    have hval' : (scoresOf r.unfoldings (smootherNames a)[j])[i] = |goeScore r.unfoldings[i][j].unfolded| := by
      rw [List.getElem?_eq_getElem hi'] at hval
      simpa using hval
    rw [← hval']
    apply hle
    unfold scoresOf
    rw [List.mem_flatMap]
    refine ⟨cols, hcols, List.mem_map.mpr ⟨c', ?_, rfl⟩⟩
    rw [List.mem_filter]
    exact ⟨hc', by rw [decide_eq_true_iff, hcn, hname]⟩
  · intro h2 h10 n hn'
    have hcn : r.unfoldings[i][j].name ∈ smootherNames a := by rw [hname]; exact List.getElem_mem hj
    rw [← maskedMean_eq _ (by rw [hlen _ hcn]; exact h2) (by rw [hlen _ hcn]; exact h10),
      ← maskedMean_eq _ (by rw [hlen _ hn']; exact h2) (by rw [hlen _ hn']; exact h10)]
    exact hgood n hn'


theorem trimIters_zero (hbos : List K → List Bool) (vals : List K) (l : List (Iter K))
    (h : trimIters hbos vals 0 0 = .ok l) : ∃ t, l = [t] ∧ t.eigs = npSort vals := by
  simp only [trimIters, mkIter, trimLoop, bind, Except.bind, pure, Except.pure] at h
  rcases hb : outlierLabels (hbos (npSort vals)) with e | lab
  · simp [hb] at h
  · simp only [hb, Except.ok.injEq] at h
    exact ⟨_, h.symm, rfl⟩

/-- **C32 (unfold_auto, refuted).** `Trimmed.unfold_auto` makes no choice: whatever the scores, it returns the unfolding of the first smoother of its
argument list (with a single row no score is below the 0.9 quantile). -/
theorem C32_unfold_auto_refuted (hbos : List K → List Bool) (F : Fitters K) (vals : List K) (a : FitArgs)
    [IsStrictOrderedRing K] (ha : PlainArgs a) (hne : smootherNames a ≠ []) (u : Unfolded K)
    (h : unfoldAuto hbos F vals a = .ok u) :
    ∃ cols, fitAll F (npSort vals) a = .ok cols ∧ ∃ hpos : 0 < cols.length, u.vals = cols[0].unfolded := by
  rcases hrep : mkReport hbos F vals 0 0 a with e | r
  · simp [unfoldAuto, hrep, bind, Except.bind] at h
  obtain ⟨ht, hn, _, hr, hall⟩ := report_ok hbos F vals 0 0 a r hrep
  obtain ⟨hu, j, hj, i, hi, hc, hb, hm, hname, hv⟩ := autounfold_ok hbos F vals 0 0 a ha r hrep hne
  simp only [unfoldAuto, hrep, hv, bind, Except.bind, mkUnfolded_eq, Except.ok.injEq] at h
  subst h
  obtain ⟨t, hit, hte⟩ := trimIters_zero hbos vals _ ht
  have hi0 : i = 0 := by rw [hit] at hi; simpa using hi
  subst hi0
  have hsc := scoreCols_eq r (smootherNames a) (goodName_names a) hn
  have h0 : 0 < (smootherNames a).length := List.length_pos_iff.mpr hne
  have hone : ∀ c ∈ scoreCols r, maskedMean c.2 = none := by
    intro c hc'
    rw [hsc, List.mem_map] at hc'
    obtain ⟨p, -, rfl⟩ := hc'
    have hl1 : r.rows.length = 1 := by rw [hr, hit]; rfl
    obtain ⟨row, hrow⟩ := List.length_eq_one_iff.mp hl1
    simp only [hrow, List.map_cons, List.map_nil]
    exact maskedMean_single _
  have hj0 : j = 0 := by
    rcases hS : scoreCols r with _ | ⟨c0, cs⟩
    · rw [hS] at hsc
      have := congrArg List.length hsc
      simp at this
      omega
    · obtain ⟨l', hl'⟩ := mergeSort_head_of_le
        (fun a b : String × List K => leNaN (maskedMean a.2) (maskedMean b.2)) c0 cs
        (fun _ _ _ => leNaN_trans _ _ _) (fun _ _ => leNaN_total _ _)
        (fun b hb' => by rw [hone c0 (by rw [hS]; simp), hone b (by rw [hS]; simp [hb'])]; rfl)
      have hb2 : bestScoreCol (scoreCols r) = .ok c0 := by
        simp only [bestScoreCol, hS, hl']
      rw [hb2, Except.ok.injEq] at hb
      have hc0 : (scoreCols r)[0]? = some c0 := by rw [hS]; rfl
      rw [hsc, List.getElem?_map, List.getElem?_zipIdx, List.getElem?_eq_getElem h0] at hc0
      simp only [Option.map_some, Option.some.injEq] at hc0
      rw [hb, Prod.mk.injEq] at hc0
      have := (suffix_inj _ _ _ _ (by decide) (by decide) hc0.1).1
      exact ((List.Nodup.getElem_inj_iff ha.nodup).mp this).symm
  subst hj0
  have h2 := (hall 0 hi).1
  have he : r.iters[0].eigs = npSort vals := by simp only [hit, List.getElem_cons_zero, hte]
  rw [he, npSort_of_ascending _ (npSort_ascending vals)] at h2
  exact ⟨_, h2, hc, rfl⟩

/-! ## C31 -/

theorem splineColHeur_inj (k : Nat) (d d' : Int) (s s' : ℚ) (h : splineColHeur k d s = splineColHeur k d' s') :
    splineCol k d s = splineCol k d' s' := by
  have h1 : (splineColHeur k d s).toList = (splineColHeur k d' s').toList := by rw [h]
  simp only [splineColHeur, String.toList_append] at h1
  exact String.ext (List.append_cancel_right h1)

theorem heur_decimals_ne (d d' : Int) (s s' : ℚ) : splineColHeur 3 d s ≠ splineColHeur 2 d' s' := by
  intro h
  have h1 : (splineColHeur 3 d s).toList = (splineColHeur 2 d' s').toList := by rw [h]
  simp only [splineColHeur, String.toList_append] at h1
  have h2 := List.append_cancel_right h1
  rw [splineCol_toList, splineCol_toList] at h2
  have hn : ∀ d : Int, '_' ∉ (splineName d).toList ++ "-spline".toList := by
    intro d hc
    rcases List.mem_append.mp hc with hc | hc
    · exact splineName_no_underscore d hc
    · revert hc; decide
  obtain ⟨-, h3⟩ := split_at_sep '_' _ _ _ _ (hn d) (hn d') h2
  rw [fmtFixed_toList, fmtFixed_toList, ← List.append_assoc, ← List.append_assoc] at h3
  have hd : ∀ (q : ℚ) (m : Nat), '.' ∉ (if q < 0 then ['-'] else []) ++ Nat.toDigits 10 m := by
    intro q m
    rw [List.mem_append, not_or]
    exact ⟨by split_ifs <;> decide, fun h => absurd (toDigits_isDigit _ _ h) (by decide)⟩
  obtain ⟨-, h4⟩ := split_at_sep '.' _ _ _ _ (hd _ _) (hd _ _) h3
  have := congrArg List.length h4
  rw [padDigits_length, padDigits_length] at this
  omega

theorem heur_head (k : Nat) (d : Int) (s : ℚ) :
    ∃ c l, (splineColHeur k d s).toList = c :: l ∧ (c = 'c' ∨ c = 'q' ∨ c = 'd') := by
  obtain ⟨c, l, h, hc⟩ := splineCol_head k d s
  exact ⟨c, _, by simp only [splineColHeur, String.toList_append, h]; rfl, hc⟩

theorem heur_ne_poly (k : Nat) (d d' : Int) (s : ℚ) : splineColHeur k d s ≠ polyName d' := by
  intro h
  obtain ⟨l, hl⟩ := polyName_head d'
  obtain ⟨c, l', hl', hc⟩ := heur_head k d s
  rw [← h, hl'] at hl
  simp only [List.cons.injEq] at hl
  rcases hc with rfl | rfl | rfl <;> simp at hl

theorem heur_ne_gompertz (k : Nat) (d : Int) (s : ℚ) : splineColHeur k d s ≠ "gompertz" := by
  intro h
  obtain ⟨c, l', hl', hc⟩ := heur_head k d s
  rw [h] at hl'
  rcases hc with rfl | rfl | rfl <;> simp at hl'

/-- **C31 (refuted).** With `spline_smooths="heuristic"` every spline name of the summary is missing from the unfoldings: looking it up
raises `KeyError` (the summary formats the factors with three decimals, the unfoldings with
two). -/
theorem C31_refuted (F : Fitters K) (eigs : List K) (a : FitArgs) (ha : a.smooths = .heuristic)
    (cols : List (Col K)) (h : fitAll F eigs a = .ok cols) (d : Int) (hd : d ∈ a.splineDegrees) (s : ℚ)
    (hs : s ∈ defaultSplineSmooths) :
    splineColHeur 3 d s ∈ smootherNames a ∧ getCol cols (splineColHeur 3 d s) = .error .keyError := by
  constructor
  · simp only [smootherNames, ha, List.mem_append, List.mem_flatMap, List.mem_map]
    exact Or.inl (Or.inr ⟨s, hs, d, hd, rfl⟩)
  · have hnone : cols.find? (fun c => c.name == splineColHeur 3 d s) = none := by
      rw [List.find?_eq_none]
      intro c hc hcn
      rw [beq_iff_eq] at hcn
      have : c.name ∈ (fitCalls F eigs.length a).map (·.1) := by
        rw [← fitAll_name F eigs a cols h]; exact List.mem_map_of_mem hc
      rw [hcn] at this
      simp only [fitCalls, ha, List.map_append, List.map_map, List.mem_append, List.mem_map, List.mem_flatMap,
        Function.comp] at this
      rcases this with (⟨d', -, h'⟩ | ⟨x, ⟨s', -, d', -, rfl⟩, h'⟩) | ⟨x, hx, h'⟩
      · exact heur_ne_poly 3 d d' s h'.symm
      · exact heur_decimals_ne d d' s s' h'.symm
      · split_ifs at hx
        · simp only [List.mem_singleton] at hx
          subst hx
          exact heur_ne_gompertz 3 d s h'.symm
        · simp at hx
    simp [getCol, hnone]

theorem defaults_nodup : (defaultSplineSmooths.map threeDecimals).Nodup := by decide +kernel

theorem heur_names_nodup (a : FitArgs) (ha : a.smooths = .heuristic) (hp : a.polyDegrees.Nodup)
    (hd : a.splineDegrees.Nodup) : (smootherNames a).Nodup := by
  have hinj : ∀ s s' : ℚ, fmtFixed 3 s = fmtFixed 3 s' → threeDecimals s = threeDecimals s' := by
    intro s s' h
    obtain ⟨h1, h2⟩ := fmtFixed_inj 3 s s' h
    simp only [threeDecimals, h2, Prod.mk.injEq, and_true]
    rw [Bool.eq_iff_iff, decide_eq_true_iff, decide_eq_true_iff, h1]
  have hspl : (defaultSplineSmooths.flatMap fun s => a.splineDegrees.map fun (d : Int) => splineColHeur 3 d s).Nodup := by
    rw [List.nodup_flatMap]
    refine ⟨fun s _ => ?_, ?_⟩
    · exact hd.map fun d d' h => (splineCol_inj 3 d d' s s (splineColHeur_inj _ _ _ _ _ h)).1
    · have hs' : defaultSplineSmooths.Pairwise fun s s' => threeDecimals s ≠ threeDecimals s' := by
        have := defaults_nodup
        rwa [List.Nodup, List.pairwise_map] at this
      refine hs'.imp fun {s s'} hne => ?_
      simp only [Function.onFun, List.disjoint_left, List.mem_map]
      rintro x ⟨d, -, rfl⟩ ⟨d', -, h⟩
      exact hne (hinj s s' (splineCol_inj 3 d' d s' s (splineColHeur_inj _ _ _ _ _ h)).2.symm)
  simp only [smootherNames, ha]
  rw [List.nodup_append, List.nodup_append]
  refine ⟨⟨hp.map fun d d' h => polyName_inj d d' h, hspl, ?_⟩, ?_, ?_⟩
  · intro x hx y hy he
    subst he
    simp only [List.mem_map, List.mem_flatMap] at hx hy
    obtain ⟨d, -, rfl⟩ := hx
    obtain ⟨s, -, d', -, h⟩ := hy
    exact heur_ne_poly 3 d' d s h
  · split_ifs <;> simp
  · intro x hx y hy he
    subst he
    split_ifs at hy
    · simp only [List.mem_singleton] at hy
      subst hy
      simp only [List.mem_append, List.mem_map, List.mem_flatMap] at hx
      rcases hx with ⟨d, -, h⟩ | ⟨s, -, d', -, h⟩
      · exact polyName_ne_gompertz d h
      · exact heur_ne_gompertz 3 d' s h
    · simp at hy

/-- The names of the columns of the unfoldings are distinct for a general family of spline names. -/
theorem call_names_nodup (L : List ℚ) (P D : List Int) (g : Bool) (f : Int → ℚ → String) (key : ℚ → Bool × Nat)
    (hf : ∀ d d' s s', f d s = f d' s' → d = d' ∧ key s = key s') (hfp : ∀ d d' s, f d s ≠ polyName d') (hfg : ∀ d s, f d s ≠ "gompertz")
    (hp : P.Nodup) (hd : D.Nodup) (hs : (L.map key).Nodup) :
    (P.map polyName ++ (L.flatMap fun s => D.map fun (d : Int) => f d s) ++ (if g then ["gompertz"] else [])).Nodup := by
  have hspl : (L.flatMap fun s => D.map fun (d : Int) => f d s).Nodup := by
    rw [List.nodup_flatMap]
    refine ⟨fun s _ => hd.map fun d d' h => (hf d d' s s h).1, ?_⟩
    have hs' : L.Pairwise fun s s' => key s ≠ key s' := by rwa [List.Nodup, List.pairwise_map] at hs
    refine hs'.imp fun {s s'} hne => ?_
    simp only [Function.onFun, List.disjoint_left, List.mem_map]
    rintro x ⟨d, -, rfl⟩ ⟨d', -, h⟩
    exact hne (hf d' d s' s h).2.symm
  rw [List.nodup_append, List.nodup_append]
  refine ⟨⟨hp.map fun d d' h => polyName_inj d d' h, hspl, ?_⟩, ?_, ?_⟩
  · intro x hx y hy he
    subst he
    simp only [List.mem_map, List.mem_flatMap] at hx hy
    obtain ⟨d, -, rfl⟩ := hx
    obtain ⟨s, -, d', -, h⟩ := hy
    exact hfp d' d s h
  · split_ifs <;> simp
  · intro x hx y hy he
    subst he
    split_ifs at hy
    · simp only [List.mem_singleton] at hy
      subst hy
      simp only [List.mem_append, List.mem_map, List.mem_flatMap] at hx
      rcases hx with ⟨d, -, h⟩ | ⟨s, -, d', -, h⟩
      · exact polyName_ne_gompertz d h
      · exact hfg d' s h
    · simp at hy

/-- Sign and value of a smoothing factor rounded to `k` decimals. -/
def kDecimals (k : Nat) (s : ℚ) : Bool × Nat := (decide (s < 0), roundHalfEven (|s| * 10 ^ k))

theorem kDecimals_of_fmt (k : Nat) (s s' : ℚ) (h : fmtFixed k s = fmtFixed k s') : kDecimals k s = kDecimals k s' := by
  obtain ⟨h1, h2⟩ := fmtFixed_inj k s s' h
  simp only [kDecimals, h2, Prod.mk.injEq, and_true]
  rw [Bool.eq_iff_iff, decide_eq_true_iff, decide_eq_true_iff, h1]

/-- Parameters which name every smoother once: distinct polynomial degrees, distinct spline degrees, and (when given as a list) smoothing factors which differ after rounding to three decimals. -/
def DistinctSmoothers (a : FitArgs) : Prop :=
  a.polyDegrees.Nodup ∧ a.splineDegrees.Nodup ∧ ∀ l, a.smooths = .list l → (l.map threeDecimals).Nodup

theorem fitCalls_nodup (F : Fitters K) (n : Nat) (a : FitArgs) (h : DistinctSmoothers a) : ((fitCalls F n a).map (·.1)).Nodup := by
  obtain ⟨hp, hd, hs⟩ := h
  cases hsm : a.smooths with
  | heuristic =>
    have := call_names_nodup defaultSplineSmooths a.polyDegrees a.splineDegrees a.gompertz.truthy (splineColHeur 2) (kDecimals 2)
      (fun d d' s s' h => ⟨(splineCol_inj 2 d d' s s' (splineColHeur_inj _ _ _ _ _ h)).1, kDecimals_of_fmt 2 s s' (splineCol_inj 2 d d' s s' (splineColHeur_inj _ _ _ _ _ h)).2⟩)
      (fun d d' s => heur_ne_poly 2 d d' s) (fun d s => heur_ne_gompertz 2 d s) hp hd (by decide +kernel)
    simp only [fitCalls, hsm, List.map_append, List.map_map, List.map_flatMap, Function.comp_def]
    convert this using 2
    split_ifs <;> rfl
  | list l =>
    have := call_names_nodup l a.polyDegrees a.splineDegrees a.gompertz.truthy (splineCol 3) (kDecimals 3)
      (fun d d' s s' h => ⟨(splineCol_inj 3 d d' s s' h).1, kDecimals_of_fmt 3 s s' (splineCol_inj 3 d d' s s' h).2⟩)
      (fun d d' s => (polyName_ne_splineCol d' d 3 s).symm) (fun d s => splineCol_ne_gompertz 3 d s) hp hd (hs l hsm)
    simp only [fitCalls, hsm, List.map_append, List.map_map, List.map_flatMap, Function.comp_def]
    convert this using 2
    split_ifs <;> rfl

/-- A repeated name of a column is found in the list of names. -/
theorem fitCalls_nodup_only (F : Fitters K) (n : Nat) (a : FitArgs) (h : ((fitCalls F n a).map (·.1)).Nodup) :
    a.polyDegrees.Nodup ∧ (a.smooths ≠ .list [] → a.splineDegrees.Nodup) ∧
    ∀ l, a.smooths = .list l → a.splineDegrees ≠ [] → (l.map fun s => fmtFixed 3 s).Nodup := by
  simp only [fitCalls, List.map_append, List.map_map, Function.comp_def] at h
  have h12 := (List.nodup_append.mp h).1
  obtain ⟨h1, h2, -⟩ := List.nodup_append.mp h12
  refine ⟨List.Nodup.of_map _ h1, ?_, ?_⟩
  · intro hne
    cases hsm : a.smooths with
    | heuristic =>
      rw [hsm] at h2
      simp only [List.map_flatMap, List.map_map, Function.comp_def, List.nodup_flatMap] at h2
      exact List.Nodup.of_map _ (h2.1 (2 / 5) (by simp [defaultSplineSmooths]))
    | list l =>
      rw [hsm] at h2
      simp only [List.map_flatMap, List.map_map, Function.comp_def, List.nodup_flatMap] at h2
      cases l with
      | nil => exact absurd hsm hne
      | cons s l => exact List.Nodup.of_map _ (h2.1 s (by simp))
  · intro l hsm hne
    rw [hsm] at h2
    simp only [List.map_flatMap, List.map_map, Function.comp_def, List.nodup_flatMap] at h2
    obtain ⟨d, D, hD⟩ := List.exists_cons_of_ne_nil hne
    rw [List.Nodup, List.pairwise_map]
    refine h2.2.imp fun {s s'} hdis he => ?_
    simp only [Function.onFun, List.disjoint_left, List.mem_map] at hdis
    exact hdis (a := splineCol 3 d s) ⟨d, by simp [hD], rfl⟩ ⟨d, by simp [hD], by simp only [splineCol, he]⟩

/-- **C30 (repeated smoothers).** For every spectrum, detector, fitting routines and limits: no report is built when a polynomial degree is given twice, when a spline degree is given twice (and at least one spline is fitted), or when two smoothing factors
have the same three decimals (and at least one spline is fitted): the column of a repeated name is not one column. -/
theorem C30_duplicates (hbos : List K → List Bool) (F : Fitters K) (vals : List K) (maxTrim : ℚ) (maxIters : Nat) (a : FitArgs)
    (hrep : ¬ a.polyDegrees.Nodup ∨ (a.smooths ≠ .list [] ∧ ¬ a.splineDegrees.Nodup) ∨
      ∃ l, a.smooths = .list l ∧ a.splineDegrees ≠ [] ∧ ¬ (l.map fun s => fmtFixed 3 s).Nodup)
    (r : TrimReport K) : mkReport hbos F vals maxTrim maxIters a ≠ .ok r := by
  intro h
  obtain ⟨ht, hn, hu, hr, hall⟩ := report_ok hbos F vals maxTrim maxIters a r h
  have hpos : 0 < r.iters.length := by
    simp only [trimIters, bind, Except.bind] at ht
    split at ht
    · cases ht
    · split at ht
      · cases ht
      · simp only [pure, Except.pure, Except.ok.injEq] at ht
        rw [← ht]; simp
  obtain ⟨hf, hrow⟩ := hall 0 hpos
  obtain ⟨b0, -⟩ := summaryRow_ok _ _ _ _ hrow
  rw [fitAll_name F _ a _ hf] at b0
  obtain ⟨c1, c2, c3⟩ := fitCalls_nodup_only F _ a b0
  rcases hrep with h | ⟨h1, h2⟩ | ⟨l, h1, h2, h3⟩
  · exact h c1
  · exact h2 (c2 h1)
  · exact h3 (c3 l h1 h2)

-- C30: the factors 1.4 and 1.4001 have the same three decimals
example : ¬ (([14 / 10, 14001 / 10000] : List ℚ).map fun s => fmtFixed 3 s).Nodup := by decide +kernel

/-- **C31 (automatic unfolding, refuted).** With `spline_smooths="heuristic"`, no polynomial and no Gompertz fit (and at least one spline degree), `trim_unfold_auto` returns no
value: the winner is a spline, which cannot be looked up. -/
theorem C31_auto_refuted (hbos : List K → List Bool) (F : Fitters K) (vals : List K) (maxTrim : ℚ)
    (maxIters : Nat) (a : FitArgs) (ha : a.smooths = .heuristic) (hp : a.polyDegrees = [])
    (hg : a.gompertz = .pyFalse) (u : Unfolded K) :
    trimUnfoldAuto hbos F vals maxTrim maxIters a ≠ .ok u := by
  intro h
  rcases hrep : mkReport hbos F vals maxTrim maxIters a with e | r
  · simp [trimUnfoldAuto, hrep, bind, Except.bind] at h
  obtain ⟨-, hn, hu, hr, hall⟩ := report_ok hbos F vals maxTrim maxIters a r hrep
  simp only [trimUnfoldAuto, hrep, bind, Except.bind] at h
  have hsc := scoreCols_eq r (smootherNames a) (goodName_names a) hn
  rcases hv : autounfoldVals r with e | p
  · simp [hv] at h
  simp only [autounfoldVals, bind, Except.bind] at hv
  rcases hb : bestScoreCol (scoreCols r) with e | b
  · simp [hb] at hv
  simp only [hb] at hv
  split at hv
  · cases hv
  split at hv
  · cases hv
  split at hv
  · cases hv
  rename_i unf hunf
  obtain ⟨hbm, -⟩ := bestScoreCol_ok _ _ hb
  rw [hsc, List.mem_map] at hbm
  obtain ⟨⟨n, j⟩, hp', rfl⟩ := hbm
  have hnm : n ∈ smootherNames a := List.fst_mem_of_mem_zipIdx hp'
  have hnm' := hnm
  simp only [smootherNames, ha, hp, hg, List.map_nil, List.nil_append, Flag.isTrue, Bool.false_eq_true, if_false,
    List.append_nil, List.mem_flatMap, List.mem_map] at hnm'
  obtain ⟨s, hs, d, hd, rfl⟩ := hnm'
  have hmem : unf ∈ r.unfoldings := by
    unfold pyGet at hunf
    split at hunf
    · cases hunf
    · split at hunf
      · rename_i hsome
        cases hunf
        exact List.mem_of_getElem? hsome
      · cases hunf
  obtain ⟨i, hi, rfl⟩ := List.mem_iff_getElem.mp hmem
  have := (C31_refuted F _ a ha _ (hall i (by omega)).1 d hd s hs).2
  simp only [dropScore_append, this] at hv
  cases hv

/-- **C31 (partial).** The summary itself is correct with `spline_smooths="heuristic"`: there are as many names as unfoldings, and the cells of
the `j`-th name hold the statistics of the `j`-th unfolding. What is missing: the names differ, so the unfolding cannot be
found under its name. -/
theorem C31_positions_partial (hbos : List K → List Bool) (F : Fitters K) (vals : List K) (maxTrim : ℚ)
    (maxIters : Nat) (a : FitArgs) (ha : a.smooths = .heuristic) (hp : a.polyDegrees.Nodup)
    (hd : a.splineDegrees.Nodup) (hg : a.gompertz = .pyTrue ∨ a.gompertz = .pyFalse) (r : TrimReport K)
    (h : mkReport hbos F vals maxTrim maxIters a = .ok r) :
    ∃ (hu : r.unfoldings.length = r.iters.length) (hr : r.rows.length = r.iters.length),
      ∀ i (hi : i < r.iters.length), ∃ hl : r.unfoldings[i].length = (smootherNames a).length,
        ∀ j (hj : j < (smootherNames a).length),
          cell r.names r.rows[i] ((smootherNames a)[j] ++ "--mean_spacing") =
            .ok (avg (gaps r.unfoldings[i][j].unfolded)) ∧
          cell r.names r.rows[i] ((smootherNames a)[j] ++ "--var_spacing") =
            .ok (sampleVar (gaps r.unfoldings[i][j].unfolded)) ∧
          cell r.names r.rows[i] ((smootherNames a)[j] ++ "--msqe") = .ok r.unfoldings[i][j].msqe ∧
          cell r.names r.rows[i] ((smootherNames a)[j] ++ "--score") =
            .ok (goeScore r.unfoldings[i][j].unfolded) := by
  obtain ⟨-, hn, hu, hr, hall⟩ := report_ok hbos F vals maxTrim maxIters a r h
  refine ⟨hu, hr, fun i hi => ?_⟩
  obtain ⟨hf, hrow⟩ := hall i hi
  have hgg : a.gompertz.truthy = a.gompertz.isTrue := by rcases hg with h | h <;> rw [h] <;> rfl
  have hl : r.unfoldings[i].length = (smootherNames a).length := by
    have := congrArg List.length (fitAll_name F _ a _ hf)
    simp only [List.length_map] at this
    rw [this]
    simp only [fitCalls, smootherNames, ha, hgg, List.length_append, List.length_map, List.length_flatMap]
    congr 1
    split_ifs <;> rfl
  obtain ⟨-, b1, -, b3, -, -, b6⟩ := summaryRow_ok _ _ _ _ hrow
  have hnd : r.names.Nodup := by
    rw [hn]; exact summaryNames_nodup _ (heur_names_nodup a ha hp hd)
  refine ⟨hl, fun j hj => ?_⟩
  obtain ⟨n1, n2, n3, n4⟩ := summaryNames_getElem? (smootherNames a) j hj
  obtain ⟨c1, c2, c3, c4⟩ := b6 j (by omega)
  rw [← hn] at n1 n2 n3 n4
  exact ⟨cell_of_nodup _ hnd _ _ _ _ n1 c1, cell_of_nodup _ hnd _ _ _ _ n2 c2,
    cell_of_nodup _ hnd _ _ _ _ n3 c3, cell_of_nodup _ hnd _ _ _ _ n4 c4⟩

/-! ## C33 -/

/-- **C33 (members, refuted).** For a member of `SmoothMethod`, such as the default argument, `get_best_trimmed` raises
`ValueError`. -/
theorem C33_members_refuted (hbos : List K → List Bool) (F : Fitters K) (vals : List K) (m : SmoothMethod)
    (degree : Int) (ss : ℚ) (maxIters : Nat) (maxTrim : ℚ) (detrend : Bool) :
    getBestTrimmed hbos F vals (.method m) degree ss maxIters maxTrim detrend = .error .valueError := by
  simp [getBestTrimmed, bind, Except.bind]

theorem bestOverall_not_ok (untrimmed : List K) (r : TrimReport K) (hne : scoreCols r ≠ []) (x : List (Nat × Nat)) :
    bestOverall untrimmed r ≠ .ok x := by
  intro h
  simp only [bestOverall, bind, Except.bind] at h
  split at h
  · cases h
  split at h
  · cases h
  split at h
  · cases h
  split at h
  · cases h
  rename_i items hitems
  obtain ⟨hl, hall⟩ := mapPy_ok _ _ _ hitems
  have hpos : 0 < (bestCols r).length := by
    have : 0 < (scoreCols r).length := List.length_pos_iff.mpr hne
    simp only [bestCols, List.length_take, List.length_mergeSort]
    omega
  have h0 := hall 0 hpos
  split at h0
  · cases h0
  split at h0
  · cases h0
  split at h0
  · cases h0
  rename_i cells hcells
  obtain ⟨hlc, -⟩ := mapPy_ok _ _ _ hcells
  simp only [List.length_cons, List.length_nil] at hlc
  match cells, hlc with
  | [_, _, _, _, _, _], _ => simp [item] at h0

/-- **C33 (refuted).** `get_best_trimmed` never returns a value, whatever its smoother argument, the spectrum, the outlier
detector and the fitting routines (the strings it recognises lead to `best_overall`, which converts a row of six cells to a
scalar). -/
theorem C33_refuted (hbos : List K → List Bool) (F : Fitters K) (vals : List K) (smoother : PyVal)
    (degree : Int) (ss : ℚ) (maxIters : Nat) (maxTrim : ℚ) (detrend : Bool) (l : List K) :
    getBestTrimmed hbos F vals smoother degree ss maxIters maxTrim detrend ≠ .ok l := by
  intro h
  have key : ∀ a : FitArgs, smootherNames a ≠ [] → ∀ r, mkReport hbos F vals maxTrim maxIters a = .ok r →
      ∀ x, bestOverall (npSort vals) r ≠ .ok x := by
    intro a hne r hr x
    obtain ⟨-, hn, -⟩ := report_ok hbos F vals maxTrim maxIters a r hr
    refine bestOverall_not_ok _ r ?_ x
    rw [scoreCols_eq r (smootherNames a) (goodName_names a) hn]
    simpa using hne
  simp only [getBestTrimmed, bind, Except.bind] at h
  split_ifs at h
  · split at h
    · cases h
    rename_i r hr
    split at h
    · cases h
    rename_i x hb
    exact key ⟨[degree], .list [], [], .pyFalse, detrend⟩ (by simp [smootherNames]) r hr x hb
  · split at h
    · cases h
    rename_i r hr
    split at h
    · cases h
    rename_i x hb
    exact key ⟨[], .list [ss], [degree], .pyFalse, detrend⟩ (by simp [smootherNames]) r hr x hb
  · split at h
    · cases h
    rename_i r hr
    split at h
    · cases h
    rename_i x hb
    exact key ⟨[], .list [], [], .pyTrue, detrend⟩ (by simp [smootherNames, Flag.isTrue]) r hr x hb

/-! ## C76 -/

/-- **C76 (mean).** The mean spacing that enters the GOE score is `(last - first) / (n - 1)`, for any unfolded values. -/
theorem C76_mean (u : List K) (first last : K) (hf : u.head? = some first) (hl : u.getLast? = some last) :
    (evaluateUnfolding u).1 = (last - first) / ((u.length - 1 : Nat) : K) := by
  rw [evaluateUnfolding_eq]
  simp only [avg, gaps_eq_diff, length_diff]
  congr 1
  have hpos : 0 < u.length := by
    rcases u with _ | ⟨x, u⟩
    · simp at hf
    · simp
  have := sum_take_diff u (u.length - 1) (by omega)
  rw [List.take_of_length_le (by rw [length_diff])] at this
  rw [this]
  rw [List.head?_eq_getElem?] at hf
  rw [List.getLast?_eq_getElem?] at hl
  rw [List.getElem?_eq_getElem hpos, Option.some.injEq] at hf
  rw [List.getElem?_eq_getElem (by omega), Option.some.injEq] at hl
  rw [hf, hl]

/-- **C76 (formula).** The score is the relative excess of the sample variance of the spacings over 0.286 plus half the excess of
their mean over 1. -/
theorem C76_formula (u : List K) :
    (evaluateUnfolding u).2.2 = ((evaluateUnfolding u).2.1 - 286 / 1000) / (286 / 1000) +
      ((evaluateUnfolding u).1 - 1) / 2 ∧
    (evaluateUnfolding u).2.1 = sampleVar (gaps u) := by
  rw [evaluateUnfolding_eq]
  exact ⟨rfl, rfl⟩

/-- **C76 (zero).** The score is zero exactly if the variance is `0.286 * (1 - (mean - 1) / 2)`; in particular for mean 1 and
variance 0.286. -/
theorem C76_zero [IsStrictOrderedRing K] (u : List K) :
    (evaluateUnfolding u).2.2 = 0 ↔
      sampleVar (gaps u) = 286 / 1000 * (1 - (avg (gaps u) - 1) / 2) := by
  rw [evaluateUnfolding_eq]
  simp only [goeScore]
  have h : (286 / 1000 : K) ≠ 0 := by positivity
  constructor
  · intro h0
    field_simp at h0
    linear_combination h0 / 2000
  · intro h0
    rw [h0]
    field_simp
    ring

/-- **C76 (sign).** For mean spacing one the score is positive exactly if the spacing variance exceeds 0.286, negative exactly if it is
smaller. -/
theorem C76_sign [IsStrictOrderedRing K] (u : List K) (hm : avg (gaps u) = 1) :
    (0 < (evaluateUnfolding u).2.2 ↔ 286 / 1000 < sampleVar (gaps u)) ∧
    ((evaluateUnfolding u).2.2 < 0 ↔ sampleVar (gaps u) < 286 / 1000) := by
  rw [evaluateUnfolding_eq]
  have h : (0 : K) < 286 / 1000 := by positivity
  simp only [goeScore, hm, sub_self, zero_div, add_zero]
  constructor
  · rw [div_pos_iff_of_pos_right h, sub_pos]
  · rw [div_lt_iff₀ h, zero_mul]
    exact sub_neg

/-- **C76 (shift).** Shifting the unfolded values changes none of the three statistics. -/
theorem C76_shift (u : List K) (c : K) : evaluateUnfolding (u.map (· + c)) = evaluateUnfolding u := by
  have : gaps (u.map (· + c)) = gaps u := by
    apply List.ext_getElem
    · simp [gaps]
    intro i h1 h2
    simp only [gaps, List.length_map, List.length_range] at h1 h2
    simp only [gaps, List.getElem_map, List.getElem_range]
    rw [List.getD_eq_getElem _ _ (by simp; omega), List.getD_eq_getElem _ _ (by simp; omega),
      List.getD_eq_getElem _ _ (by omega), List.getD_eq_getElem _ _ (by omega)]
    simp
  rw [evaluateUnfolding_eq, evaluateUnfolding_eq]
  simp only [goeScore, this]

/-- **C76 (spacings).** The score depends only on the multiset of spacings. -/
theorem C76_spacings (u v : List K) (h : (gaps u).Perm (gaps v)) : evaluateUnfolding u = evaluateUnfolding v := by
  have ha : avg (gaps u) = avg (gaps v) := by simp only [avg, h.sum_eq, h.length_eq]
  have hv : sampleVar (gaps u) = sampleVar (gaps v) := by
    simp only [sampleVar, ha, h.length_eq]
    rw [(h.map _).sum_eq]
  rw [evaluateUnfolding_eq, evaluateUnfolding_eq]
  simp only [goeScore, ha, hv]

/-! ## Concrete cases -/

/-- Fits that return `10 x` for degree 3 and `x` otherwise. -/
def twoFits : Fitters ℚ where
  polyfit := fun _ _ d => .ok (if d = 3 then [0, 10] else [0, 1])
  spline := fun _ _ _ _ => .ok id
  fitExp := fun _ _ => .ok (1, 1)
  fitGompertz := fun _ _ => .ok (1, 1, 1)
  exp := id
  pow := fun _ _ => 1
  trend := fun l => l.map fun _ => 0

/-- Two polynomial degrees. -/
def twoDegrees : FitArgs := ⟨[3, 4], .list [], [], .pyFalse, false⟩

theorem twoDegrees_plain : PlainArgs twoDegrees :=
  ⟨⟨[], rfl, List.nodup_nil⟩, Or.inr rfl, by decide, by decide⟩

/-- The unfoldings of four values with these fits. -/
theorem twoFits_cols : ∃ c3 c4 : Col ℚ, fitAll twoFits [1, 2, 3, 4] twoDegrees = .ok [c3, c4] ∧
    c3.unfolded = [10, 20, 30, 40] ∧ c4.unfolded = [1, 2, 3, 4] := by
  refine ⟨_, _, rfl, ?_, ?_⟩
  · exact npSort_unique (by decide +kernel) (by decide +kernel)
  · exact npSort_unique (by decide +kernel) (by decide +kernel)

theorem sort1234 : npSort [1, 2, 3, (4 : ℚ)] = [1, 2, 3, 4] := npSort_unique (by decide) (by decide)

theorem twoFits_report : ∃ r, mkReport (fun l => l.map fun _ => false) twoFits [1, 2, 3, 4] 0 0 twoDegrees = .ok r := by
  simp only [mkReport, trimIters, sort1234]
  exact ⟨_, rfl⟩

/-- **C32 (refuted).** A spectrum for which `unfold_auto` returns an unfolding with a larger absolute GOE score than another of its
candidates. -/
theorem C32_refuted : ∃ (F : Fitters ℚ) (vals : List ℚ) (a : FitArgs) (u : Unfolded ℚ) (cols : List (Col ℚ)),
    PlainArgs a ∧ unfoldAuto (fun l => l.map fun _ => false) F vals a = .ok u ∧
    fitAll F (npSort vals) a = .ok cols ∧ ∃ c ∈ cols, |goeScore c.unfolded| < |goeScore u.vals| := by
  obtain ⟨c3, c4, hf, h3, h4⟩ := twoFits_cols
  have hne : smootherNames twoDegrees ≠ [] := by decide
  obtain ⟨r, hr⟩ := twoFits_report
  obtain ⟨u, hu⟩ := C32_defined _ _ _ _ _ _ twoDegrees_plain r hr hne
  have hu' : unfoldAuto (fun l => l.map fun _ => false) twoFits [1, 2, 3, 4] twoDegrees = .ok u := hu
  obtain ⟨cols, hc, hpos, hv⟩ := C32_unfold_auto_refuted _ _ _ _ twoDegrees_plain hne u hu'
  rw [sort1234, hf] at hc
  cases hc
  refine ⟨twoFits, [1, 2, 3, 4], twoDegrees, u, _, twoDegrees_plain, hu', by rw [sort1234, hf], c4, by simp, ?_⟩
  rw [hv]
  simp only [List.getElem_cons_zero, h3, h4]
  decide +kernel

-- C32: the hypotheses of `C32_choice` are met
example : ∃ u, trimUnfoldAuto (fun l => l.map fun _ => false) twoFits [1, 2, 3, 4] 0 0 twoDegrees = .ok u := by
  obtain ⟨r, hr⟩ := twoFits_report
  exact C32_defined _ _ _ _ _ _ twoDegrees_plain r hr (by decide)

-- C31: the hypotheses are met by one heuristic spline degree
example : ∃ cols, fitAll twoFits [1, 2, 3, 4] ⟨[3], .heuristic, [3], .pyTrue, false⟩ = .ok cols := ⟨_, rfl⟩
example : (3 / 5 : ℚ) ∈ defaultSplineSmooths := by decide +kernel
example : splineColHeur 3 3 (3 / 5) = "cubic-spline_0.600_heuristic" := by decide +kernel

-- C76: a score
example : (evaluateUnfolding [0, 1, 3, (4 : ℚ)]).1 = 4 / 3 := by decide +kernel
example : ([0, 1, 3, (4 : ℚ)]).head? = some 0 ∧ ([0, 1, 3, (4 : ℚ)]).getLast? = some 4 := by decide
example : avg (gaps [0, (1 : ℚ), 2, 3]) = 1 := by decide +kernel
example : (gaps [0, (1 : ℚ), 3]).Perm (gaps [0, 2, 3]) := by decide +kernel

end Props
end RMT
