import Verif.Props.PolyUnfold
import Verif.Props.AutoUnfold
import Verif.Props.Trim

/-!
# Property C124: trimming and automatic unfolding do not depend on the units of energy

The outlier detector `hbos` is an arbitrary function; the assumption is that its verdicts do not depend on the units (the
histogram-based detector used by the code scales its bins with the range of the data).
-/

set_option linter.unusedSectionVars false

namespace RMT
namespace Props
open Smooth Unfold EigValsM Spec Trim Report Utils

section order
variable {α : Type} [LinearOrder α]

/-- The same trim iteration with every value replaced. -/
def mapIter {β : Type} (φ : α → β) (t : Iter α) : Iter β := ⟨t.id, t.origs.map φ, t.eigs.map φ, t.clusters⟩

theorem pyGet_map {β γ : Type} (f : β → γ) (l : List β) (i : Int) : pyGet (l.map f) i = (pyGet l i).map f := by
  unfold pyGet
  simp only [List.length_map]
  cases pyIdx l.length i with
  | none => rfl
  | some k =>
    simp only [List.getElem?_map]
    cases l[k]? <;> rfl

theorem mkIter_map (hbos : List α → List Bool) (φ : α → α) (hinv : ∀ l, hbos (l.map φ) = hbos l) (o e : List α) :
    mkIter hbos (o.map φ) (e.map φ) = (mkIter hbos o e).map (mapIter φ) := by
  simp only [mkIter, hinv, bind, Except.bind]
  cases outlierLabels (hbos e) <;> rfl

theorem inliers_map (φ : α → α) (t : Iter α) : (mapIter φ t).inliers = t.inliers.map φ := by
  simp only [Iter.inliers, mapIter, List.zip_map_left, List.filter_map, List.map_map]
  rfl

theorem nextIter_map (hbos : List α → List Bool) (φ : α → α) (hinv : ∀ l, hbos (l.map φ) = hbos l) (t : Iter α) :
    (mapIter φ t).nextIter hbos = (t.nextIter hbos).map (mapIter φ) := by
  simp only [Iter.nextIter, inliers_map, bind, Except.bind]
  rw [show (mapIter φ t).origs = t.origs.map φ from rfl, mkIter_map hbos φ hinv]
  cases mkIter hbos t.origs t.inliers <;> rfl

theorem trimLoop_map (hbos : List α → List Bool) (φ : α → α) (hinv : ∀ l, hbos (l.map φ) = hbos l) (maxTrim : ℚ) (n : ℕ) (t : Iter α) :
    trimLoop hbos maxTrim n (mapIter φ t) = (trimLoop hbos maxTrim n t).map (List.map (mapIter φ)) := by
  induction n generalizing t with
  | zero => rfl
  | succ n ih =>
    simp only [trimLoop, nextIter_map hbos φ hinv]
    cases t.nextIter hbos with
    | error e => rfl
    | ok t' =>
      have h1 : (mapIter φ t').proportionRemoved = t'.proportionRemoved := by
        simp [Iter.proportionRemoved, mapIter]
      have h2 : (mapIter φ t').isAllInliers = t'.isAllInliers := rfl
      simp only [Except.map, h1, h2]
      split_ifs
      · rfl
      · rfl
      · rw [ih]
        cases trimLoop hbos maxTrim n t' <;> rfl

theorem npSort_strictMono (φ : α → α) (hφ : StrictMono φ) (l : List α) : npSort (l.map φ) = (npSort l).map φ := by
  apply npSort_unique
  · exact (npSort_perm l).map _
  · have := npSort_ascending l
    simp only [Ascending, List.pairwise_map] at this ⊢
    exact this.imp fun h => hφ.monotone h

/-- **C124 (trim iterations).** If the verdicts of the outlier detector do not change under a strictly increasing change of the energy scale, neither do the trim iterations: the same number of iterations,
each with the corresponding values and the same labels (or the same exception). -/
theorem C124_iterations (hbos : List α → List Bool) (φ : α → α) (hφ : StrictMono φ) (hinv : ∀ l, hbos (l.map φ) = hbos l)
    (vals : List α) (maxTrim : ℚ) (maxIters : ℕ) :
    trimIters hbos (vals.map φ) maxTrim maxIters = (trimIters hbos vals maxTrim maxIters).map (List.map (mapIter φ)) := by
  simp only [trimIters, npSort_strictMono φ hφ, mkIter_map hbos φ hinv, bind, Except.bind]
  cases mkIter hbos (npSort vals) (npSort vals) with
  | error e => rfl
  | ok t =>
    simp only [Except.map, trimLoop_map hbos φ hinv]
    cases trimLoop hbos maxTrim maxIters t <;> rfl

theorem findFirstFrom_map (φ : α → α) (hφ : Function.Injective φ) (v : α) (i : ℕ) (l : List α) :
    findFirstFrom (φ v) i (l.map φ) = findFirstFrom v i l := by
  induction l generalizing i with
  | nil => rfl
  | cons a l ih => simp only [List.map_cons, findFirstFrom, hφ.eq_iff, ih]

theorem findLastFrom_map (φ : α → α) (hφ : Function.Injective φ) (v : α) (l : List α) (n i : ℕ) (hn : n = l.length - i) :
    findLastFrom (l.map φ) (φ v) i = findLastFrom l v i := by
  induction n generalizing i with
  | zero =>
    have h1 : ¬ i < (l.map φ).length := by rw [List.length_map]; omega
    have h2 : ¬ i < l.length := by omega
    conv_lhs => rw [findLastFrom, dif_neg h1]
    conv_rhs => rw [findLastFrom, dif_neg h2]
  | succ n ih =>
    have h1 : i < (l.map φ).length := by rw [List.length_map]; omega
    have h2 : i < l.length := by omega
    conv_lhs => rw [findLastFrom, dif_pos h1]
    conv_rhs => rw [findLastFrom, dif_pos h2]
    rw [ih (i + 1) (by omega)]
    simp only [List.length_map, List.getElem_map, hφ.eq_iff]

theorem lower_map (φ : α → α) (hφ : Function.Injective φ) (t : Iter α) : (mapIter φ t).lowerTrimLength = t.lowerTrimLength := by
  simp only [Iter.lowerTrimLength, mapIter, pyGet_map, bind, Except.bind]
  cases pyGet t.eigs 0 with
  | error e => rfl
  | ok v => simp only [Except.map, findFirst, findFirstFrom_map φ hφ]

theorem upper_map (φ : α → α) (hφ : Function.Injective φ) (t : Iter α) : (mapIter φ t).upperTrimLength = t.upperTrimLength := by
  simp only [Iter.upperTrimLength, mapIter, pyGet_map, bind, Except.bind]
  cases pyGet t.eigs (-1) with
  | error e => rfl
  | ok v => simp only [Except.map, Utils.findLast, findLastFrom_map φ hφ _ _ _ _ rfl, List.length_map]

end order

variable {K : Type} [Field K] [LinearOrder K] [IsStrictOrderedRing K]

/-- Only polynomial fits, no detrending. -/
def PolyOnly (a : FitArgs) : Prop := a.smooths = .list [] ∧ a.gompertz.truthy = false ∧ a.detrend = false

theorem fitAll_affine (F : Fitters K) (hF : LeastSquaresFit F) (args : FitArgs) (hp : PolyOnly args) (eigs : List K) (a b : K) (ha : 0 < a)
    (cols cols' : List (Col K)) (h : fitAll F eigs args = .ok cols) (h' : fitAll F (eigs.map fun e => a * e + b) args = .ok cols') :
    cols'.map (fun c => (c.name, c.unfolded, c.spacings, c.msqe)) = cols.map (fun c => (c.name, c.unfolded, c.spacings, c.msqe)) := by
  obtain ⟨h1, h2, h3⟩ := hp
  have hcalls : ∀ n, fitCalls F n args = args.polyDegrees.map fun (d : Int) => (polyName d, .method .polynomial, .int d, .float (7 / 5)) := by
    intro n; simp [fitCalls, h1, h2]
  simp only [fitAll, hcalls, h3] at h h'
  obtain ⟨hl, hc⟩ := mapPy_ok _ _ _ h
  obtain ⟨hl', hc'⟩ := mapPy_ok _ _ _ h'
  apply List.ext_getElem (by simp [hl, hl'])
  intro i hi hi'
  simp only [List.getElem_map]
  have hi2 : i < args.polyDegrees.length := by simpa [hl] using hi'
  have e1 := hc i (by simpa using hi2)
  have e2 := hc' i (by simpa using hi2)
  simp only [List.getElem_map] at e1 e2
  obtain ⟨g1, g2, g3⟩ := C121_fit F hF eigs a b ha _ _ _ _ _ e1 e2
  have name_ok : ∀ E (x : Col K), fitOne F E false (polyName args.polyDegrees[i]) (.method .polynomial) (.int args.polyDegrees[i]) (.float (7 / 5)) = .ok x → x.name = polyName args.polyDegrees[i] := by
    intro E x hx
    simp only [fitOne, bind, Except.bind] at hx
    split at hx
    · cases hx
    · cases hx; rfl
  rw [name_ok _ _ e1, name_ok _ _ e2, g1, g2, g3]

theorem fillCols_congr (dup : String → Bool) (j : ℕ) (cols cols' : List (Col K)) (row : List K)
    (h : cols'.map (fun c => (c.name, c.unfolded, c.spacings, c.msqe)) = cols.map (fun c => (c.name, c.unfolded, c.spacings, c.msqe))) :
    fillCols dup j cols' row = fillCols dup j cols row := by
  induction cols generalizing j cols' row with
  | nil =>
    have : cols' = [] := by simpa using h
    rw [this]
  | cons c cs ih =>
    cases cols' with
    | nil => simp at h
    | cons c' cs' =>
      simp only [List.map_cons, List.cons.injEq, Prod.mk.injEq] at h
      obtain ⟨⟨h0, h1, -, h2⟩, h3⟩ := h
      simp only [fillCols, h0, h1, h2, fun j row => ih j cs' row h3]

theorem getCol_congr (cols cols' : List (Col K)) (name : String)
    (h : cols'.map (fun c => (c.name, c.unfolded, c.spacings, c.msqe)) = cols.map (fun c => (c.name, c.unfolded, c.spacings, c.msqe))) :
    (getCol cols' name).map (·.unfolded) = (getCol cols name).map (·.unfolded) := by
  unfold getCol
  induction cols generalizing cols' with
  | nil =>
    have : cols' = [] := by simpa using h
    rw [this]
  | cons c cs ih =>
    cases cols' with
    | nil => simp at h
    | cons c' cs' =>
      simp only [List.map_cons, List.cons.injEq, Prod.mk.injEq] at h
      obtain ⟨⟨h0, h1, -, h2⟩, h3⟩ := h
      simp only [List.find?_cons, h0]
      cases c.name == name with
      | true => simp [Except.map, h1]
      | false => exact ih cs' h3

/-- **C124 (report).** With least-squares polynomial fits and a detector whose verdicts do not depend on the units, the trim reports of `e` and of `a·e + b` (`a > 0`) have the same summary (names and all
numbers), the same unfolded values in every unfolding, and corresponding trim iterations. -/
theorem C124_report (hbos : List K → List Bool) (F : Fitters K) (hF : LeastSquaresFit F) (args : FitArgs) (hp : PolyOnly args)
    (a b : K) (ha : 0 < a) (hinv : ∀ l, hbos (l.map fun e => a * e + b) = hbos l) (vals : List K) (maxTrim : ℚ) (maxIters : ℕ)
    (r r' : TrimReport K) (h : mkReport hbos F vals maxTrim maxIters args = .ok r)
    (h' : mkReport hbos F (vals.map fun e => a * e + b) maxTrim maxIters args = .ok r') :
    r'.names = r.names ∧ r'.rows = r.rows ∧
    r'.unfoldings.map (List.map fun c => (c.name, c.unfolded, c.spacings, c.msqe)) = r.unfoldings.map (List.map fun c => (c.name, c.unfolded, c.spacings, c.msqe)) ∧
    r'.iters = r.iters.map (mapIter fun e => a * e + b) := by
  set φ : K → K := fun e => a * e + b with hφ
  have hmono : StrictMono φ := fun x y hxy => by simp only [hφ]; nlinarith
  simp only [mkReport, bind, Except.bind] at h h'
  rw [C124_iterations hbos φ hmono hinv] at h'
  cases hi : trimIters hbos vals maxTrim maxIters with
  | error e => rw [hi] at h; cases h
  | ok its =>
    rw [hi] at h h'
    simp only [Except.map] at h h'
    cases hu : mapPy (fun t : Iter K => fitAll F (npSort t.eigs) args) its with
    | error e => rw [hu] at h; cases h
    | ok us =>
      cases hu' : mapPy (fun t : Iter K => fitAll F (npSort t.eigs) args) (its.map (mapIter φ)) with
      | error e => rw [hu'] at h'; cases h'
      | ok us' =>
        rw [hu] at h
        rw [hu'] at h'
        simp only at h h'
        obtain ⟨hl, hc⟩ := mapPy_ok _ _ _ hu
        obtain ⟨hl', hc'⟩ := mapPy_ok _ _ _ hu'
        rw [List.length_map] at hl'
        have hcols : ∀ i (h1 : i < us'.length) (h2 : i < us.length),
            us'[i].map (fun c => (c.name, c.unfolded, c.spacings, c.msqe)) = us[i].map (fun c => (c.name, c.unfolded, c.spacings, c.msqe)) := by
          intro i h1 h2
          have e1 := hc i (by omega)
          have e2 := hc' i (by simp; omega)
          simp only [List.getElem_map] at e2
          rw [show (mapIter φ its[i]).eigs = its[i].eigs.map φ from rfl, npSort_strictMono φ hmono] at e2
          exact fitAll_affine F hF args hp _ a b ha _ _ e1 e2
        have hrows : ∀ (x : Iter K) (c c' : List (Col K)),
            c'.map (fun c => (c.name, c.unfolded, c.spacings, c.msqe)) = c.map (fun c => (c.name, c.unfolded, c.spacings, c.msqe)) → ∀ w,
            summaryRow w (mapIter φ x) c' = summaryRow w x c := by
          intro x c c' hcc w
          have e0 : percentRemoved (mapIter φ x) = percentRemoved x := by simp [percentRemoved, mapIter]
          have e1 : lowerPercentRemoved (mapIter φ x) = lowerPercentRemoved x := by
            rw [lowerPercentRemoved, lower_map φ hmono.injective]
            simp only [lowerPercentRemoved, mapIter, List.length_map]
          have e2 : upperPercentRemoved (mapIter φ x) = upperPercentRemoved x := by
            rw [upperPercentRemoved, upper_map φ hmono.injective]
            simp only [upperPercentRemoved, mapIter, List.length_map]
          have e3 : c'.map (·.name) = c.map (·.name) := by
            have := congrArg (List.map fun x : String × List K × List K × K => x.1) hcc
            simpa only [List.map_map, Function.comp_def] using this
          simp only [summaryRow, e0, e1, e2, e3, fillCols_congr _ _ c c' _ hcc]
        have hz : mapPy (fun p : Iter K × List (Col K) => summaryRow ((smootherNames args).length * 4 + 3) p.1 p.2) ((its.map (mapIter φ)).zip us') =
            mapPy (fun p : Iter K × List (Col K) => summaryRow ((smootherNames args).length * 4 + 3) p.1 p.2) (its.zip us) := by
          have gen : ∀ (l : List (Iter K)) (v v' : List (List (Col K))), v.length = l.length → v'.length = l.length →
              (∀ i (h1 : i < v'.length) (h2 : i < v.length), v'[i].map (fun c => (c.name, c.unfolded, c.spacings, c.msqe)) = v[i].map (fun c => (c.name, c.unfolded, c.spacings, c.msqe))) →
              mapPy (fun p : Iter K × List (Col K) => summaryRow ((smootherNames args).length * 4 + 3) p.1 p.2) ((l.map (mapIter φ)).zip v') =
              mapPy (fun p : Iter K × List (Col K) => summaryRow ((smootherNames args).length * 4 + 3) p.1 p.2) (l.zip v) := by
            intro l
            induction l with
            | nil => intro v v' _ _ _; rfl
            | cons x l ih =>
              intro v v' hv hv' hcc
              cases v with
              | nil => simp at hv
              | cons c v =>
                cases v' with
                | nil => simp at hv'
                | cons c' v' =>
                  simp only [List.map_cons, List.zip_cons_cons, mapPy]
                  rw [hrows x c c' (hcc 0 (by simp) (by simp)), ih v v' (by simpa using hv) (by simpa using hv') fun i h1 h2 => by
                    have := hcc (i + 1) (by simpa using h1) (by simpa using h2)
                    simpa using this]
          exact gen its us us' hl hl' hcols
        rw [hz] at h'
        cases hr : mapPy (fun p : Iter K × List (Col K) => summaryRow ((smootherNames args).length * 4 + 3) p.1 p.2) (its.zip us) with
        | error e => rw [hr] at h; cases h
        | ok rows =>
          rw [hr] at h h'
          cases h
          cases h'
          refine ⟨rfl, rfl, ?_, rfl⟩
          apply List.ext_getElem (by simp [hl, hl'])
          intro i h1 h2
          simp only [List.getElem_map]
          exact hcols i (by simpa using h1) (by simpa using h2)

/-- **C124 (automatic unfolding).** Under the same assumptions `trim_unfold_auto` chooses the same smoother and the same trim: the unfolded values are the same and the original values correspond. -/
theorem C124_auto (hbos : List K → List Bool) (F : Fitters K) (hF : LeastSquaresFit F) (args : FitArgs) (hp : PolyOnly args)
    (a b : K) (ha : 0 < a) (hinv : ∀ l, hbos (l.map fun e => a * e + b) = hbos l) (vals : List K) (maxTrim : ℚ) (maxIters : ℕ)
    (u u' : Unfolded K) (h : trimUnfoldAuto hbos F vals maxTrim maxIters args = .ok u)
    (h' : trimUnfoldAuto hbos F (vals.map fun e => a * e + b) maxTrim maxIters args = .ok u') :
    u'.vals = u.vals ∧ u'.originals = u.originals.map fun e => a * e + b := by
  simp only [trimUnfoldAuto, bind, Except.bind] at h h'
  cases hr : mkReport hbos F vals maxTrim maxIters args with
  | error e => rw [hr] at h; cases h
  | ok r =>
    cases hr' : mkReport hbos F (vals.map fun e => a * e + b) maxTrim maxIters args with
    | error e => rw [hr'] at h'; cases h'
    | ok r' =>
      rw [hr] at h
      rw [hr'] at h'
      obtain ⟨h1, h2, h3, h4⟩ := C124_report hbos F hF args hp a b ha hinv vals maxTrim maxIters r r' hr hr'
      have key : autounfoldVals r' = (autounfoldVals r).map fun p => (p.1.map (fun e => a * e + b), p.2) := by
        have e1 : scoreCols r' = scoreCols r := by simp only [scoreCols, h1, h2]
        have e2 : ∀ p, regexCols r' p = regexCols r p := by intro p; simp only [regexCols, h1, h2]
        simp only [autounfoldVals, e1, e2, bind, Except.bind]
        cases bestScoreCol (scoreCols r) with
        | error e => rfl
        | ok best =>
          simp only
          cases mapPy idxMin (regexCols r best.1) with
          | error e => rfl
          | ok ids =>
            simp only
            cases item ids with
            | error e => rfl
            | ok id =>
              simp only
              have e3 : pyGet (r'.unfoldings.map (List.map fun c => (c.name, c.unfolded, c.spacings, c.msqe))) (id : Int) =
                  pyGet (r.unfoldings.map (List.map fun c => (c.name, c.unfolded, c.spacings, c.msqe))) (id : Int) := by rw [h3]
              rw [pyGet_map, pyGet_map] at e3
              cases hg : pyGet r.unfoldings (id : Int) with
              | error e =>
                rw [hg] at e3
                cases hg' : pyGet r'.unfoldings (id : Int) with
                | error e' => rw [hg'] at e3; simp only [Except.map] at e3 ⊢; cases e3; rfl
                | ok x => rw [hg'] at e3; cases e3
              | ok unf =>
                rw [hg] at e3
                cases hg' : pyGet r'.unfoldings (id : Int) with
                | error e' => rw [hg'] at e3; cases e3
                | ok unf' =>
                  rw [hg'] at e3
                  simp only [Except.map, Except.ok.injEq] at e3
                  have e4 := getCol_congr unf unf' (dropScore best.1) e3
                  simp only
                  cases hk : getCol unf (dropScore best.1) with
                  | error e =>
                    rw [hk] at e4
                    cases hk' : getCol unf' (dropScore best.1) with
                    | error e' => rw [hk'] at e4; simp only [Except.map] at e4 ⊢; cases e4; rfl
                    | ok x => rw [hk'] at e4; cases e4
                  | ok c =>
                    rw [hk] at e4
                    cases hk' : getCol unf' (dropScore best.1) with
                    | error e' => rw [hk'] at e4; cases e4
                    | ok c' =>
                      rw [hk'] at e4
                      simp only [Except.map, Except.ok.injEq] at e4
                      simp only [h4, pyGet_map]
                      cases pyGet r.iters (id : Int) with
                      | error e => rfl
                      | ok t => simp only [Except.map, e4]; rfl
      simp only [key] at h'
      simp only at h
      cases hv : autounfoldVals r with
      | error e => rw [hv] at h; cases h
      | ok p =>
        rw [hv] at h h'
        simp only [Except.map, mkUnfolded_eq] at h h'
        cases h
        cases h'
        exact ⟨rfl, npSort_affine _ a b ha⟩

/-- **C30 (defined).** For a non-empty spectrum, a boolean `gompertz` and parameters which name no smoother twice the report is built whenever every fit succeeds on every contiguous block of the sorted spectrum. -/
theorem C30_defined (hbos : List K → List Bool) (hlen : ∀ l, (hbos l).length = l.length) (F : Fitters K) (vals : List K) (hne : vals ≠ [])
    (maxTrim : ℚ) (maxIters : ℕ) (args : FitArgs) (hg : args.gompertz = .pyTrue ∨ args.gompertz = .pyFalse) (hdist : DistinctSmoothers args)
    (hfit : ∀ block, block ≠ [] → block <:+: npSort vals → ∃ cols, fitAll F block args = .ok cols) :
    ∃ r, mkReport hbos F vals maxTrim maxIters args = .ok r := by
  obtain ⟨its, h1, -, -, h2, -⟩ := C25_nested_blocks hbos hlen vals hne maxTrim maxIters
  have hw : ∀ (row : List K) k v, k < row.length → writeCell row k v = .ok (row.set k v) := by
    intro row k v h; simp [writeCell, h]
  obtain ⟨us, hu⟩ := mapPy_isOk (fun t : Iter K => fitAll F (npSort t.eigs) args) its fun t ht => by
    obtain ⟨-, h3, h4, h5⟩ := h2 t ht
    rw [npSort_of_ascending _ h5]
    exact hfit _ h3 h4
  obtain ⟨hl, hc⟩ := mapPy_ok _ _ _ hu
  have hcl : ∀ n, (fitCalls F n args).length = (smootherNames args).length := by
    intro n
    have hgl : (if args.gompertz.truthy then [("gompertz", PyVal.method .gompertz, PyVal.int 7, PyVal.float (7 / 5))] else []).length =
        (if args.gompertz.isTrue then ["gompertz"] else []).length := by
      rcases hg with h | h <;> simp [h, Flag.truthy, Flag.isTrue]
    simp only [fitCalls, smootherNames, List.length_append, hgl]
    cases args.smooths <;> simp [List.length_flatMap]
  obtain ⟨rows, hr⟩ := mapPy_isOk (fun p : Iter K × List (Col K) => summaryRow ((smootherNames args).length * 4 + 3) p.1 p.2) (its.zip us) fun p hp => by
    obtain ⟨i, hi, rfl⟩ := List.mem_iff_getElem.mp hp
    have hi1 : i < its.length := by simp at hi; omega
    have hi2 : i < us.length := by omega
    simp only [List.getElem_zip]
    have h3 : its[i].eigs ≠ [] := (h2 _ (List.getElem_mem hi1)).2.1
    have hpos : 0 < its[i].eigs.length := List.length_pos_iff.mpr h3
    have hcols : us[i].length = (smootherNames args).length := by
      have := hc i hi1
      simp only [fitAll] at this
      obtain ⟨q, -⟩ := mapPy_ok _ _ _ this
      rw [q, hcl]
    simp only [summaryRow, bind, Except.bind, lowerPercentRemoved, upperPercentRemoved, Iter.lowerTrimLength, Iter.upperTrimLength,
      pyGet_zero _ hpos, pyGet_neg_one _ hpos, pure, Except.pure]
    rw [hw _ _ _ (by simp)]
    simp only
    rw [hw _ _ _ (by simp)]
    simp only
    rw [hw _ _ _ (by simp)]
    refine fillCols_isOk _ 0 _ _ (by simp [hcols]; omega) fun c hc' => ?_
    have hnd := fitCalls_nodup F (npSort its[i].eigs).length args hdist
    rw [← fitAll_name F _ args _ (hc i hi1), List.nodup_iff_count_le_one] at hnd
    have := hnd c.name
    simp only [decide_eq_false_iff_not]
    omega
  simp only [mkReport, h1, hu, hr, bind, Except.bind]
  exact ⟨_, rfl⟩

/-- Polynomials of degree 3 only. -/
def cubicOnly : FitArgs := ⟨[3], .list [], [], .pyFalse, false⟩

theorem cubic_fits (l : List ℚ) (hnd : l.Nodup) (hl : l.length ≤ 4) : ∃ cols, fitAll lsFitters l cubicOnly = .ok cols := by
  obtain ⟨c, h1, h2⟩ := exists_interpolant l hnd (stepsOf l.length) (by simp [stepsOf]) 3 hl
  obtain ⟨q, hq⟩ := lsFitters_ok l (stepsOf l.length) 3 ⟨c, h1, fun c' _ => by
    rw [← h2, sse_eq_zero_of_map]
    exact sse_nonneg _ _ _⟩
  apply mapPy_isOk
  intro x hx
  simp only [cubicOnly, fitCalls, List.map_cons, List.map_nil, List.flatMap_nil, List.append_nil, Flag.truthy, Bool.false_eq_true, if_false,
    List.mem_singleton] at hx
  subst hx
  simp only [fitOne, fit, validateArgs, validate, bind, Except.bind, PyVal.asInt, hq]
  exact ⟨_, rfl⟩

theorem cubic_auto (vals : List ℚ) (hne : vals ≠ []) (hnd : vals.Nodup) (hl : vals.length ≤ 4) (maxTrim : ℚ) (maxIters : ℕ) :
    ∃ u, trimUnfoldAuto (fun l => l.map fun _ => false) lsFitters vals maxTrim maxIters cubicOnly = .ok u := by
  obtain ⟨r, hr⟩ := C30_defined (fun l => l.map fun _ => false) (by simp) lsFitters vals hne maxTrim maxIters cubicOnly (Or.inr rfl) ⟨by simp [cubicOnly], by simp [cubicOnly], by simp [cubicOnly]⟩ (by
    intro block _ hb
    refine cubic_fits block ?_ ?_
    · exact hb.sublist.nodup ((npSort_perm vals).nodup_iff.mpr hnd)
    · exact hb.length_le.trans (by rw [(npSort_perm vals).length_eq]; exact hl))
  exact C32_defined _ _ _ _ _ _ ⟨⟨[], rfl, by simp⟩, Or.inr rfl, by simp [cubicOnly], by simp [cubicOnly]⟩ r hr (by decide)

-- the hypotheses of C124 are met: four levels in any units, a detector that never complains
example (a b : ℚ) (ha : 0 < a) : PolyOnly cubicOnly ∧ LeastSquaresFit lsFitters ∧
    (∃ u, trimUnfoldAuto (fun l => l.map fun _ => false) lsFitters [3, 0, 7, 1] (1 / 2) 2 cubicOnly = .ok u) ∧
    ∃ u', trimUnfoldAuto (fun l => l.map fun _ => false) lsFitters ([3, 0, 7, 1].map fun e => a * e + b) (1 / 2) 2 cubicOnly = .ok u' := by
  refine ⟨⟨rfl, rfl, rfl⟩, lsFitters_ls, cubic_auto _ (by simp) (by decide +kernel) (by simp) _ _, cubic_auto _ (by simp) ?_ (by simp) _ _⟩
  refine List.Nodup.map (fun x y h => ?_) (by decide +kernel)
  have := mul_left_cancel₀ ha.ne' (add_right_cancel h)
  exact this

/-- A detector with verdicts that depend on the values but not on the units: it flags the values above a gap much wider than all that lies below. -/
def gapDetector (l : List ℚ) : List Bool :=
  l.map fun x => (l.any fun z => decide (z < x)) && l.all fun y => l.all fun z => !(decide (y ≤ z) && decide (z < x)) || decide (5 * (z - y) < x - y)

example : gapDetector [0, 1, 3, 30] = [false, true, false, true] := by decide +kernel

example (a b : ℚ) (ha : 0 < a) (l : List ℚ) : gapDetector (l.map fun e => a * e + b) = gapDetector l := by
  simp only [gapDetector, List.map_map]
  refine List.map_congr_left fun x _ => ?_
  simp only [Function.comp_apply, List.any_map, List.all_map]
  have e1 : ∀ z, decide (a * z + b < a * x + b) = decide (z < x) := fun z => by
    simp only [add_lt_add_iff_right, mul_lt_mul_iff_right₀ ha]
  have e2 : ∀ y z : ℚ, decide (a * y + b ≤ a * z + b) = decide (y ≤ z) := fun y z => by
    simp only [add_le_add_iff_right, mul_le_mul_iff_right₀ ha]
  have e3 : ∀ y z : ℚ, decide (5 * (a * z + b - (a * y + b)) < a * x + b - (a * y + b)) = decide (5 * (z - y) < x - y) := fun y z => by
    rw [show 5 * (a * z + b - (a * y + b)) = a * (5 * (z - y)) by ring, show a * x + b - (a * y + b) = a * (x - y) by ring]
    simp only [mul_lt_mul_iff_right₀ ha]
  simp only [Function.comp_def, e1, e2, e3]

end Props
end RMT
