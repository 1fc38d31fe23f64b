import Verif.Model.Plots
import Verif.Props.Step
import Verif.Props.Files
import Verif.Lemmas.Eigenvalues
import Verif.Spec.Variance
import Mathlib.Tactic.Linarith
import Mathlib.Tactic.FieldSimp
import Mathlib.Data.Rat.Floor

/-!
# C100-C105: further plots, summary lines, `mkdirp`
-/

set_option linter.unusedSectionVars false

namespace RMT.Props
open EigValsM Spec Step Plots

section Field
variable {K : Type} [Field K] [LinearOrder K] [IsStrictOrderedRing K]

theorem linspace_length (a b : K) (n : Nat) : (linspace a b n).length = n := by simp [linspace]

theorem linspace_ascending (a b : K) (h : a ≤ b) (n : Nat) : Ascending (linspace a b n) := by
  rw [Ascending, linspace, List.pairwise_map]
  rcases Nat.lt_or_ge n 2 with hn | hn
  · interval_cases n <;> simp
  · have hb : (0 : K) < (n : K) - 1 := by
      have : (2 : K) ≤ n := by exact_mod_cast hn
      linarith
    have hstep : (0 : K) ≤ (b - a) / ((n : K) - 1) := div_nonneg (by linarith) hb.le
    refine List.pairwise_lt_range.imp fun {i j} h => ?_
    have : (i : K) ≤ j := by exact_mod_cast h.le
    nlinarith

theorem linspace_last (a b : K) (n : Nat) (hn : 2 ≤ n) (h : linspace a b n ≠ []) : (linspace a b n).getLast h = b := by
  rw [List.getLast_eq_getElem]
  simp only [linspace, List.length_map, List.length_range, List.getElem_map, List.getElem_range]
  have hb : (n : K) - 1 ≠ 0 := by
    have : (2 : K) ≤ n := by exact_mod_cast hn
    linarith
  rw [Nat.cast_sub (by omega), Nat.cast_one]
  field_simp
  ring

/-! ## C100 -/

/-- **C100 (partial: two or more grid points, values not all equal).** The curve drawn by `plot_steps` has `gridsize` points, at equal distances from the least to the greatest value, and its height at each
abscissa is the number of values up to it. -/
theorem C100_plot_steps_partial (eigs : List K) (hs : Ascending eigs) (lo hi : K) (hlo : Spec.IsMin eigs lo) (hhi : Spec.IsMax eigs hi) (h : lo < hi)
    (gridsize : Nat) (hg : 2 ≤ gridsize) :
    ∃ xs ys, plotSteps eigs gridsize = .ok (xs, ys) ∧ xs.length = gridsize ∧
      (∀ i (hi' : i < xs.length), xs[i] = lo + (hi - lo) * i / ((gridsize : K) - 1)) ∧ ys = xs.map (countLE eigs) ∧
      ys.getLast? = some eigs.length := by
  have he : eigs ≠ [] := List.ne_nil_of_mem hlo.1
  have hgl : linspace lo hi gridsize ≠ [] := by
    intro h0
    have := linspace_length lo hi gridsize
    rw [h0] at this; simp at this; omega
  have hhead : eigs.head he = lo := by
    have h1 := hlo.2 _ (List.head_mem he)
    refine le_antisymm ?_ h1
    obtain ⟨a, l, rfl⟩ := List.exists_cons_of_ne_nil he
    rcases List.mem_cons.mp hlo.1 with h | h
    · simp [h]
    · exact (List.pairwise_cons.mp hs).1 lo h
  have hlast := linspace_last lo hi gridsize hg hgl
  have hc := (C02_step_counts_partial eigs (linspace lo hi gridsize) he hgl hs (linspace_ascending lo hi h.le _)
    (by rw [hlast, hhead]; exact h.ne')).1
  refine ⟨linspace lo hi gridsize, (linspace lo hi gridsize).map (countLE eigs), ?_, linspace_length _ _ _, ?_, rfl, ?_⟩
  · simp only [plotSteps, EigM.npMin_eq hlo.1 hlo.2, EigM.npMax_eq hhi.1 hhi.2, hc, bind, Except.bind, pure, Except.pure]
  · intro i hi'
    simp only [linspace, List.getElem_map, List.getElem_range]
    ring
  · rw [List.getLast?_map, List.getLast?_eq_some_getLast hgl, hlast]
    simp only [Option.map_some, Option.some.injEq, countLE]
    rw [List.countP_eq_length]
    intro a ha
    simpa using hhi.2 a ha

/-- **C100 (refuted: one grid point, or all values equal).** With one grid point, or if all values are equal, the curve drawn by `plot_steps` is zero everywhere, although every value is at most the
abscissa. -/
theorem C100_refuted (eigs : List K) (hs : Ascending eigs) (lo hi : K) (hlo : Spec.IsMin eigs lo) (hhi : Spec.IsMax eigs hi) (gridsize : Nat)
    (hg : 1 ≤ gridsize) (h : gridsize = 1 ∨ lo = hi) :
    ∃ xs, plotSteps eigs gridsize = .ok (xs, List.replicate gridsize 0) ∧ ∀ x ∈ xs, 0 < countLE eigs x := by
  have he : eigs ≠ [] := List.ne_nil_of_mem hlo.1
  have hgl : linspace lo hi gridsize ≠ [] := by
    intro h0
    have := linspace_length lo hi gridsize
    rw [h0] at this; simp at this; omega
  have hall : ∀ x ∈ linspace lo hi gridsize, x = lo := by
    intro x hx
    simp only [linspace, List.mem_map, List.mem_range] at hx
    obtain ⟨i, hi', rfl⟩ := hx
    rcases h with rfl | rfl
    · have : i = 0 := by omega
      subst this; simp
    · simp
  have hhead : lo ≤ eigs.head he := hlo.2 _ (List.head_mem he)
  have hla : (linspace lo hi gridsize).getLast hgl ≤ eigs.head he := by
    rw [hall _ (List.getLast_mem hgl)]; exact hhead
  obtain ⟨ret, r1, r2, r3⟩ := C01_step_array eigs (linspace lo hi gridsize) he hgl hs
  have hr : ret = List.replicate gridsize 0 := by
    apply List.ext_getElem
    · rw [r2, linspace_length]; simp
    · intro k hk hk'
      rw [r3 k hk, if_pos hla]; simp
  refine ⟨linspace lo hi gridsize, ?_, ?_⟩
  · simp only [plotSteps, EigM.npMin_eq hlo.1 hlo.2, EigM.npMax_eq hhi.1 hhi.2, r1, hr, bind, Except.bind, pure, Except.pure]
  · intro x hx
    rw [hall x hx, countLE, List.countP_pos_iff]
    exact ⟨lo, hlo.1, by simp⟩

example : Ascending [(1 : ℚ), 2, 2, 5] ∧ Spec.IsMin [(1 : ℚ), 2, 2, 5] 1 ∧ Spec.IsMax [(1 : ℚ), 2, 2, 5] 5 := by
  refine ⟨by decide +kernel, ⟨by simp, by decide +kernel⟩, ⟨by simp, by decide +kernel⟩⟩

/-! ## C101 -/

/-- **C101 (refuted).** For distinct eigenvalues the line that `plot_fit` labels "Step Function" lies one below the step function everywhere; an unfolding that reproduces the step function
exactly is drawn with difference 1 at every point. -/
theorem C101_refuted (eigs : List K) (hs : eigs.Pairwise (· < ·)) (unfolded : List K) (hl : unfolded.length = eigs.length) :
    (unfoldedFit eigs unfolded).stepLine = eigs.map (fun e => (countLE eigs e : K) - 1) ∧
    (unfolded = eigs.map (fun e => (countLE eigs e : K)) → (unfoldedFit eigs unfolded).sizes = List.replicate eigs.length 1) := by
  have hc : ∀ i (h : i < eigs.length), countLE eigs eigs[i] = i + 1 := by
    intro i h
    have split : countLE eigs eigs[i] = (eigs.take (i + 1)).countP (fun e => decide (e ≤ eigs[i])) +
        (eigs.drop (i + 1)).countP (fun e => decide (e ≤ eigs[i])) := by
      rw [countLE, ← List.countP_append, List.take_append_drop]
    rw [split]
    have h1 : (eigs.take (i + 1)).countP (fun e => decide (e ≤ eigs[i])) = i + 1 := by
      rw [List.countP_eq_length.mpr]
      · rw [List.length_take]; omega
      · intro a ha
        obtain ⟨j, hj, rfl⟩ := List.mem_take_iff_getElem.mp ha
        rcases Nat.lt_or_ge j i with hji | hji
        · simpa using (List.pairwise_iff_getElem.mp hs j i (by omega) h hji).le
        · have : j = i := by omega
          subst this; simp
    have h2 : (eigs.drop (i + 1)).countP (fun e => decide (e ≤ eigs[i])) = 0 := by
      rw [List.countP_eq_zero]
      intro a ha
      obtain ⟨j, hj, rfl⟩ := List.mem_drop_iff_getElem.mp ha
      simpa using List.pairwise_iff_getElem.mp hs i (i + 1 + j) h (by omega) (by omega)
    rw [h1, h2]
  constructor
  · apply List.ext_getElem
    · simp [unfoldedFit, hl]
    · intro i h1 h2
      have : i < eigs.length := by simpa using h2
      simp only [unfoldedFit, List.getElem_map, List.getElem_range, hc i this]
      push_cast; ring
  · intro hu
    apply List.ext_getElem
    · simp [unfoldedFit, hl]
    · intro i h1 h2
      have hi : i < eigs.length := by simpa using h2
      simp only [unfoldedFit, hu, List.getElem_zipWith, List.getElem_map, List.getElem_range, hc i hi, List.getElem_replicate]
      push_cast
      rw [show (i : K) - (i + 1) = -1 by ring, abs_neg, abs_one]

/-- **C101 (partial: the unfolded values).** The other line shows the unfolded values themselves, one point per value. -/
theorem C101_unfolded_partial (eigs unfolded : List K) :
    (unfoldedFit eigs unfolded).unfoldedLine = unfolded ∧ (unfoldedFit eigs unfolded).sizes.length = unfolded.length := by
  simp [unfoldedFit]

example : (unfoldedFit [(1 : ℚ), 4, 9] [1, 2, 3]).sizes = [1, 1, 1] := by decide +kernel

/-! ## C102 -/

open Trim in
/-- **C102 (partial: not a single panel).** If the plot of the trim iterations does not consist of a single panel, every iteration is shown in exactly one panel, in order; the panels left over are deleted and are fewer than
the width; a panel shows each eigenvalue of the iteration with its count and label. -/
theorem C102_panels_partial (trims : List (Iter K)) (width : Nat) (hw : 0 < width) (hne : trims ≠ []) (h1 : ¬ (trims.length = 1 ∧ width = 1)) :
    ∃ panels, plotTrimIters trims width = .ok panels ∧ width ∣ panels.length ∧
      panels.take trims.length = trims.map (fun t => some (panelOf t)) ∧
      (∀ p ∈ panels.drop trims.length, p.isNone) ∧ (panels.drop trims.length).length < width := by
  have hlen : 0 < trims.length := List.length_pos_iff.mpr hne
  have hdiv := Nat.div_add_mod (trims.length + width - 1) width
  have hmod := Nat.mod_lt (trims.length + width - 1) hw
  set q := panelRows trims.length width with hq
  have hq' : q = (trims.length + width - 1) / width := rfl
  rw [← hq'] at hdiv
  have hcomm : width * q = q * width := Nat.mul_comm _ _
  have hge : trims.length ≤ q * width := by omega
  have hlt : q * width < trims.length + width := by omega
  have hq0 : q ≠ 0 := by
    intro h0; rw [h0] at hge; omega
  have hne1 : ¬ (q = 1 ∧ width = 1) := by
    rintro ⟨ha, hb⟩
    apply h1
    refine ⟨?_, hb⟩
    rw [ha, hb] at hge; omega
  refine ⟨(List.range (q * width)).map fun (i : Nat) => (trims[i]?).map panelOf, ?_, ?_, ?_, ?_, ?_⟩
  · simp only [plotTrimIters, if_neg hw.ne', ← hq, if_neg hq0, if_neg hne1]
  · simp
  · apply List.ext_getElem
    · simp; omega
    · intro i ha hb
      have : i < trims.length := by simpa using hb
      simp [List.getElem_take, List.getElem?_eq_getElem this]
  · intro p hp
    obtain ⟨j, hj, rfl⟩ := List.mem_drop_iff_getElem.mp hp
    simp only [List.getElem_map, List.getElem_range]
    rw [List.getElem?_eq_none (by omega)]
    rfl
  · simp; omega

open Trim in
/-- **C102 (refuted: a single panel).** With one iteration (for example `max_iters=0`) and `width=1`, the plot raises `AttributeError`. -/
theorem C102_refuted (t : Iter K) : plotTrimIters [t] 1 = .error .attributeError := by
  simp [plotTrimIters, panelRows]

open Trim in
/-- **C102 (points).** A panel shows, for the `i`-th eigenvalue of the iteration, its value, its count `i + 1` and its label; only the panel of iteration 0 shows no percentage. -/
theorem C102_points (t : Iter K) (hc : t.clusters.length = t.eigs.length) :
    (panelOf t).points.length = t.eigs.length ∧
    (∀ i (h : i < t.eigs.length) (h' : i < (panelOf t).points.length), (panelOf t).points[i] = (t.eigs[i], i + 1, t.clusters[i]'(by omega))) ∧
    ((panelOf t).percent = none ↔ t.id = 0) := by
  refine ⟨by simp [panelOf, hc], ?_, ?_⟩
  · intro i h h'
    simp [panelOf]
  · unfold panelOf
    by_cases h : t.id = 0 <;> simp [h]

/-! ## C103 -/

/-- **C103 (range).** The 20% trimmed mean of a non-empty array lies between its least and greatest entry and does not depend on their order. -/
theorem C103_trim_mean_range (l : List K) (lo hi : K) (hlo : Spec.IsMin l lo) (hhi : Spec.IsMax l hi) :
    lo ≤ trimMean l ∧ trimMean l ≤ hi ∧ ∀ l' : List K, l'.Perm l → trimMean l' = trimMean l := by
  have hne : l ≠ [] := List.ne_nil_of_mem hlo.1
  have hl : 0 < l.length := List.length_pos_iff.mpr hne
  set m := ((npSort l).take (l.length - l.length / 5)).drop (l.length / 5) with hm
  have hml : m.length = l.length - l.length / 5 - l.length / 5 := by
    rw [hm, List.length_drop, List.length_take, (npSort_perm l).length_eq]; omega
  have hmpos : 0 < m.length := by omega
  have hmem : ∀ v ∈ m, v ∈ l := fun v hv => (npSort_perm l).mem_iff.mp (List.mem_of_mem_take (List.mem_of_mem_drop hv))
  have hmK : (0 : K) < m.length := by exact_mod_cast hmpos
  have bound : ∀ (s : List K), (∀ v ∈ s, lo ≤ v ∧ v ≤ hi) → lo * s.length ≤ s.sum ∧ s.sum ≤ hi * s.length := by
    intro s
    induction s with
    | nil => intro _; simp
    | cons a s ih =>
      intro h
      have h1 := h a (by simp)
      have h2 := ih fun v hv => h v (by simp [hv])
      simp only [List.length_cons, List.sum_cons, Nat.cast_add, Nat.cast_one]
      constructor <;> nlinarith
  obtain ⟨b1, b2⟩ := bound m fun v hv => ⟨hlo.2 v (hmem v hv), hhi.2 v (hmem v hv)⟩
  have e : trimMean l = m.sum / m.length := rfl
  refine ⟨by rw [e, le_div_iff₀ hmK]; exact b1, by rw [e, div_le_iff₀ hmK]; exact b2, ?_⟩
  intro l' hp
  have : npSort l' = npSort l := npSort_unique ((npSort_perm l).trans hp.symm) (npSort_ascending l)
  simp only [trimMean, this, hp.length_eq]

/-- **C103 (robustness).** With fewer than five entries the trimmed mean is the mean of all of them. Otherwise the `⌊n/5⌋` smallest and `⌊n/5⌋` largest entries do not enter: it is the mean of the
`n - 2⌊n/5⌋ ≥ 1` entries between them. -/
theorem C103_trim_mean_robust (l : List K) (a b c : List K) (h : l.Perm (a ++ b ++ c)) (ha : a.length = l.length / 5) (hc : c.length = l.length / 5)
    (hab : ∀ x ∈ a, ∀ y ∈ b ++ c, x ≤ y) (hbc : ∀ x ∈ b, ∀ y ∈ c, x ≤ y) :
    trimMean l = b.sum / b.length := by
  have hs : npSort l = npSort a ++ npSort b ++ npSort c := by
    refine npSort_unique ?_ ?_
    · exact (((npSort_perm a).append (npSort_perm b)).append (npSort_perm c)).trans h.symm
    · rw [Ascending, List.pairwise_append, List.pairwise_append]
      refine ⟨⟨npSort_ascending a, npSort_ascending b, ?_⟩, npSort_ascending c, ?_⟩
      · intro x hx y hy
        exact hab x ((npSort_perm a).mem_iff.mp hx) y (List.mem_append_left _ ((npSort_perm b).mem_iff.mp hy))
      · intro x hx y hy
        have hy' := (npSort_perm c).mem_iff.mp hy
        rcases List.mem_append.mp hx with hx | hx
        · exact hab x ((npSort_perm a).mem_iff.mp hx) y (List.mem_append_right _ hy')
        · exact hbc x ((npSort_perm b).mem_iff.mp hx) y hy'
  have hlen : l.length = a.length + b.length + c.length := by rw [h.length_eq]; simp [Nat.add_assoc]
  have hsa := (npSort_perm a).length_eq
  have hsb := (npSort_perm b).length_eq
  have e1 : (npSort l).take (l.length - l.length / 5) = npSort a ++ npSort b := by
    rw [hs, List.take_left' (by simp only [List.length_append, hsa, hsb]; omega)]
  have e2 : (npSort a ++ npSort b).drop (l.length / 5) = npSort b := List.drop_left' (by rw [hsa, ha])
  simp only [trimMean, e1, e2, RMT.mean, (npSort_perm b).sum_eq, hsb]

end Field

/-! ## C104 -/

open PlotData in
/-- **C104 (refuted).** `plot_brody_fit` never returns: whatever the data, the fit and the options, it raises. -/
theorem C104_refuted (fit : String → List ℝ → Py ℝ) (evaluate : List ℝ → String → Py Brody.Eval) (unfolded : List ℝ) (method : String) (trim : ℝ)
    (kde trimKde : Bool) (ensembles : List String) :
    ∃ e, plotBrodyFit fit evaluate unfolded method trim kde trimKde ensembles = .error e ∧
      (trimSpacings (diff (npSort unfolded)) trim ≠ [] → e = .attributeError) := by
  simp only [plotBrodyFit, spacingsOn, bind, Except.bind]
  cases h1 : npMin (trimSpacings (diff (npSort unfolded)) trim) with
  | error e =>
    refine ⟨e, rfl, fun hne => ?_⟩
    obtain ⟨m, hm, -⟩ := EigM.npMin_ok hne
    rw [hm] at h1; cases h1
  | ok lo =>
    cases h2 : npMax (trimSpacings (diff (npSort unfolded)) trim) with
    | error e =>
      refine ⟨e, rfl, fun hne => ?_⟩
      obtain ⟨m, hm, -⟩ := EigM.npMax_ok hne
      rw [hm] at h2; cases h2
    | ok hi => exact ⟨_, rfl, fun _ => rfl⟩

/-! ## C105 -/

section Mkdirp
open Files

/-- What other programs may do meanwhile: they keep the file system well formed and every directory in place, and put no file at one of the given paths. -/
structure Friendly (interfere : FS → FS) (paths : Path → Prop) : Prop where
  wf : ∀ fs, WF fs → WF (interfere fs)
  dirs : ∀ fs q, fs q = some .dir → interfere fs q = some .dir
  files : ∀ fs, (∀ q, paths q → fs q ≠ some .file) → ∀ q, paths q → interfere fs q ≠ some .file

/-- **C105 (success under concurrency).** If neither the path nor one of its ancestors is a file and nothing is refused, `mkdirp` succeeds and the path and all its ancestors are directories afterwards, whether or not some exist already, and also if other programs
create any of them at any time. -/
theorem C105_mkdirp (deny : Path → Bool) (interfere : FS → FS) (fs : FS) (w : WF fs) (p : Path)
    (hf : ∀ q, (q = p ∨ Ancestor q p) → fs q ≠ some .file) (hd : ∀ q, (q = p ∨ Ancestor q p) → deny q = false)
    (hi : Friendly interfere fun q => q = p ∨ Ancestor q p) :
    (mkdirp deny interfere fs p).2 = .ok () ∧ WF (mkdirp deny interfere fs p).1 ∧
      ∀ q, (q = p ∨ Ancestor q p) → (mkdirp deny interfere fs p).1 q = some .dir := by
  -- generalise: `r` is the path or an ancestor
  have main : ∀ r, (r = p ∨ Ancestor r p) → (∀ q, Ancestor q r → Ancestor q p) → ∀ fs, WF fs → (∀ q, (q = p ∨ Ancestor q p) → fs q ≠ some .file) →
      (makedirsOk deny interfere fs r).2 = .ok () ∧ WF (makedirsOk deny interfere fs r).1 ∧
      (makedirsOk deny interfere fs r).1 r = some .dir ∧ (∀ q, (q = p ∨ Ancestor q p) → (makedirsOk deny interfere fs r).1 q ≠ some .file) := by
    intro r
    induction r with
    | nil =>
      intro _ _ fs w hf
      have h0 := (hi.wf fs w).1
      simp only [makedirsOk, if_pos h0]
      exact ⟨trivial, hi.wf fs w, h0, hi.files fs hf⟩
    | cons n parent ih =>
      intro hr hsub fs w hf
      have hpar : parent = p ∨ Ancestor parent p := Or.inr (hsub _ (ancestor_cons.mpr (Or.inl rfl)))
      have fin : ∀ fs' : FS, WF fs' → fs' parent = some .dir → (∀ q, (q = p ∨ Ancestor q p) → fs' q ≠ some .file) →
          let o : Out := match mkdir deny (interfere fs') (n :: parent) with
            | (fs', .ok ()) => (fs', .ok ())
            | (fs', .error e) => if fs' (n :: parent) = some .dir then (fs', .ok ()) else (fs', .error e)
          o.2 = .ok () ∧ WF o.1 ∧ o.1 (n :: parent) = some .dir ∧ (∀ q, (q = p ∨ Ancestor q p) → o.1 q ≠ some .file) := by
        intro fs' w' hd' hf'
        have w2 := hi.wf fs' w'
        have hp2 := hi.dirs fs' parent hd'
        have hf2 := hi.files fs' hf'
        by_cases hex : interfere fs' (n :: parent) = none
        · have hdeny := hd (n :: parent) hr
          have hm : mkdir deny (interfere fs') (n :: parent) = (add (interfere fs') (n :: parent) .dir, .ok ()) := by
            simp [mkdir, hex, hp2, hdeny]
          have s := safe_mkdir deny (interfere fs') (n :: parent)
          rw [hm] at s
          simp only [hm]
          refine ⟨trivial, s.wf w2, by simp [add], fun q hq => ?_⟩
          simp only [add]
          split
          · simp
          · exact hf2 q hq
        · have hdir : interfere fs' (n :: parent) = some .dir := by
            have := hf2 (n :: parent) hr
            cases hh : interfere fs' (n :: parent) with
            | none => exact absurd hh hex
            | some e => cases e with
              | dir => rfl
              | file => exact absurd hh this
          have hm : mkdir deny (interfere fs') (n :: parent) = (interfere fs', .error .fileExistsError) := by
            simp [mkdir, hdir]
          simp only [hm, if_pos hdir]
          exact ⟨trivial, w2, hdir, hf2⟩
      by_cases hpn : fs parent = none
      · obtain ⟨i1, i2, i3, i4⟩ := ih hpar (fun q hq => hsub q (ancestor_cons.mpr (Or.inr hq))) fs w hf
        rcases hrec : makedirsOk deny interfere fs parent with ⟨fs', res⟩
        rw [hrec] at i1 i2 i3 i4
        simp only at i1 i2 i3 i4
        subst i1
        have := fin fs' i2 i3 i4
        simp only [makedirsOk, if_pos hpn, hrec]
        exact this
      · have hpd : fs parent = some .dir := by
          have := hf parent hpar
          cases hh : fs parent with
          | none => exact absurd hh hpn
          | some e => cases e with
            | dir => rfl
            | file => exact absurd hh this
        have := fin fs w hpd hf
        simp only [makedirsOk, if_neg hpn]
        exact this
  obtain ⟨h1, h2, h3, -⟩ := main p (Or.inl rfl) (fun _ h => h) fs w hf
  refine ⟨h1, h2, ?_⟩
  rintro q (rfl | hq)
  · exact h3
  · exact ancestors_dir h2 (by rw [h3]; simp) hq

/-- **C105 (idempotent).** Without interference, a second call succeeds and changes nothing. -/
theorem C105_idempotent (deny : Path → Bool) (fs : FS) (w : WF fs) (p : Path) (hp : fs p = some .dir) :
    mkdirp deny id fs p = (fs, .ok ()) := by
  cases p with
  | nil => simp [mkdirp, makedirsOk, w.1]
  | cons n parent =>
    have hpar : fs parent = some .dir := w.2 n parent (by rw [hp]; simp)
    simp [mkdirp, makedirsOk, hpar, mkdir, hp]

/-- **C105 (a file in the way).** If the path is a file, `mkdirp` raises and changes nothing. -/
theorem C105_file (deny : Path → Bool) (fs : FS) (w : WF fs) (p : Path) (hp : fs p = some .file) :
    mkdirp deny id fs p = (fs, .error .fileExistsError) := by
  cases p with
  | nil => rw [w.1] at hp; cases hp
  | cons n parent =>
    have hpar : fs parent = some .dir := w.2 n parent (by rw [hp]; simp)
    simp [mkdirp, makedirsOk, hpar, mkdir, hp]

/-- Another program that creates a directory below the root. -/
private def creator (s : String) (fs : FS) : FS := if fs [s] = none then add fs [s] .dir else fs

-- C105: interference which creates the very directory is friendly
example (s : String) : Friendly (creator s) fun q => q = [s] ∨ Ancestor q [s] := by
  constructor
  · intro fs w
    unfold creator
    split
    · rename_i h
      constructor
      · simp [add, w.1]
      · intro n q hq
        simp only [add] at hq ⊢
        by_cases e : q = [s]
        · subst e
          simp only [List.cons.injEq, reduceCtorEq, and_false, if_false] at hq
          have := w.2 n [s] hq
          rw [h] at this; cases this
        · rw [if_neg e]
          by_cases e2 : n :: q = [s]
          · simp only [List.cons.injEq] at e2
            rw [e2.2]; exact w.1
          · rw [if_neg e2] at hq; exact w.2 n q hq
    · exact w
  · intro fs q h
    unfold creator
    split
    · simp only [add]; split
      · rfl
      · exact h
    · exact h
  · intro fs h q hq
    unfold creator
    split
    · simp only [add]; split
      · simp
      · exact h q hq
    · exact h q hq

end Mkdirp
end RMT.Props
