import Verif.Lemmas.TrimIter

/-!
# Properties C24-C29: trimming

`hbos` is an arbitrary outlier detector (one flag per eigenvalue).  `true` = "outlier".
`l <:+: l'` says that `l` is a contiguous block of `l'`, `<+:` an initial, `<:+` a final one.
-/

set_option linter.unusedSectionVars false

namespace RMT
namespace Props
open Trim Utils EigValsM Spec

/-- **C24 (exact labels).** For every non-empty list of detector flags, labels are produced, one per eigenvalue:
* if everything is flagged, or neither end is flagged, nothing is labelled an outlier;
* if the first is flagged (and not everything), the outliers are exactly the initial run of flags;
* if the first is not flagged and the last is, the outliers are exactly the final run of flags. -/
theorem C24_labels (flags : List Bool) (hne : flags ≠ []) :
    ∃ r, outlierLabels flags = .ok r ∧ r.length = flags.length ∧
      ((∀ b ∈ flags, b = true) → ∀ b ∈ r, b = false) ∧
      (flags.head hne = false → flags.getLast hne = false → ∀ b ∈ r, b = false) ∧
      ((∃ b ∈ flags, b = false) → flags.head hne = true →
        ∀ i (h : i < r.length), (r[i] = true ↔ ∀ b ∈ flags.take (i + 1), b = true)) ∧
      (flags.head hne = false → flags.getLast hne = true →
        ∀ i (h : i < r.length), (r[i] = true ↔ ∀ b ∈ flags.drop i, b = true)) := by
  have hlen : 0 < flags.length := List.length_pos_iff.mpr hne
  obtain ⟨r, h1, h2, h3⟩ := outlierLabels_ok flags hne
  have hhead : flags.head hne = flags[0] := by rw [List.head_eq_getElem]
  have hlast : flags.getLast hne = flags[flags.length - 1] := by rw [List.getLast_eq_getElem]
  have htake : ∀ i, (∀ b ∈ flags.take (i + 1), b = true) ↔
      ∀ j (h : j < flags.length), j ≤ i → flags[j] = true := by
    intro i
    constructor
    · intro h j hj hji
      exact h _ (List.mem_take_iff_getElem.mpr ⟨j, by omega, rfl⟩)
    · intro h b hb
      obtain ⟨j, hj, rfl⟩ := List.mem_take_iff_getElem.mp hb
      exact h j (by omega) (by omega)
  have hdrop : ∀ i, (∀ b ∈ flags.drop i, b = true) ↔
      ∀ j (h : j < flags.length), i ≤ j → flags[j] = true := by
    intro i
    constructor
    · intro h j hj hji
      exact h _ (List.mem_drop_iff_getElem.mpr ⟨j - i, by omega, by congr 1; omega⟩)
    · intro h b hb
      obtain ⟨j, hj, rfl⟩ := List.mem_drop_iff_getElem.mp hb
      exact h (i + j) (by omega) (by omega)
  refine ⟨r, h1, h2, ?_, ?_, ?_, ?_⟩
  · intro hall b hb
    obtain ⟨i, hi, rfl⟩ := List.mem_iff_getElem.mp hb
    by_contra hc
    obtain ⟨⟨m, hm, hmf⟩, -⟩ := (h3 i hi).mp (by simpa using hc)
    rw [hall _ (List.getElem_mem hm)] at hmf
    cases hmf
  · intro hf hl b hb
    rw [hhead] at hf
    rw [hlast] at hl
    obtain ⟨i, hi, rfl⟩ := List.mem_iff_getElem.mp hb
    by_contra hc
    obtain ⟨-, h | ⟨-, h⟩⟩ := (h3 i hi).mp (by simpa using hc)
    · have := h 0 hlen (by omega)
      rw [hf] at this; cases this
    · have := h (flags.length - 1) (by omega) (by omega)
      rw [hl] at this; cases this
  · rintro ⟨b, hb, hbf⟩ hf i hi
    rw [hhead] at hf
    rw [h3 i hi, htake]
    obtain ⟨m, hm, rfl⟩ := List.mem_iff_getElem.mp hb
    constructor
    · rintro ⟨-, h | ⟨h, -⟩⟩
      · exact h
      · have := h hlen
        rw [hf] at this; cases this
    · intro h
      exact ⟨⟨m, hm, hbf⟩, Or.inl h⟩
  · intro hf hl i hi
    rw [hhead] at hf
    rw [h3 i hi, hdrop]
    constructor
    · rintro ⟨-, h | ⟨-, h⟩⟩
      · have := h 0 hlen (by omega)
        rw [hf] at this; cases this
      · exact h
    · intro h
      exact ⟨⟨0, hlen, hf⟩, Or.inr ⟨fun _ => hf, h⟩⟩

/-- **C24 (shape).** The final labels are `lo` outliers, then `keep ≥ 1` inliers, then `hi` outliers, with `lo = 0` or
`hi = 0`. -/
theorem C24_one_end (flags : List Bool) (hne : flags ≠ []) :
    ∃ lo keep hi, 0 < keep ∧ (lo = 0 ∨ hi = 0) ∧ lo + keep + hi = flags.length ∧
      outlierLabels flags =
        .ok (List.replicate lo true ++ List.replicate keep false ++ List.replicate hi true) :=
  outlierLabels_block flags hne

/-- Non-vacuity for C24: both ends and the middle are flagged; only the lower run is kept. -/
example : outlierLabels [true, true, false, true, false, true] =
    .ok [true, true, false, false, false, false] := by
  obtain ⟨r, h1, h2, -, -, h3, -⟩ := C24_labels [true, true, false, true, false, true] (by simp)
  rw [h1]
  congr 1
  have h4 := h3 ⟨false, by simp, rfl⟩ rfl
  have hl : r.length = 6 := h2
  apply List.ext_getElem hl
  intro i hi hi'
  have hi6 : i < 6 := hi'
  rw [Bool.eq_iff_iff, h4 i hi]
  interval_cases i <;> simp

variable {α : Type} [LinearOrder α]

/-- What the modelled `TrimReport` computes, for every detector with one flag per eigenvalue. -/
private theorem trimIters_ok (hbos : List α → List Bool) (hlen : ∀ l, (hbos l).length = l.length)
    (eigenvalues : List α) (hne : eigenvalues ≠ []) (maxTrim : ℚ) (maxIters : Nat) :
    ∃ t l, trimIters hbos eigenvalues maxTrim maxIters = .ok (t :: l) ∧
      t.id = 0 ∧ t.origs = npSort eigenvalues ∧ t.eigs = npSort eigenvalues ∧ Good hbos t ∧
      l.length ≤ maxIters ∧
      (∀ i (h : i + 1 < (t :: l).length),
        Next hbos ((t :: l)[i]'(by omega)) (t :: l)[i + 1] ∧
        ((t :: l)[i + 1]).proportionRemoved ≤ maxTrim ∧
        (i + 2 < (t :: l).length → ((t :: l)[i + 1]).isAllInliers = false)) ∧
      (l.length < maxIters → (l ≠ [] ∧ ((t :: l).getLast (by simp)).isAllInliers = true) ∨
        ∃ t', Next hbos ((t :: l).getLast (by simp)) t' ∧ maxTrim < t'.proportionRemoved) := by
  have hs : npSort eigenvalues ≠ [] := by
    intro h
    have := npSort_perm eigenvalues
    rw [h] at this
    exact hne (List.nil_perm.mp this)
  obtain ⟨t, h1, h2, h3, h4, h5⟩ := mkIter_ok hbos hlen (npSort eigenvalues) (npSort eigenvalues) hs
  obtain ⟨l, g1, g2, g3, g4⟩ := trimLoop_ok hbos hlen maxTrim maxIters t h5
  refine ⟨t, l, ?_, h2, h3, h4, h5, g2, g3, g4⟩
  simp only [trimIters, h1, g1, bind, Except.bind, pure, Except.pure]

/-- **C25.** Every trim iteration of a `TrimReport` is a non-empty contiguous block of the sorted input; the first is the whole
sorted input; every other one arises from its predecessor by removing values from one end only (it is a
final or an initial segment of it). -/
theorem C25_nested_blocks (hbos : List α → List Bool) (hlen : ∀ l, (hbos l).length = l.length)
    (eigenvalues : List α) (hne : eigenvalues ≠ []) (maxTrim : ℚ) (maxIters : Nat) :
    ∃ iters, trimIters hbos eigenvalues maxTrim maxIters = .ok iters ∧
      (∀ h : 0 < iters.length, iters[0].eigs = npSort eigenvalues) ∧ 0 < iters.length ∧
      (∀ t ∈ iters, t.origs = npSort eigenvalues ∧ t.eigs ≠ [] ∧ t.eigs <:+: npSort eigenvalues ∧
        Ascending t.eigs) ∧
      (∀ i (h : i + 1 < iters.length), iters[i + 1].eigs <+: (iters[i]'(by omega)).eigs ∨
        iters[i + 1].eigs <:+ (iters[i]'(by omega)).eigs) := by
  obtain ⟨t, l, h1, h2, h3, h4, h5, h6, h7, h8⟩ := trimIters_ok hbos hlen eigenvalues hne maxTrim maxIters
  have hstep : ∀ i (h : i + 1 < (t :: l).length),
      (t :: l)[i + 1].eigs <+: ((t :: l)[i]'(by omega)).eigs ∨
      (t :: l)[i + 1].eigs <:+ ((t :: l)[i]'(by omega)).eigs := by
    intro i h
    obtain ⟨hn, -, -⟩ := h7 i h
    have hgood : Good hbos ((t :: l)[i]'(by omega)) := by
      cases i with
      | zero => exact h5
      | succ i => exact (h7 i (by omega)).1.good
    obtain ⟨lo, keep, hi, hk, hz, hsum, hin, -⟩ := inliers_block hbos hlen _ hgood
    rw [hn.eigs, hin]
    rcases hz with rfl | rfl
    · left
      rw [List.drop_zero]
      exact List.take_prefix _ _
    · right
      rw [List.take_of_length_le (by rw [List.length_drop]; omega)]
      exact List.drop_suffix _ _
  have hall : ∀ i (h : i < (t :: l).length), ((t :: l)[i]).origs = npSort eigenvalues ∧
      ((t :: l)[i]).eigs ≠ [] ∧ ((t :: l)[i]).eigs <:+: npSort eigenvalues := by
    intro i
    induction i with
    | zero => intro _; exact ⟨h3, h5.ne, by rw [List.getElem_cons_zero, h4]⟩
    | succ i ih =>
      intro h
      obtain ⟨hn, -, -⟩ := h7 i h
      have ih' := ih (by omega)
      refine ⟨hn.origs.trans ih'.1, hn.good.ne, ?_⟩
      rcases hstep i h with hs | hs
      · exact hs.isInfix.trans ih'.2.2
      · exact hs.isInfix.trans ih'.2.2
  refine ⟨t :: l, h1, fun _ => h4, by simp, ?_, hstep⟩
  intro t' ht'
  obtain ⟨i, hi, rfl⟩ := List.mem_iff_getElem.mp ht'
  have := hall i hi
  exact ⟨this.1, this.2.1, this.2.2, (npSort_ascending eigenvalues).sublist this.2.2.sublist⟩

/-- **C25 (empty input).** An empty spectrum raises. -/
theorem C25_empty (hbos : List α → List Bool) (hlen : ∀ l, (hbos l).length = l.length) (maxTrim : ℚ)
    (maxIters : Nat) : trimIters hbos ([] : List α) maxTrim maxIters = .error .indexError := by
  have h0 : npSort ([] : List α) = [] := by simp [npSort]
  have : hbos [] = [] := List.length_eq_zero_iff.mp (by rw [hlen]; rfl)
  simp [trimIters, mkIter, h0, this, outlierLabels_nil, bind, Except.bind]

/-- **C26.** There are at most `max_iters + 1` iterations, numbered `0, 1, 2, …`; no iteration after the first has removed more than
the fraction `max_trim` of the input. The list ends early (before `max_iters + 1` iterations) only because
its last iteration (not the untrimmed one) has no outliers, or because the next one would remove more
than `max_trim`. -/
theorem C26_limits (hbos : List α → List Bool) (hlen : ∀ l, (hbos l).length = l.length)
    (eigenvalues : List α) (hne : eigenvalues ≠ []) (maxTrim : ℚ) (maxIters : Nat) :
    ∃ iters, ∃ hi : iters ≠ [], trimIters hbos eigenvalues maxTrim maxIters = .ok iters ∧
      iters.length ≤ maxIters + 1 ∧
      (∀ i (h : i < iters.length), iters[i].id = i) ∧
      (∀ i (h : i < iters.length), 0 < i →
        ((eigenvalues.length : ℚ) - iters[i].eigs.length) / eigenvalues.length ≤ maxTrim) ∧
      (iters.length < maxIters + 1 →
        (1 < iters.length ∧ ∀ b ∈ (iters.getLast hi).clusters, b = false) ∨
        maxTrim < ((eigenvalues.length : ℚ) - (iters.getLast hi).inliers.length) / eigenvalues.length) := by
  obtain ⟨t, l, h1, h2, h3, h4, h5, h6, h7, h8⟩ := trimIters_ok hbos hlen eigenvalues hne maxTrim maxIters
  have hpos : (0 : ℚ) < (eigenvalues.length : ℚ) := by
    exact_mod_cast List.length_pos_iff.mpr hne
  have horig : ∀ i (h : i < (t :: l).length), ((t :: l)[i]).origs.length = eigenvalues.length := by
    intro i
    induction i with
    | zero => intro _; rw [List.getElem_cons_zero, h3]; exact (npSort_perm _).length_eq
    | succ i ih => intro h; rw [(h7 i h).1.origs]; exact ih (by omega)
  have hprop : ∀ (t' : Iter α), t'.origs.length = eigenvalues.length →
      t'.proportionRemoved = ((eigenvalues.length : ℚ) - t'.eigs.length) / eigenvalues.length := by
    intro t' h
    rw [Iter.proportionRemoved, h]
    field_simp
  refine ⟨t :: l, by simp, h1, by simpa using h6, ?_, ?_, ?_⟩
  · intro i
    induction i with
    | zero => intro _; exact h2
    | succ i ih => intro h; rw [(h7 i h).1.id, ih (by omega)]
  · intro i h hi
    obtain ⟨i, rfl⟩ : ∃ j, i = j + 1 := ⟨i - 1, by omega⟩
    rw [← hprop _ (horig _ h)]
    exact (h7 i h).2.1
  · intro h
    rcases h8 (by simpa using h) with ⟨h9, h10⟩ | ⟨t', h9, h10⟩
    · left
      refine ⟨by simpa [List.length_pos_iff] using h9, ?_⟩
      intro b hb
      have := List.all_eq_true.mp h10 b hb
      simpa using this
    · right
      rw [hprop t' ?_, h9.eigs] at h10
      · exact h10
      · rw [h9.origs, List.getLast_eq_getElem]
        exact horig _ _

/-- **C26 (no trimming).** `max_iters = 0` gives exactly the untrimmed iteration. -/
theorem C26_zero (hbos : List α → List Bool) (hlen : ∀ l, (hbos l).length = l.length)
    (eigenvalues : List α) (hne : eigenvalues ≠ []) (maxTrim : ℚ) :
    ∃ t, trimIters hbos eigenvalues maxTrim 0 = .ok [t] ∧ t.eigs = npSort eigenvalues := by
  obtain ⟨t, l, h1, h2, h3, h4, h5, h6, -⟩ := trimIters_ok hbos hlen eigenvalues hne maxTrim 0
  have : l = [] := List.length_eq_zero_iff.mp (by omega)
  subst this
  exact ⟨t, h1, h4⟩

/-- Non-vacuity for C25/C26: a detector that flags the smallest value of lists longer than 2 (one flag per value). -/
example : ∀ l : List ℚ, ((l.zipIdx.map fun p => decide (p.2 = 0) && decide (2 < l.length)) : List Bool).length =
    l.length := by simp

/-! ### C27-C29 -/

private theorem pos_of_infix {e o : List α} (h : e <:+: o) (_hne : e ≠ []) :
    ∃ a, ∃ _ : a + e.length ≤ o.length, e = (o.drop a).take e.length := by
  obtain ⟨s, u, rfl⟩ := h
  refine ⟨s.length, by simp, ?_⟩
  simp

/-- **C27 (what trim_indices is).** For an ascending spectrum and a non-empty contiguous block of it, `trim_indices`
is `(start, end)` with `end` inclusive: the slice `[start : end + 1]` consists exactly of the original values between the
smallest and the largest kept value. -/
theorem C27_inclusive (t : Iter α) (ho : Ascending t.origs) (hne : t.eigs ≠ []) (hinf : t.eigs <:+: t.origs) :
    ∃ s e : Nat, t.trimIndices = .ok ((s : Int), (e : Int)) ∧ s ≤ e ∧ e < t.origs.length ∧
      pySlice t.origs s (e + 1) =
        t.origs.filter fun v => decide (t.eigs.head hne ≤ v ∧ v ≤ t.eigs.getLast hne) := by
  have hlen : 0 < t.eigs.length := List.length_pos_iff.mpr hne
  have hasc : Ascending t.eigs := ho.sublist hinf.sublist
  have hh : t.eigs.head hne ∈ t.origs := hinf.subset (List.head_mem hne)
  have hl : t.eigs.getLast hne ∈ t.origs := hinf.subset (List.getLast_mem hne)
  have hle : t.eigs.head hne ≤ t.eigs.getLast hne := by
    rw [List.head_eq_getElem, List.getLast_eq_getElem]
    exact hasc.le _ _ _ _ (by omega)
  rcases C06_find_first t.origs (t.eigs.head hne) with ⟨hc, -⟩ | ⟨s, hs, hff, hse, hsmin⟩
  · exact absurd hh hc
  rcases C06_find_last t.origs (t.eigs.getLast hne) with ⟨hc, -⟩ | ⟨e, he, hfl, hee, hemax⟩
  · exact absurd hl hc
  have hse' : s ≤ e := by
    by_contra hc
    have h1 := ho.le e s he hs (by omega)
    rw [hse, hee] at h1
    have h2 : t.eigs.getLast hne = t.eigs.head hne := le_antisymm h1 hle
    exact hsmin e he (by omega) (by rw [hee, h2])
  refine ⟨s, e, ?_, hse', he, ?_⟩
  · rw [← hff, ← hfl]
    simp only [Iter.trimIndices, pyGet_zero _ hlen, pyGet_neg_one _ hlen, bind, Except.bind, pure,
      Except.pure, List.head_eq_getElem, List.getLast_eq_getElem]
  · have hb1 : pyBound t.origs.length ((e : Int) + 1) = e + 1 := by
      simp only [pyBound]
      rw [if_neg (by omega), if_neg (by omega), if_neg (by omega)]
      omega
    have hb2 : pyBound t.origs.length (s : Int) = s := by
      simp only [pyBound]
      rw [if_neg (by omega), if_neg (by omega), if_neg (by omega)]
      omega
    rw [pySlice, hb1, hb2]
    have hsplit : t.origs = t.origs.take s ++ ((t.origs.take (e + 1)).drop s ++ t.origs.drop (e + 1)) := by
      conv_lhs => rw [← List.take_append_drop (e + 1) t.origs, ← List.take_append_drop s (t.origs.take (e + 1))]
      rw [List.take_take, min_eq_left (by omega), List.append_assoc]
    conv_rhs => rw [hsplit]
    rw [List.filter_append, List.filter_append, List.filter_eq_nil_iff.mpr, List.filter_eq_self.mpr,
      List.filter_eq_nil_iff.mpr, List.nil_append, List.append_nil]
    · intro a ha
      obtain ⟨i, hi, rfl⟩ := List.mem_drop_iff_getElem.mp ha
      rw [decide_eq_true_iff]
      rintro ⟨-, h⟩
      have h1 := ho.le e (e + 1 + i) he (by omega) (by omega)
      rw [hee] at h1
      exact hemax (e + 1 + i) (by omega) (by omega) (le_antisymm h h1)
    · intro a ha
      obtain ⟨i, hi, rfl⟩ := List.mem_drop_iff_getElem.mp ha
      rw [List.length_take] at hi
      rw [decide_eq_true_iff, List.getElem_take, ← hse, ← hee]
      exact ⟨ho.le _ _ _ _ (by omega), ho.le _ _ _ _ (by omega)⟩
    · intro a ha
      obtain ⟨i, hi, rfl⟩ := List.mem_take_iff_getElem.mp ha
      rw [decide_eq_true_iff]
      rintro ⟨h, -⟩
      have h1 := ho.le i s (by omega) hs (by omega)
      rw [hse] at h1
      exact hsmin i (by omega) (by omega) (le_antisymm h1 h)

private theorem block_indices (t : Iter α) (ho : t.origs.Pairwise (· < ·)) (hne : t.eigs ≠ [])
    (a : Nat) (ha : a + t.eigs.length ≤ t.origs.length)
    (he : t.eigs = (t.origs.drop a).take t.eigs.length) :
    findFirst t.origs (t.eigs.head hne) = (a : Int) ∧
      findLast t.origs (t.eigs.getLast hne) = ((a + t.eigs.length - 1 : Nat) : Int) := by
  have hlen : 0 < t.eigs.length := List.length_pos_iff.mpr hne
  have hinj : ∀ i j (hi : i < t.origs.length) (hj : j < t.origs.length), t.origs[i] = t.origs[j] → i = j := by
    intro i j hi hj h
    rcases Nat.lt_trichotomy i j with h' | h' | h'
    · exact absurd h (List.pairwise_iff_getElem.mp ho i j hi hj h').ne
    · exact h'
    · exact absurd h (List.pairwise_iff_getElem.mp ho j i hj hi h').ne'
  have hget : ∀ i (hi : i < t.eigs.length), t.eigs[i] = t.origs[a + i]'(by omega) := by
    intro i hi
    have := List.getElem_of_eq he hi
    rw [this, List.getElem_take, List.getElem_drop]
  have hhead : t.eigs.head hne = t.origs[a]'(by omega) := by
    rw [List.head_eq_getElem, hget 0 hlen]; rfl
  have hlast : t.eigs.getLast hne = t.origs[a + t.eigs.length - 1]'(by omega) := by
    rw [List.getLast_eq_getElem, hget _ (by omega)]
    congr 1
    omega
  constructor
  · rcases C06_find_first t.origs (t.eigs.head hne) with ⟨hc, -⟩ | ⟨s, hs, hff, hse, -⟩
    · exact absurd (hhead ▸ List.getElem_mem _) hc
    · rw [hff]
      rw [hhead] at hse
      rw [hinj s a hs (by omega) hse]
  · rcases C06_find_last t.origs (t.eigs.getLast hne) with ⟨hc, -⟩ | ⟨s, hs, hff, hse, -⟩
    · exact absurd (hlast ▸ List.getElem_mem _) hc
    · rw [hff]
      rw [hlast] at hse
      rw [hinj s _ hs (by omega) hse]

/-- **C27 (partial).** For strictly ascending spectra the documented slice needs `end + 1`: `eigs[start : end + 1]` is the trimmed spectrum
(and `eigs[start : end]`, as documented, is always missing exactly the largest value). Missing: the documented equation
`eigs[start:end] = trimmed`, which is false (`C27_refuted`). -/
theorem C27_trim_indices_partial (t : Iter α) (ho : t.origs.Pairwise (· < ·)) (hne : t.eigs ≠ [])
    (hinf : t.eigs <:+: t.origs) :
    ∃ s e : Int, t.trimIndices = .ok (s, e) ∧ pySlice t.origs s (e + 1) = t.eigs ∧
      pySlice t.origs s e = t.eigs.dropLast := by
  have hlen : 0 < t.eigs.length := List.length_pos_iff.mpr hne
  obtain ⟨a, ha, he⟩ := pos_of_infix hinf hne
  obtain ⟨h1, h2⟩ := block_indices t ho hne a ha he
  have hsl : ∀ m : Nat, m ≤ t.eigs.length → pySlice t.origs (a : Int) ((a + m : Nat) : Int) = t.eigs.take m := by
    intro m hm
    have hb1 : pyBound t.origs.length ((a + m : Nat) : Int) = a + m := by
      simp only [pyBound]
      rw [if_neg (by omega), if_neg (by omega), if_neg (by omega)]
      omega
    have hb2 : pyBound t.origs.length (a : Int) = a := by
      simp only [pyBound]
      rw [if_neg (by omega), if_neg (by omega), if_neg (by omega)]
      omega
    rw [pySlice, hb1, hb2, List.drop_take]
    conv_rhs => rw [he, List.take_take, min_eq_left hm]
    congr 1
    omega
  refine ⟨a, ((a + t.eigs.length - 1 : Nat) : Int), ?_, ?_, ?_⟩
  · rw [← h1, ← h2]
    simp only [Iter.trimIndices, pyGet_zero _ hlen, pyGet_neg_one _ hlen, bind, Except.bind, pure,
      Except.pure, List.head_eq_getElem, List.getLast_eq_getElem]
  · have := hsl t.eigs.length (le_refl _)
    rw [List.take_length] at this
    refine Eq.trans ?_ this
    congr 1
    omega
  · have := hsl (t.eigs.length - 1) (by omega)
    rw [List.dropLast_eq_take, ← this]
    congr 1
    omega

/-- **C27 (refutation).** `eigs[start:end]` is not the trimmed spectrum, even when nothing is trimmed. -/
theorem C27_refuted :
    ¬ ∀ (t : Iter ℚ) (s e : Int), Ascending t.origs → t.eigs ≠ [] → t.eigs <:+: t.origs →
      t.trimIndices = .ok (s, e) → pySlice t.origs s e = t.eigs := by
  intro h
  obtain ⟨s, e, h1, -, h3⟩ := C27_trim_indices_partial (⟨0, [1, 2, 3], [1, 2, 3], []⟩ : Iter ℚ)
    (by simp; norm_num) (by simp) (List.infix_refl _)
  have := h ⟨0, [1, 2, 3], [1, 2, 3], []⟩ s e (by simp [Ascending]; norm_num) (by simp)
    (List.infix_refl _) h1
  rw [h3] at this
  simp at this

/-- **C28.** For strictly ascending spectra, number trimmed below + number kept + number trimmed above = total. -/
theorem C28_trim_amounts (t : Iter α) (ho : t.origs.Pairwise (· < ·)) (hne : t.eigs ≠ [])
    (hinf : t.eigs <:+: t.origs) :
    ∃ lo up : Int, t.lowerTrimLength = .ok lo ∧ t.upperTrimLength = .ok up ∧ 0 ≤ lo ∧ 0 ≤ up ∧
      lo + t.eigs.length + up = t.origs.length := by
  have hlen : 0 < t.eigs.length := List.length_pos_iff.mpr hne
  obtain ⟨a, ha, he⟩ := pos_of_infix hinf hne
  obtain ⟨h1, h2⟩ := block_indices t ho hne a ha he
  rw [List.head_eq_getElem] at h1
  rw [List.getLast_eq_getElem] at h2
  refine ⟨a, (t.origs.length : Int) - 1 - ((a + t.eigs.length - 1 : Nat) : Int),
    by simp only [Iter.lowerTrimLength, pyGet_zero _ hlen, bind, Except.bind, pure, Except.pure, h1],
    by simp only [Iter.upperTrimLength, pyGet_neg_one _ hlen, bind, Except.bind, pure, Except.pure, h2], ?_, ?_, ?_⟩
  · omega
  · omega
  · omega

/-- **C28 (ties).** In general (ties allowed) the reported amounts never exceed the true ones:
their sum with the number kept is at most the total. -/
theorem C28_trim_amounts_ties (t : Iter α) (hne : t.eigs ≠ []) (hinf : t.eigs <:+: t.origs) :
    ∃ lo up : Int, t.lowerTrimLength = .ok lo ∧ t.upperTrimLength = .ok up ∧ 0 ≤ lo ∧ 0 ≤ up ∧
      lo + t.eigs.length + up ≤ t.origs.length := by
  have hlen : 0 < t.eigs.length := List.length_pos_iff.mpr hne
  obtain ⟨a, ha, he⟩ := pos_of_infix hinf hne
  have hget : ∀ i (hi : i < t.eigs.length), t.eigs[i] = t.origs[a + i]'(by omega) := by
    intro i hi
    have := List.getElem_of_eq he hi
    rw [this, List.getElem_take, List.getElem_drop]
  rcases C06_find_first t.origs (t.eigs[0]) with ⟨hc, -⟩ | ⟨s, hs, hff, hse, hsm⟩
  · exact absurd (hinf.subset (List.getElem_mem _)) hc
  rcases C06_find_last t.origs (t.eigs[t.eigs.length - 1]) with ⟨hc, -⟩ | ⟨e, hes, hfl, hee, hem⟩
  · exact absurd (hinf.subset (List.getElem_mem _)) hc
  have h1 : s ≤ a := by
    by_contra hc
    exact hsm a (by omega) (by omega) (by rw [hget 0 hlen]; rfl)
  have h2 : a + t.eigs.length - 1 ≤ e := by
    by_contra hc
    refine hem (a + t.eigs.length - 1) (by omega) (by omega) ?_
    rw [hget _ (by omega)]
    congr 1
    omega
  refine ⟨s, (t.origs.length : Int) - 1 - (e : Int),
    by simp only [Iter.lowerTrimLength, pyGet_zero _ hlen, bind, Except.bind, pure, Except.pure, hff],
    by simp only [Iter.upperTrimLength, pyGet_neg_one _ hlen, bind, Except.bind, pure, Except.pure, hfl], ?_, ?_, ?_⟩
  · omega
  · omega
  · omega

/-- Non-vacuity for C27/C28. -/
example : ([(2:ℚ), 3] <:+: [1, 2, 3, 4]) ∧ [(1:ℚ), 2, 3, 4].Pairwise (· < ·) := by
  refine ⟨⟨[1], [4], by simp⟩, by simp; norm_num⟩

/-- **C29.** `use_trim_iteration(i)` on the iterations of a report: for `0 ≤ i < n` it returns the eigenvalues of iteration `i`, for
`-n ≤ i < 0` those of iteration `n + i`; for `i ≥ n` it raises `ValueError`, for `i < -n`
`IndexError`. -/
theorem C29_use_iteration (iters : List (Iter α)) (hs : ∀ t ∈ iters, Ascending t.eigs) (i : Int) :
    (∀ k (h : k < iters.length), i = k → useTrimIteration iters i = .ok iters[k].eigs) ∧
    (∀ k (h : k < iters.length), i = (k : Int) - iters.length →
      useTrimIteration iters i = .ok iters[k].eigs) ∧
    ((iters.length : Int) ≤ i → useTrimIteration iters i = .error .valueError) ∧
    (i < -(iters.length : Int) → useTrimIteration iters i = .error .indexError) := by
  have hok : ∀ k (h : k < iters.length), pyIdx iters.length i = some k → i ≤ (iters.length : Int) - 1 →
      useTrimIteration iters i = .ok iters[k].eigs := by
    intro k h hidx hle
    unfold useTrimIteration
    rw [if_neg (by omega)]
    simp only [pyGet, hidx, List.getElem?_eq_getElem h, bind, Except.bind, initEigVals1d_ok, pure, Except.pure]
    rw [npSort_of_ascending _ (hs _ (List.getElem_mem h))]
  refine ⟨fun k h hk => hok k h ?_ (by omega), fun k h hk => hok k h ?_ (by omega), fun h => ?_, fun h => ?_⟩
  · subst hk; simp [pyIdx, h]
  · unfold pyIdx
    rw [if_neg (by omega), if_pos (by omega)]
    congr 1
    omega
  · unfold useTrimIteration
    rw [if_pos (by omega)]
  · unfold useTrimIteration
    rw [if_neg (by omega)]
    have : pyIdx iters.length i = none := by
      unfold pyIdx
      rw [if_neg (by omega), if_neg (by omega)]
    simp [pyGet, this, bind, Except.bind]

/-- Non-vacuity for C29. -/
example : useTrimIteration [(⟨0, [1, 2, 3], [1, 2, 3], []⟩ : Iter ℚ), ⟨1, [1, 2, 3], [2, 3], []⟩] (-1) =
    .ok [2, 3] := by
  refine (C29_use_iteration _ ?_ (-1)).2.1 1 (by simp) (by simp)
  intro t ht
  simp at ht
  rcases ht with rfl | rfl <;> simp [Ascending] <;> norm_num

end Props
end RMT
