import Verif.Lemmas.Trim

/-! # Lemmas on the sequence of trim iterations -/

set_option linter.unusedSectionVars false

namespace RMT
namespace Trim
open Utils EigValsM Spec

/-- The labels are `lo` outliers, `keep > 0` inliers, `hi` outliers, with `lo = 0` or `hi = 0`. -/
theorem outlierLabels_block (flags : List Bool) (hne : flags ≠ []) :
    ∃ lo keep hi, 0 < keep ∧ (lo = 0 ∨ hi = 0) ∧ lo + keep + hi = flags.length ∧
      outlierLabels flags = .ok (List.replicate lo true ++ List.replicate keep false ++ List.replicate hi true) := by
  obtain ⟨r, h1, h2, h3⟩ := outlierLabels_ok flags hne
  have hlen : 0 < flags.length := List.length_pos_iff.mpr hne
  have main : ∃ lo keep hi, 0 < keep ∧ (lo = 0 ∨ hi = 0) ∧ lo + keep + hi = flags.length ∧
      ∀ i, i < flags.length → (finalLabel flags i ↔ i < lo ∨ lo + keep ≤ i) := by
    rcases Props.C06_find_first flags false with ⟨hnone, -⟩ | ⟨s, hs, -, hsf, hsmin⟩
    · refine ⟨0, flags.length, 0, hlen, Or.inl rfl, by omega, fun i hi => ?_⟩
      constructor
      · rintro ⟨⟨m, hm, hmf⟩, -⟩
        exact absurd (List.mem_iff_getElem.mpr ⟨m, hm, hmf⟩) hnone
      · intro h; omega
    · rcases Props.C06_find_last flags false with ⟨hn, -⟩ | ⟨t, ht, -, htf, htmax⟩
      · exact absurd (List.mem_iff_getElem.mpr ⟨s, hs, hsf⟩) hn
      · by_cases hfirst : flags[0] = true
        · refine ⟨s, flags.length - s, 0, by omega, Or.inr rfl, by omega, fun i hi => ?_⟩
          constructor
          · rintro ⟨-, h | ⟨h, -⟩⟩
            · left
              by_contra hc
              have := h s hs (by omega)
              rw [hsf] at this; cases this
            · have := h hlen
              rw [hfirst] at this; cases this
          · intro h
            have his : i < s := by omega
            exact ⟨⟨s, hs, hsf⟩, Or.inl fun j hj hji => by simpa using hsmin j hj (by omega)⟩
        · have hfirst' : flags[0] = false := by simpa using hfirst
          refine ⟨0, t + 1, flags.length - 1 - t, by omega, Or.inl rfl, by omega, fun i hi => ?_⟩
          constructor
          · rintro ⟨-, h | ⟨-, h⟩⟩
            · have := h 0 hlen (by omega)
              rw [hfirst'] at this; cases this
            · right
              by_contra hc
              have := h t ht (by omega)
              rw [htf] at this; cases this
          · intro h
            exact ⟨⟨s, hs, hsf⟩, Or.inr ⟨fun _ => hfirst', fun j hj hij => by
              simpa using htmax j hj (by omega)⟩⟩
  obtain ⟨lo, keep, hi, hk, hz, hsum, hmain⟩ := main
  refine ⟨lo, keep, hi, hk, hz, hsum, ?_⟩
  rw [h1]
  congr 1
  apply List.ext_getElem
  · simp; omega
  · intro i hi1 hi2
    rw [Bool.eq_iff_iff, h3 i hi1, hmain i (by omega)]
    rw [List.getElem_append]
    split_ifs with hA
    · rw [List.getElem_append]
      split_ifs with hB
      · simp at hB ⊢; omega
      · simp at hA hB ⊢; omega
    · simp at hA ⊢; omega

theorem outlierLabels_nil : outlierLabels [] = .error .indexError := by
  simp [outlierLabels, clearAfterPrefix, pyGet, pyIdx, bind, Except.bind]

theorem filter_block {α : Type} (l : List α) (lo keep hi : Nat) (h : lo + keep + hi = l.length) :
    ((l.zip (List.replicate lo true ++ List.replicate keep false ++ List.replicate hi true)).filter
      fun p => !p.2).map (·.1) = (l.drop lo).take keep := by
  have hl : l = l.take lo ++ (l.drop lo).take keep ++ l.drop (lo + keep) := by
    rw [List.append_assoc, ← List.drop_drop, List.take_append_drop, List.take_append_drop]
  have ht : ∀ (m : List α) (b : Bool), m.zip (List.replicate m.length b) = m.map fun a => (a, b) := by
    intro m b
    induction m with
    | nil => rfl
    | cons a m ih => simp [List.replicate_succ, ih]
  have e1 : (l.take lo).length = lo := by simp; omega
  have e2 : ((l.drop lo).take keep).length = keep := by simp; omega
  have e3 : (l.drop (lo + keep)).length = hi := by simp; omega
  conv_lhs => rw [hl]
  rw [List.zip_append (by simp only [List.length_append, List.length_replicate, e1, e2]),
    List.zip_append (by rw [List.length_replicate, e1])]
  have z1 := ht (l.take lo) true
  have z2 := ht ((l.drop lo).take keep) false
  have z3 := ht (l.drop (lo + keep)) true
  rw [e1] at z1
  rw [e2] at z2
  rw [e3] at z3
  rw [z1, z2, z3]
  generalize l.take lo = A
  generalize (l.drop lo).take keep = B
  generalize l.drop (lo + keep) = C
  rw [List.filter_append, List.filter_append, List.filter_map, List.filter_map, List.filter_map]
  simp [Function.comp_def]

variable {α : Type} [LinearOrder α]

/-- What a constructed iteration satisfies. -/
structure Good (hbos : List α → List Bool) (t : Iter α) : Prop where
  ne : t.eigs ≠ []
  labels : outlierLabels (hbos t.eigs) = .ok t.clusters

theorem mkIter_ok (hbos : List α → List Bool) (hlen : ∀ l, (hbos l).length = l.length)
    (origs eigs : List α) (hne : eigs ≠ []) :
    ∃ t, mkIter hbos origs eigs = .ok t ∧ t.id = 0 ∧ t.origs = origs ∧ t.eigs = eigs ∧ Good hbos t := by
  have : hbos eigs ≠ [] := by
    intro h
    have := hlen eigs
    rw [h] at this
    exact hne (List.length_eq_zero_iff.mp this.symm)
  obtain ⟨r, h1, -⟩ := outlierLabels_ok (hbos eigs) this
  exact ⟨⟨0, origs, eigs, r⟩, by simp [mkIter, h1, bind, Except.bind, pure, Except.pure], rfl, rfl, rfl, hne, h1⟩

/-- The inliers of an iteration: what is left after removing `lo` values below or `hi` values above. -/
theorem inliers_block (hbos : List α → List Bool) (hlen : ∀ l, (hbos l).length = l.length)
    (t : Iter α) (hg : Good hbos t) :
    ∃ lo keep hi, 0 < keep ∧ (lo = 0 ∨ hi = 0) ∧ lo + keep + hi = t.eigs.length ∧
      t.inliers = (t.eigs.drop lo).take keep ∧
      t.clusters = List.replicate lo true ++ List.replicate keep false ++ List.replicate hi true := by
  have hne : hbos t.eigs ≠ [] := by
    intro h
    have := hlen t.eigs
    rw [h] at this
    exact hg.ne (List.length_eq_zero_iff.mp this.symm)
  obtain ⟨lo, keep, hi, h1, h2, h3, h4⟩ := outlierLabels_block _ hne
  rw [hg.labels] at h4
  injection h4 with h4
  rw [hlen] at h3
  exact ⟨lo, keep, hi, h1, h2, h3, by rw [Iter.inliers, h4]; exact filter_block _ _ _ _ h3, h4⟩

/-- `t'` is the iteration after `t`. -/
structure Next (hbos : List α → List Bool) (t t' : Iter α) : Prop where
  id : t'.id = t.id + 1
  origs : t'.origs = t.origs
  eigs : t'.eigs = t.inliers
  good : Good hbos t'

theorem nextIter_ok (hbos : List α → List Bool) (hlen : ∀ l, (hbos l).length = l.length)
    (t : Iter α) (hg : Good hbos t) : ∃ t', t.nextIter hbos = .ok t' ∧ Next hbos t t' := by
  obtain ⟨lo, keep, hi, hk, -, hs, hin, -⟩ := inliers_block hbos hlen t hg
  have hne : t.inliers ≠ [] := by
    rw [hin]
    intro h
    have := congrArg List.length h
    simp at this
    omega
  obtain ⟨t', h1, h2, h3, h4, h5⟩ := mkIter_ok hbos hlen t.origs t.inliers hne
  refine ⟨{ t' with id := t.id + 1 }, by simp [Iter.nextIter, h1, bind, Except.bind, pure, Except.pure],
    rfl, h3, h4, ⟨h5.ne, h5.labels⟩⟩

theorem trimLoop_ok (hbos : List α → List Bool) (hlen : ∀ l, (hbos l).length = l.length) (maxTrim : ℚ)
    (n : Nat) (t : Iter α) (hg : Good hbos t) :
    ∃ l, trimLoop hbos maxTrim n t = .ok l ∧ l.length ≤ n ∧
      (∀ i (h : i + 1 < (t :: l).length),
        Next hbos ((t :: l)[i]'(by omega)) (t :: l)[i + 1] ∧
        ((t :: l)[i + 1]).proportionRemoved ≤ maxTrim ∧
        (i + 2 < (t :: l).length → ((t :: l)[i + 1]).isAllInliers = false)) ∧
      (l.length < n → (l ≠ [] ∧ ((t :: l).getLast (by simp)).isAllInliers = true) ∨
        ∃ t', Next hbos ((t :: l).getLast (by simp)) t' ∧ maxTrim < t'.proportionRemoved) := by
  induction n generalizing t with
  | zero => exact ⟨[], rfl, by simp, by intro i h; simp at h, by intro h; simp at h⟩
  | succ n ih =>
    obtain ⟨t', ht, hn⟩ := nextIter_ok hbos hlen t hg
    rw [trimLoop]
    simp only [ht]
    by_cases hp : t'.proportionRemoved > maxTrim
    · rw [if_pos hp]
      exact ⟨[], rfl, by simp, by intro i h; simp at h, fun _ => Or.inr ⟨t', hn, hp⟩⟩
    · rw [if_neg hp]
      by_cases ha : t'.isAllInliers = true
      · rw [if_pos ha]
        refine ⟨[t'], rfl, by simp, ?_, fun _ => Or.inl ⟨by simp, ha⟩⟩
        intro i h
        have : i = 0 := by simp at h; omega
        subst this
        exact ⟨hn, not_lt.mp hp, by intro h; simp at h⟩
      · rw [if_neg ha]
        obtain ⟨l, h1, h2, h3, h4⟩ := ih t' hn.good
        refine ⟨t' :: l, by rw [h1], by simpa using h2, ?_, ?_⟩
        · intro i h
          cases i with
          | zero => exact ⟨hn, not_lt.mp hp, fun _ => by simpa using ha⟩
          | succ i =>
            have := h3 i (by simpa using h)
            exact ⟨this.1, this.2.1, fun h' => this.2.2 (by simpa using h')⟩
        · intro h
          have := h4 (by simpa using h)
          rw [List.getLast_cons (by simp)]
          rcases this with ⟨h5, h6⟩ | h5
          · exact Or.inl ⟨by simp, h6⟩
          · exact Or.inr h5

end Trim
end RMT
