import Verif.Props.AutoUnfold

/-! # Property C27, continued: the trim indices computed by `best_overall` -/

namespace RMT
namespace Props
open Report EigValsM Trim

variable {K : Type} [Field K] [LinearOrder K] [IsStrictOrderedRing K]

omit [IsStrictOrderedRing K] in
theorem listIndex_nodup (l : List K) (hn : l.Nodup) (i : Nat) (hi : i < l.length) : listIndex l l[i] = .ok i := by
  have h : l.idxOf? l[i] = some i := by
    rw [List.idxOf?, List.findIdx?_eq_some_iff_getElem]
    refine ⟨hi, by simp, fun j hj => ?_⟩
    simp only [beq_iff_eq, Bool.not_eq_true, beq_eq_false_iff_ne, ne_eq]
    intro he
    exact hj.ne ((hn.getElem_inj_iff).mp he)
  simp [listIndex, h]

/-- **C27 (best_overall).** The pair of indices `best_overall` computes for a trimming of a spectrum without repetitions is, unlike `trim_indices`, as documented: the half-open slice `[start, end)` of
the spectrum is exactly the trimmed spectrum. (`best_overall` then raises, so that a caller never sees the pair: C33.) -/
theorem C27_best_overall (untrimmed eigs : List K) (hn : untrimmed.Nodup) (hne : eigs ≠ []) (hinf : eigs <:+: untrimmed) :
    ∃ s e : Nat, bestIndices untrimmed eigs = .ok (s, e) ∧ s < e ∧ e ≤ untrimmed.length ∧ pySlice untrimmed s e = eigs := by
  have hlen : 0 < eigs.length := List.length_pos_iff.mpr hne
  obtain ⟨a, b, rfl⟩ := hinf
  have hl : (a ++ eigs ++ b).length = a.length + eigs.length + b.length := by simp; omega
  have h1 : listIndex (a ++ eigs ++ b) eigs[0] = .ok a.length := by
    have := listIndex_nodup _ hn a.length (by omega)
    simpa [List.getElem_append_left, List.getElem_append_right, hlen] using this
  have h2 : listIndex (a ++ eigs ++ b) (eigs[eigs.length - 1]'(by omega)) = .ok (a.length + (eigs.length - 1)) := by
    have := listIndex_nodup _ hn (a.length + (eigs.length - 1)) (by omega)
    rw [List.getElem_append_left (by simp; omega), List.getElem_append_right (by omega)] at this
    simpa using this
  refine ⟨a.length, a.length + eigs.length, ?_, by omega, by omega, ?_⟩
  · simp only [bestIndices, pyGet_zero _ hlen, pyGet_neg_one _ hlen, bind, Except.bind, h1, h2]
    congr 2
    omega
  · have hb1 : pyBound (a ++ eigs ++ b).length ((a.length + eigs.length : Nat) : Int) = a.length + eigs.length := by
      simp only [pyBound]
      rw [if_neg (by omega), if_neg (by omega), if_neg (by omega)]
      omega
    have hb2 : pyBound (a ++ eigs ++ b).length (a.length : Int) = a.length := by
      simp only [pyBound]
      rw [if_neg (by omega), if_neg (by omega), if_neg (by omega)]
      omega
    rw [pySlice, hb1, hb2, List.take_append_of_le_length (by simp), List.take_of_length_le (by simp)]
    simp

/-- The hypotheses are met by a spectrum of four values of which the two inner ones are kept. -/
example : ∃ s e : Nat, bestIndices ([1, 2, 4, 7] : List ℚ) [2, 4] = .ok (s, e) ∧ s < e ∧ e ≤ 4 ∧ pySlice ([1, 2, 4, 7] : List ℚ) s e = [2, 4] :=
  C27_best_overall [1, 2, 4, 7] [2, 4] (by decide +kernel) (by simp) ⟨[1], [7], rfl⟩

end Props
end RMT
