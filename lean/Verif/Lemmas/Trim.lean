import Verif.Model.Trim
import Verif.Lemmas.Sort
import Verif.Lemmas.Py
import Verif.Props.Step

/-! # Lemmas on outlier labels and trim iterations -/

namespace RMT
namespace Trim
open Utils EigValsM Spec

theorem length_clearRange (f : List Bool) (lo hi : Int) : (clearRange f lo hi).length = f.length := by
  fun_induction clearRange f lo hi with
  | case1 f lo h ih =>
    rw [ih]
    cases pyIdx f.length lo <;> simp
  | case2 => rfl

theorem getElem_clearRange (f : List Bool) (lo hi : Int) (h0 : 0 ≤ lo) (k : Nat) (hk : k < f.length)
    (hk' : k < (clearRange f lo hi).length) :
    (clearRange f lo hi)[k] = if lo ≤ k ∧ (k : Int) < hi then false else f[k] := by
  have key : (clearRange f lo hi)[k]? = if lo ≤ k ∧ (k : Int) < hi then some false else f[k]? := by
    clear hk'
    fun_induction clearRange f lo hi with
    | case1 f lo h ih =>
      have ih' := ih (by omega) (by cases pyIdx f.length lo <;> simpa using hk)
      rw [ih']
      clear ih ih'
      by_cases hlo : lo < f.length
      · have hj : pyIdx f.length lo = some lo.toNat := by
          simp only [pyIdx, h0, if_true, hlo]
        rw [hj]
        by_cases hkj : k = lo.toNat
        · rw [if_neg (by omega), if_pos (by omega)]
          simp [← hkj, hk]
        · simp only
          rw [List.getElem?_set_ne (by omega)]
          by_cases hc : lo + 1 ≤ k ∧ (k : Int) < hi
          · rw [if_pos hc, if_pos (by omega)]
          · rw [if_neg hc, if_neg (by omega)]
      · have hj : pyIdx f.length lo = none := by
          simp only [pyIdx, h0, if_true, hlo, if_false]
        rw [hj, if_neg (by omega), if_neg (by omega)]
    | case2 f lo h =>
      rw [if_neg (by omega)]
  rw [List.getElem?_eq_getElem hk', List.getElem?_eq_getElem hk] at key
  split_ifs at key ⊢ <;> exact Option.some.inj key

/-- Clearing from `-1` clears everything. -/
theorem clearRange_neg_one (f : List Bool) (hf : f ≠ []) (k : Nat) (hk : k < f.length)
    (hk' : k < (clearRange f (-1) f.length).length) : (clearRange f (-1) f.length)[k] = false := by
  have hlen : 0 < f.length := List.length_pos_iff.mpr hf
  have hidx : pyIdx f.length (-1) = some (f.length - 1) := by
    simp only [pyIdx]
    rw [if_neg (by omega), if_pos (by omega)]
    congr 1
    omega
  have : clearRange f (-1) f.length = clearRange (f.set (f.length - 1) false) 0 f.length := by
    rw [clearRange, if_pos (by omega), hidx]
    norm_num
  simp only [this]
  rw [getElem_clearRange _ _ _ (le_refl _) k (by simpa using hk)]
  rw [if_pos (by omega)]

/-- The final label of position `i`, as a function of the detector's flags: inside an initial run of
flags that is not everything, or (if the first is not flagged) inside a final run. -/
def finalLabel (flags : List Bool) (i : Nat) : Prop :=
  (∃ m, ∃ h : m < flags.length, flags[m] = false) ∧
    ((∀ j (h : j < flags.length), j ≤ i → flags[j] = true) ∨
      ((∀ h : 0 < flags.length, flags[0] = false) ∧ ∀ j (h : j < flags.length), i ≤ j → flags[j] = true))

theorem outlierLabels_ok (flags : List Bool) (hne : flags ≠ []) :
    ∃ r, outlierLabels flags = .ok r ∧ r.length = flags.length ∧
      ∀ i (h : i < r.length), (r[i] = true ↔ finalLabel flags i) := by
  have hlen : 0 < flags.length := List.length_pos_iff.mpr hne
  unfold outlierLabels clearAfterPrefix
  simp only [pyGet_zero flags hlen, bind, Except.bind, pure, Except.pure]
  rcases Props.C06_find_first flags false with ⟨hnone, hff⟩ | ⟨s, hs, hff, hsf, hsmin⟩
  · -- everything flagged
    have hall : ∀ j (h : j < flags.length), flags[j] = true := by
      intro j h
      by_contra hc
      exact hnone (List.mem_iff_getElem.mpr ⟨j, h, by simpa using hc⟩)
    rw [if_pos (hall 0 hlen), hff]
    have hl := length_clearRange flags (-1) flags.length
    have hz := clearRange_neg_one flags hne
    generalize hg : clearRange flags (-1) flags.length = g at hl hz
    have h0 := hz 0 hlen (by omega)
    have hgl : 0 < g.length := by omega
    simp only [clearBeforeSuffix, clearIfInterior, pyGet_neg_one g hgl, bind, Except.bind, pure,
      Except.pure]
    have h1' : g[g.length - 1] = false := hz _ (by omega) _
    rw [h1']
    simp only [Bool.false_eq_true, if_false, pyGet_zero g hgl, pyGet_neg_one g hgl, h0, h1', Bool.not_false,
      Bool.and_self, if_true]
    refine ⟨_, rfl, by simpa using hl, ?_⟩
    intro i hi
    rw [List.getElem_replicate]
    simp only [Bool.false_eq_true, false_iff]
    rintro ⟨⟨m, hm, hmf⟩, -⟩
    rw [hall m hm] at hmf
    cases hmf
  · by_cases hfirst : flags[0] = true
    · -- initial run
      rw [if_pos hfirst, hff]
      have hs0 : s ≠ 0 := by
        rintro rfl
        rw [hfirst] at hsf; cases hsf
      have hl := length_clearRange flags (s : Int) flags.length
      have hget := getElem_clearRange flags (s : Int) flags.length (by omega)
      generalize hg : clearRange flags (s : Int) flags.length = g at hl hget
      have hgl : 0 < g.length := by omega
      have hglast : g[g.length - 1] = false := by
        rw [hget _ (by omega), if_pos (by omega)]
      have hg0 : g[0] = true := by
        rw [hget _ (by omega), if_neg (by omega)]; exact hfirst
      simp only [clearBeforeSuffix, clearIfInterior, pyGet_neg_one g hgl, pyGet_zero g hgl, bind, Except.bind,
        pure, Except.pure, hglast, hg0, Bool.false_eq_true, if_false, Bool.not_true, Bool.false_and]
      refine ⟨g, rfl, hl, ?_⟩
      intro i hi
      rw [hget i (by omega)]
      have hflags : ∀ j (h : j < flags.length), j < s → flags[j] = true := by
        intro j h hj
        simpa using hsmin j h hj
      constructor
      · intro h
        by_cases hc : (s : Int) ≤ i ∧ (i : Int) < flags.length
        · rw [if_pos hc] at h; cases h
        · refine ⟨⟨s, hs, hsf⟩, Or.inl fun j hj hji => hflags j hj (by omega)⟩
      · rintro ⟨-, h | ⟨h, -⟩⟩
        · have his : i < s := by
            by_contra hc
            have := h s hs (by omega)
            rw [hsf] at this; cases this
          rw [if_neg (by omega)]
          exact hflags i (by omega) his
        · have := h hlen
          rw [hfirst] at this; cases this
    · have hfirst' : flags[0] = false := by simpa using hfirst
      simp only [hfirst', Bool.false_eq_true, if_false]
      by_cases hlast : flags[flags.length - 1] = true
      · -- final run
        rcases Props.C06_find_last flags false with ⟨hn, -⟩ | ⟨t, ht, hfl, htf, htmax⟩
        · exact absurd (List.mem_iff_getElem.mpr ⟨s, hs, hsf⟩) hn
        · have hl := length_clearRange flags 0 (t : Int)
          have hget := getElem_clearRange flags 0 (t : Int) (le_refl _)
          simp only [clearBeforeSuffix, pyGet_neg_one flags hlen, bind, Except.bind, hlast, if_true, pure,
            Except.pure, hfl]
          generalize hg : clearRange flags 0 (t : Int) = g at hl hget
          have hgl : 0 < g.length := by omega
          have htl : t ≠ flags.length - 1 := by
            rintro rfl
            rw [hlast] at htf; cases htf
          have hglast : g[g.length - 1] = true := by
            rw [hget _ (by omega), if_neg (by omega)]
            have : g.length - 1 = flags.length - 1 := by omega
            simp only [this]; exact hlast
          have hg0 : g[0] = false := by
            rw [hget _ (by omega)]
            by_cases ht0 : t = 0
            · rw [if_neg (by omega)]; exact hfirst'
            · rw [if_pos (by omega)]
          simp only [clearIfInterior, pyGet_neg_one g hgl, pyGet_zero g hgl, bind, Except.bind, pure,
            Except.pure, hglast, hg0, Bool.not_true, Bool.and_false, Bool.false_eq_true, if_false]
          refine ⟨g, rfl, hl, ?_⟩
          intro i hi
          rw [hget i (by omega)]
          have hflags : ∀ j (h : j < flags.length), t < j → flags[j] = true := by
            intro j h hj
            simpa using htmax j h hj
          constructor
          · intro h
            by_cases hc : (0 : Int) ≤ i ∧ (i : Int) < t
            · rw [if_pos hc] at h; cases h
            · rw [if_neg hc] at h
              have hit : t < i := by
                rcases Nat.lt_or_ge t i with h' | h'
                · exact h'
                · have : i = t := by omega
                  subst this
                  rw [htf] at h; cases h
              exact ⟨⟨s, hs, hsf⟩, Or.inr ⟨fun _ => hfirst', fun j hj hij => hflags j hj (by omega)⟩⟩
          · rintro ⟨-, h | ⟨-, h⟩⟩
            · have := h 0 hlen (by omega)
              rw [hfirst'] at this; cases this
            · have hit : t < i := by
                by_contra hc
                have := h t ht (by omega)
                rw [htf] at this; cases this
              rw [if_neg (by omega)]
              exact hflags i (by omega) hit
      · -- neither end flagged
        have hlast' : flags[flags.length - 1] = false := by simpa using hlast
        simp only [clearBeforeSuffix, pyGet_neg_one flags hlen, bind, Except.bind, hlast', pure,
          Except.pure, clearIfInterior, pyGet_zero flags hlen, hfirst', Bool.false_eq_true, if_false,
          Bool.not_false, Bool.and_self, if_true]
        refine ⟨_, rfl, by simp, ?_⟩
        intro i hi
        rw [List.getElem_replicate]
        simp only [Bool.false_eq_true, false_iff]
        rintro ⟨-, h | ⟨-, h⟩⟩
        · have := h 0 hlen (by omega)
          rw [hfirst'] at this; cases this
        · have := h (flags.length - 1) (by omega) (by simp at hi; omega)
          rw [hlast'] at this; cases this

end Trim
end RMT
