import Verif.Model.Smoother
import Verif.Model.Report
import Mathlib.Data.List.Chain

/-! # Lemmas on smoother names -/

set_option linter.unusedSectionVars false

namespace RMT
namespace Format

theorem digitChar_isDigit (n : Nat) (h : n < 10) : (Nat.digitChar n).isDigit = true := by
  interval_cases n <;> decide

theorem padDigits_isDigit (k m : Nat) : ∀ c ∈ padDigits k m, c.isDigit = true := by
  induction k generalizing m with
  | zero => simp [padDigits]
  | succ k ih =>
    intro c hc
    simp only [padDigits, List.mem_append, List.mem_singleton] at hc
    rcases hc with h | rfl
    · exact ih _ c h
    · exact digitChar_isDigit _ (Nat.mod_lt _ (by norm_num))

theorem padDigits_length (k m : Nat) : (padDigits k m).length = k := by
  induction k generalizing m with
  | zero => rfl
  | succ k ih => simp [padDigits, ih]

theorem ofDigitChars_pad (k m : Nat) :
    Nat.ofDigitChars 10 (Nat.toDigits 10 (m / 10 ^ k) ++ padDigits k m) 0 = m := by
  induction k generalizing m with
  | zero => simp [padDigits]
  | succ k ih =>
    have h1 : m / 10 ^ (k + 1) = m / 10 / 10 ^ k := by
      rw [Nat.div_div_eq_div_mul, pow_succ, Nat.mul_comm]
    rw [padDigits, ← List.append_assoc, Nat.ofDigitChars_append, h1, ih (m / 10),
      Nat.ofDigitChars_cons_digitChar_of_lt_ten (Nat.mod_lt _ (by norm_num)), Nat.ofDigitChars_nil]
    omega

theorem toDigits_isDigit (n : Nat) : ∀ c ∈ Nat.toDigits 10 n, c.isDigit = true :=
  fun _ hc => Nat.isDigit_of_mem_toDigits (by norm_num) (by norm_num) hc

theorem filter_digits (l : List Char) (h : ∀ c ∈ l, c.isDigit = true) : l.filter Char.isDigit = l :=
  List.filter_eq_self.mpr h

theorem fmtFixed_toList (k : Nat) (q : ℚ) : (fmtFixed k q).toList =
    (if q < 0 then ['-'] else []) ++ (Nat.toDigits 10 (roundHalfEven (|q| * 10 ^ k) / 10 ^ k) ++
      '.' :: padDigits k (roundHalfEven (|q| * 10 ^ k))) := by
  simp only [fmtFixed, fixedDigits, String.toList_append, Nat.toList_repr, String.toList_ofList]
  split_ifs <;> simp

/-- Fixed-point names determine the sign and the rounded value. -/
theorem fmtFixed_inj (k : Nat) (q q' : ℚ) (h : fmtFixed k q = fmtFixed k q') :
    (q < 0 ↔ q' < 0) ∧ roundHalfEven (|q| * 10 ^ k) = roundHalfEven (|q'| * 10 ^ k) := by
  have h1 : (fmtFixed k q).toList = (fmtFixed k q').toList := by rw [h]
  have hv : ∀ q : ℚ, Nat.ofDigitChars 10 ((fmtFixed k q).toList.filter Char.isDigit) 0 =
      roundHalfEven (|q| * 10 ^ k) := by
    intro q
    rw [fmtFixed_toList]
    simp only [List.filter_append, List.filter_cons, filter_digits _ (toDigits_isDigit _),
      filter_digits _ (padDigits_isDigit _ _)]
    have : ((if q < 0 then ['-'] else []).filter Char.isDigit) = [] := by
      split_ifs <;> decide
    rw [this, if_neg (by decide), List.nil_append, ofDigitChars_pad]
  have hm : ∀ q : ℚ, '-' ∈ (fmtFixed k q).toList ↔ q < 0 := by
    intro q
    rw [fmtFixed_toList]
    have d1 : '-' ∉ Nat.toDigits 10 (roundHalfEven (|q| * 10 ^ k) / 10 ^ k) := fun hc =>
      absurd (toDigits_isDigit _ _ hc) (by decide)
    have d2 : '-' ∉ padDigits k (roundHalfEven (|q| * 10 ^ k)) := fun hc =>
      absurd (padDigits_isDigit _ _ _ hc) (by decide)
    simp only [List.mem_append, List.mem_cons, d1, d2]
    split_ifs with hq <;> simp [hq]
  exact ⟨by rw [← hm q, ← hm q', h1], by rw [← hv q, ← hv q', h1]⟩

theorem pyStrInt_toList (d : Int) : (pyStrInt d).toList =
    (if d < 0 then ['-'] else []) ++ Nat.toDigits 10 d.natAbs := by
  simp only [pyStrInt]
  split_ifs <;> simp [String.toList_append, Nat.toList_repr]

theorem pyStrInt_inj (d d' : Int) (h : pyStrInt d = pyStrInt d') : d = d' := by
  have h1 : (pyStrInt d).toList = (pyStrInt d').toList := by rw [h]
  have hv : ∀ d : Int, Nat.ofDigitChars 10 ((pyStrInt d).toList.filter Char.isDigit) 0 = d.natAbs := by
    intro d
    rw [pyStrInt_toList]
    simp only [List.filter_append, filter_digits _ (toDigits_isDigit _)]
    have : ((if d < 0 then ['-'] else []).filter Char.isDigit) = [] := by
      split_ifs <;> decide
    rw [this, List.nil_append, Nat.ofDigitChars_ten_toDigits]
  have hm : ∀ d : Int, '-' ∈ (pyStrInt d).toList ↔ d < 0 := by
    intro d
    rw [pyStrInt_toList]
    have d1 : '-' ∉ Nat.toDigits 10 d.natAbs := fun hc => absurd (toDigits_isDigit _ _ hc) (by decide)
    simp only [List.mem_append, d1]
    split_ifs with hq <;> simp [hq]
  have e1 : d < 0 ↔ d' < 0 := by rw [← hm d, ← hm d', h1]
  have e2 : d.natAbs = d'.natAbs := by rw [← hv d, ← hv d', h1]
  omega

/-- Characters of numerals: digits, minus sign, point. -/
def numeralChar (c : Char) : Prop := c.isDigit = true ∨ c = '-' ∨ c = '.'

theorem pyStrInt_chars (d : Int) : ∀ c ∈ (pyStrInt d).toList, numeralChar c := by
  intro c hc
  rw [pyStrInt_toList, List.mem_append] at hc
  rcases hc with h | h
  · split_ifs at h
    · simp at h; exact Or.inr (Or.inl h)
    · simp at h
  · exact Or.inl (toDigits_isDigit _ _ h)

theorem fmtFixed_chars (k : Nat) (q : ℚ) : ∀ c ∈ (fmtFixed k q).toList, numeralChar c := by
  intro c hc
  rw [fmtFixed_toList, List.mem_append, List.mem_append, List.mem_cons] at hc
  rcases hc with h | h | rfl | h
  · split_ifs at h
    · simp at h; exact Or.inr (Or.inl h)
    · simp at h
  · exact Or.inl (toDigits_isDigit _ _ h)
  · exact Or.inr (Or.inr rfl)
  · exact Or.inl (padDigits_isDigit _ _ _ h)

end Format

namespace Smooth
open Format

theorem split_at_sep {α : Type} (sep : α) (a a' b b' : List α) (ha : sep ∉ a) (ha' : sep ∉ a')
    (h : a ++ sep :: b = a' ++ sep :: b') : a = a' ∧ b = b' := by
  induction a generalizing a' with
  | nil =>
    cases a' with
    | nil => simpa using h
    | cons x a' =>
      simp only [List.nil_append, List.cons_append, List.cons.injEq] at h
      exact absurd (by simp [h.1]) ha'
  | cons x a ih =>
    cases a' with
    | nil =>
      simp only [List.nil_append, List.cons_append, List.cons.injEq] at h
      exact absurd (by simp [h.1]) ha
    | cons y a' =>
      simp only [List.cons_append, List.cons.injEq] at h
      obtain ⟨rfl, h⟩ := h
      obtain ⟨rfl, h2⟩ := ih a' (fun hc => ha (by simp [hc])) (fun hc => ha' (by simp [hc])) h
      exact ⟨rfl, h2⟩

theorem splineName_toList (d : Int) : (splineName d).toList =
    if d = 3 then "cubic".toList else if d = 4 then "quartic".toList else if d = 5 then "quintic".toList
    else 'd' :: 'e' :: 'g' :: (pyStrInt d).toList := by
  simp only [splineName]
  split_ifs <;> simp [String.toList_append]

theorem not_numeral_underscore : ¬ numeralChar '_' := by
  rintro (h | h | h) <;> revert h <;> decide

theorem splineName_no_underscore (d : Int) : '_' ∉ (splineName d).toList := by
  rw [splineName_toList]
  have : '_' ∉ (pyStrInt d).toList := fun hc => not_numeral_underscore (pyStrInt_chars d _ hc)
  split_ifs <;> simp [this]

theorem splineName_inj (d d' : Int) (h : splineName d = splineName d') : d = d' := by
  have h1 : (splineName d).toList = (splineName d').toList := by rw [h]
  rw [splineName_toList, splineName_toList] at h1
  split_ifs at h1 <;> simp_all
  exact pyStrInt_inj d d' (String.ext (by simpa using h1))

theorem splineCol_toList (k : Nat) (d : Int) (s : ℚ) : (splineCol k d s).toList =
    ((splineName d).toList ++ "-spline".toList) ++ '_' :: (fmtFixed k s).toList := by
  simp [splineCol, String.toList_append]

/-- Spline names determine the degree, the sign and the rounded smoothing factor. -/
theorem splineCol_inj (k : Nat) (d d' : Int) (s s' : ℚ) (h : splineCol k d s = splineCol k d' s') :
    d = d' ∧ fmtFixed k s = fmtFixed k s' := by
  have h1 : (splineCol k d s).toList = (splineCol k d' s').toList := by rw [h]
  rw [splineCol_toList, splineCol_toList] at h1
  have hn : ∀ d : Int, '_' ∉ (splineName d).toList ++ "-spline".toList := by
    intro d hc
    rcases List.mem_append.mp hc with hc | hc
    · exact splineName_no_underscore d hc
    · revert hc; decide
  obtain ⟨e1, e2⟩ := split_at_sep '_' _ _ _ _ (hn d) (hn d') h1
  refine ⟨splineName_inj d d' ?_, String.ext (by simpa using e2)⟩
  exact String.ext (by simpa using List.append_cancel_right e1)

theorem polyName_inj (d d' : Int) (h : polyName d = polyName d') : d = d' := by
  have h1 : (polyName d).toList = (polyName d').toList := by rw [h]
  simp only [polyName, String.toList_append] at h1
  exact pyStrInt_inj d d' (String.ext (by simpa using h1))

theorem splineName_head (d : Int) : ∃ c l, (splineName d).toList = c :: l ∧ (c = 'c' ∨ c = 'q' ∨ c = 'd') := by
  rw [splineName_toList]
  split_ifs
  · exact ⟨'c', _, rfl, by simp⟩
  · exact ⟨'q', _, rfl, by simp⟩
  · exact ⟨'q', _, rfl, by simp⟩
  · exact ⟨'d', _, rfl, by simp⟩

theorem splineCol_head (k : Nat) (d : Int) (s : ℚ) :
    ∃ c l, (splineCol k d s).toList = c :: l ∧ (c = 'c' ∨ c = 'q' ∨ c = 'd') := by
  obtain ⟨c, l, h, hc⟩ := splineName_head d
  exact ⟨c, _, by rw [splineCol_toList, h]; rfl, hc⟩

theorem polyName_head (d : Int) : ∃ l, (polyName d).toList = 'p' :: l := by
  simp only [polyName, String.toList_append]
  exact ⟨_, rfl⟩

theorem polyName_ne_splineCol (d d' : Int) (k : Nat) (s : ℚ) : polyName d ≠ splineCol k d' s := by
  intro h
  obtain ⟨l, hl⟩ := polyName_head d
  obtain ⟨c, l', hl', hc⟩ := splineCol_head k d' s
  rw [h, hl'] at hl
  simp only [List.cons.injEq] at hl
  rcases hc with rfl | rfl | rfl <;> simp at hl

theorem polyName_ne_gompertz (d : Int) : polyName d ≠ "gompertz" := by
  intro h
  obtain ⟨l, hl⟩ := polyName_head d
  rw [h] at hl
  simp at hl

theorem splineCol_ne_gompertz (k : Nat) (d : Int) (s : ℚ) : splineCol k d s ≠ "gompertz" := by
  intro h
  obtain ⟨c, l', hl', hc⟩ := splineCol_head k d s
  rw [h] at hl'
  rcases hc with rfl | rfl | rfl <;> simp at hl'

/-! ## No "score" inside a name -/

/-- No adjacent characters `s`, `c`. -/
def NoSC (l : List Char) : Prop := l.IsChain fun a b => ¬ (a = 's' ∧ b = 'c')

theorem NoSC_of_no_s (l : List Char) (h : 's' ∉ l) : NoSC l := by
  induction l with
  | nil => exact .nil
  | cons a l ih =>
    have := ih (fun hc => h (by simp [hc]))
    cases l with
    | nil => exact .singleton _
    | cons b l =>
      exact List.isChain_cons_cons.mpr ⟨fun hc => h (by simp [hc.1]), this⟩

theorem NoSC_append (a b : List Char) (ha : NoSC a) (hb : NoSC b)
    (h : ∀ x ∈ a.getLast?, ∀ y ∈ b.head?, ¬ (x = 's' ∧ y = 'c')) : NoSC (a ++ b) :=
  List.isChain_append.mpr ⟨ha, hb, h⟩

theorem not_score_infix (l : List Char) (h : NoSC l) : ¬ ("score".toList <:+: l) := by
  rintro ⟨a, b, rfl⟩
  have h1 : NoSC (a ++ ("score".toList ++ b)) := by rw [← List.append_assoc]; exact h
  have h2 := (List.isChain_append.mp h1).2.1
  have h3 : ("score".toList ++ b) = 's' :: 'c' :: ("ore".toList ++ b) := rfl
  rw [h3] at h2
  exact (List.isChain_cons_cons.mp h2).1 ⟨rfl, rfl⟩

theorem numeral_no_s : ¬ numeralChar 's' := by
  rintro (h | h | h) <;> revert h <;> decide

theorem NoSC_pyStrInt (d : Int) : NoSC (pyStrInt d).toList :=
  NoSC_of_no_s _ fun hc => numeral_no_s (pyStrInt_chars d _ hc)

theorem NoSC_fmtFixed (k : Nat) (q : ℚ) : NoSC (fmtFixed k q).toList :=
  NoSC_of_no_s _ fun hc => numeral_no_s (fmtFixed_chars k q _ hc)

instance (l : List Char) : Decidable (NoSC l) := by unfold NoSC; infer_instance

/-- A name without adjacent `s`, `c` not ending in `s`. -/
def GoodName (s : String) : Prop := NoSC s.toList ∧ 's' ∉ s.toList.getLast?

theorem GoodName_append_list (a b : List Char) (ha : NoSC a) (hb : NoSC b)
    (h : 's' ∉ a.getLast?) : NoSC (a ++ b) :=
  NoSC_append a b ha hb fun _ hx _ _ hxy => h (hxy.1 ▸ hx)

theorem getLast_numeral (l : List Char) (h : ∀ c ∈ l, numeralChar c) : 's' ∉ l.getLast? :=
  fun hc => numeral_no_s (h _ (List.mem_of_getLast? hc))

theorem goodName_poly (d : Int) : GoodName (polyName d) := by
  refine ⟨?_, ?_⟩
  · simp only [polyName, String.toList_append]
    exact GoodName_append_list _ _ (by decide) (NoSC_pyStrInt d) (by decide)
  · simp only [polyName, String.toList_append]
    rw [List.getLast?_append]
    rcases hl : (pyStrInt d).toList.getLast? with _ | c
    · simp
    · simp only [Option.some_or]
      have := getLast_numeral _ (pyStrInt_chars d)
      rwa [hl] at this

theorem NoSC_splineName (d : Int) : NoSC (splineName d).toList := by
  rw [splineName_toList]
  split_ifs
  · decide
  · decide
  · decide
  · exact GoodName_append_list ['d', 'e', 'g'] _ (by decide) (NoSC_pyStrInt d) (by decide)

theorem getLast_splineName (d : Int) : 's' ∉ (splineName d).toList.getLast? := by
  rw [splineName_toList]
  split_ifs
  · decide
  · decide
  · decide
  · have := getLast_numeral _ (pyStrInt_chars d)
    rw [show 'd' :: 'e' :: 'g' :: (pyStrInt d).toList = ['d', 'e', 'g'] ++ (pyStrInt d).toList from rfl,
      List.getLast?_append]
    rcases hl : (pyStrInt d).toList.getLast? with _ | c
    · decide
    · simp only [Option.some_or]
      rwa [hl] at this

theorem goodName_spline (k : Nat) (d : Int) (s : ℚ) : GoodName (splineCol k d s) := by
  have e : (splineCol k d s).toList =
      (splineName d).toList ++ ("-spline_".toList ++ (fmtFixed k s).toList) := by
    simp [splineCol, String.toList_append]
  refine ⟨?_, ?_⟩
  · rw [e]
    exact GoodName_append_list _ _ (NoSC_splineName d)
      (GoodName_append_list _ _ (by decide) (NoSC_fmtFixed k s) (by decide)) (getLast_splineName d)
  · rw [e, ← List.append_assoc, List.getLast?_append]
    rcases hl : (fmtFixed k s).toList.getLast? with _ | c
    · rw [fmtFixed_toList] at hl
      simp at hl
    · simp only [Option.some_or]
      have := getLast_numeral _ (fmtFixed_chars k s)
      rwa [hl] at this

theorem goodName_heur (k : Nat) (d : Int) (s : ℚ) : GoodName (splineColHeur k d s) := by
  have h := goodName_spline k d s
  refine ⟨?_, ?_⟩
  · simp only [splineColHeur, String.toList_append]
    exact GoodName_append_list _ _ h.1 (by decide) h.2
  · simp only [splineColHeur, String.toList_append]
    rw [List.getLast?_append, show "_heuristic".toList.getLast? = some 'c' by decide]
    simp

theorem goodName_gompertz : GoodName "gompertz" := by
  constructor <;> decide

theorem goodName_names (a : FitArgs) : ∀ n ∈ smootherNames a, GoodName n := by
  intro n hn
  simp only [smootherNames, List.mem_append, List.mem_map] at hn
  rcases hn with (⟨d, -, rfl⟩ | hn) | hn
  · exact goodName_poly d
  · cases ha : a.smooths with
    | heuristic =>
      simp only [ha, List.mem_flatMap, List.mem_map] at hn
      obtain ⟨s, -, d, -, rfl⟩ := hn
      exact goodName_heur 3 d s
    | list l =>
      simp only [ha, List.mem_flatMap, List.mem_map] at hn
      obtain ⟨s, -, d, -, rfl⟩ := hn
      exact goodName_spline 3 d s
  · split_ifs at hn
    · simp at hn; rw [hn]; exact goodName_gompertz
    · simp at hn

end Smooth
end RMT
