import Verif.Lemmas.Report

/-! # `filter(regex=name)` selects exactly the column of that name -/

set_option linter.unusedSectionVars false

namespace RMT
namespace Report
open Smooth Trim EigValsM Format

/-- Characterwise match, `.` matching everything. -/
def DotMatch (p u : List Char) : Prop := List.Forall₂ (fun a b => a = '.' ∨ a = b) p u

theorem dotPrefix_iff (p s : List Char) :
    dotPrefix p s = true ↔ ∃ u v, s = u ++ v ∧ DotMatch p u := by
  induction p generalizing s with
  | nil => simp only [dotPrefix, true_iff]; exact ⟨[], s, rfl, .nil⟩
  | cons a p ih =>
    cases s with
    | nil =>
      simp only [dotPrefix, Bool.false_eq_true, false_iff]
      rintro ⟨u, v, h, hm⟩
      cases hm
      simp at h
    | cons c s =>
      simp only [dotPrefix, Bool.and_eq_true, Bool.or_eq_true, beq_iff_eq, ih]
      constructor
      · rintro ⟨h, u, v, rfl, hm⟩
        exact ⟨c :: u, v, rfl, .cons h hm⟩
      · rintro ⟨u, v, h, hm⟩
        cases hm with
        | cons h1 h2 =>
          simp only [List.cons_append, List.cons.injEq] at h
          obtain ⟨rfl, rfl⟩ := h
          exact ⟨h1, _, v, rfl, h2⟩

theorem dotSearch_iff (p s : List Char) :
    dotSearch p s = true ↔ ∃ t u v, s = t ++ (u ++ v) ∧ DotMatch p u := by
  simp only [dotSearch, List.any_eq_true, List.mem_tails, dotPrefix_iff]
  constructor
  · rintro ⟨x, ⟨t, rfl⟩, u, v, rfl, h⟩
    exact ⟨t, u, v, rfl, h⟩
  · rintro ⟨t, u, v, rfl, h⟩
    exact ⟨u ++ v, ⟨t, rfl⟩, u, v, rfl, h⟩

theorem dotMatch_refl (p : List Char) : DotMatch p p := by
  induction p with
  | nil => exact .nil
  | cons a p ih => exact .cons (Or.inr rfl) ih

theorem dotMatch_eq (p u : List Char) (hp : '.' ∉ p) (h : DotMatch p u) : u = p := by
  induction h with
  | nil => rfl
  | cons h1 _ ih =>
    simp only [List.mem_cons, not_or] at hp
    rcases h1 with rfl | rfl
    · simp at hp
    · rw [ih hp.2]

theorem dotMatch_append (p q u : List Char) (h : DotMatch (p ++ q) u) :
    ∃ a b, u = a ++ b ∧ DotMatch p a ∧ DotMatch q b := by
  induction p generalizing u with
  | nil => exact ⟨[], u, rfl, .nil, h⟩
  | cons x p ih =>
    cases h with
    | cons h1 h2 =>
      obtain ⟨a, b, rfl, h3, h4⟩ := ih _ h2
      exact ⟨_ :: a, b, rfl, .cons h1 h3, h4⟩

theorem dotMatch_length (p u : List Char) (h : DotMatch p u) : p.length = u.length :=
  List.Forall₂.length_eq h

/-- The position of "score" in `a ++ "score"`. -/
theorem score_position (a x v : List Char) (ha : NoSC a)
    (h : a ++ "score".toList = x ++ ("score".toList ++ v)) : x = a ∧ v = [] := by
  have hl := congrArg List.length h
  simp only [List.length_append] at hl
  have h5 : "score".toList.length = 5 := by decide
  rw [List.append_eq_append_iff] at h
  rcases h with ⟨y, h1, h2⟩ | ⟨y, h1, h2⟩
  · have : y.length = 0 := by
      have := congrArg List.length h1
      simp only [List.length_append] at this
      omega
    have hy : y = [] := List.length_eq_zero_iff.mp this
    subst hy
    have : v.length = 0 := by
      have := congrArg List.length h2
      simp only [List.length_append, List.length_nil] at this
      omega
    exact ⟨by simpa using h1, List.length_eq_zero_iff.mp this⟩
  · have h3 : ∀ b : List Char, "score".toList ++ b = 's' :: 'c' :: 'o' :: 'r' :: 'e' :: b := fun b => rfl
    rcases y with _ | ⟨c1, y⟩
    · simp only [List.append_nil, List.nil_append] at h1 h2
      refine ⟨h1.symm, ?_⟩
      have := congrArg List.length h2
      simp only [List.length_append] at this
      exact List.length_eq_zero_iff.mp (by omega)
    · exfalso
      rw [h3] at h2
      rcases y with _ | ⟨c2, y⟩
      · simp at h2
      · simp only [List.cons_append, List.cons.injEq] at h2
        obtain ⟨rfl, rfl, -⟩ := h2
        rw [h1] at ha
        have := (List.isChain_append.mp ha).2.1
        exact (List.isChain_cons_cons.mp this).1 ⟨rfl, rfl⟩

/-- The shapes of smoother names, with a suffix `H` of the spline names. -/
inductive Shape (H : List Char) : List Char → Prop
  | poly (d : Int) : Shape H ("poly_".toList ++ (pyStrInt d).toList)
  | spline (d : Int) (s : ℚ) :
      Shape H ((splineName d).toList ++ ("-spline_".toList ++ ((fmtFixed 3 s).toList ++ H)))
  | gompertz : Shape H "gompertz".toList

theorem shape_names (a : FitArgs) : ∃ H, (H = [] ∨ H = "_heuristic".toList) ∧
    ∀ n ∈ smootherNames a, Shape H n.toList := by
  cases ha : a.smooths with
  | heuristic =>
    refine ⟨"_heuristic".toList, Or.inr rfl, fun n hn => ?_⟩
    simp only [smootherNames, ha, List.mem_append, List.mem_map, List.mem_flatMap] at hn
    rcases hn with (⟨d, -, rfl⟩ | ⟨s, -, d, -, rfl⟩) | hn
    · simp only [polyName, String.toList_append]; exact .poly d
    · simp only [splineColHeur, splineCol, String.toList_append, List.append_assoc]; exact .spline d s
    · split_ifs at hn
      · simp at hn; subst hn; exact .gompertz
      · simp at hn
  | list l =>
    refine ⟨[], Or.inl rfl, fun n hn => ?_⟩
    simp only [smootherNames, ha, List.mem_append, List.mem_map, List.mem_flatMap] at hn
    rcases hn with (⟨d, -, rfl⟩ | ⟨s, -, d, -, rfl⟩) | hn
    · simp only [polyName, String.toList_append]; exact .poly d
    · have := Shape.spline (H := []) d s
      simp only [List.append_nil] at this
      simp only [splineCol, String.toList_append, List.append_assoc]
      exact this
    · split_ifs at hn
      · simp at hn; subst hn; exact .gompertz
      · simp at hn

theorem not_mem_pyStrInt (d : Int) (c : Char) (hc : ¬ numeralChar c) : c ∉ (pyStrInt d).toList :=
  fun h => hc (pyStrInt_chars d c h)

theorem not_mem_fmtFixed (s : ℚ) (c : Char) (hc : ¬ numeralChar c) : c ∉ (fmtFixed 3 s).toList :=
  fun h => hc (fmtFixed_chars 3 s c h)

theorem not_numeral_of (c : Char) (h : (c.isDigit || c == '-' || c == '.') = false) : ¬ numeralChar c := by
  simp only [Bool.or_eq_false_iff, beq_eq_false_iff_ne] at h
  rintro (h1 | h1 | h1)
  · simp [h1] at h
  · exact h.1.2 h1
  · exact h.2 h1

theorem dot_not_mem_pyStrInt (d : Int) : '.' ∉ (pyStrInt d).toList := by
  rw [pyStrInt_toList, List.mem_append, not_or]
  refine ⟨by split_ifs <;> decide, fun h => absurd (toDigits_isDigit _ _ h) (by decide)⟩

theorem not_mem_splineName (d : Int) (c : Char) (hc : ¬ numeralChar c)
    (h : c ∉ "cubic".toList ∧ c ∉ "quartic".toList ∧ c ∉ "quintic".toList ∧ c ∉ "deg".toList) :
    c ∉ (splineName d).toList := by
  rw [splineName_toList]
  split_ifs
  · exact h.1
  · exact h.2.1
  · exact h.2.2.1
  · intro h'
    rw [show 'd' :: 'e' :: 'g' :: (pyStrInt d).toList = "deg".toList ++ (pyStrInt d).toList from rfl,
      List.mem_append] at h'
    rcases h' with h' | h'
    · exact h.2.2.2 h'
    · exact not_mem_pyStrInt d c hc h'

theorem splineName_suffix (d d' : Int) (t : List Char)
    (h : (splineName d').toList = t ++ (splineName d).toList) : t = [] := by
  have nn : ∀ c : Char, (c.isDigit || c == '-' || c == '.') = false → ∀ d, c ∉ (pyStrInt d).toList :=
    fun c hc d => not_mem_pyStrInt d c (not_numeral_of c hc)
  have mem : ∀ c, c ∈ (splineName d).toList → c ∈ (splineName d').toList := by
    intro c hc; rw [h]; simp [hc]
  have hl := congrArg List.length h
  rw [List.length_append] at hl
  rw [splineName_toList] at mem h hl
  rw [splineName_toList] at mem h hl
  have hlen : (if d = 3 then "cubic".toList else if d = 4 then "quartic".toList else if d = 5 then "quintic".toList
    else 'd' :: 'e' :: 'g' :: (pyStrInt d).toList).length = (if d' = 3 then "cubic".toList else if d' = 4 then "quartic".toList
    else if d' = 5 then "quintic".toList else 'd' :: 'e' :: 'g' :: (pyStrInt d').toList).length ∨ t = [] := by
    by_cases e3 : d = 3
    · by_cases e3' : d' = 3
      · left; simp [e3, e3']
      · exfalso
        have := mem 'b' (by simp [e3])
        revert this
        split_ifs <;> simp [nn 'b' (by decide)]
    by_cases e4 : d = 4
    · by_cases e4' : d' = 4
      · left; simp [e4, e4']
      · exfalso
        have := mem 'r' (by simp [e4])
        revert this
        split_ifs <;> simp [nn 'r' (by decide)]
    by_cases e5 : d = 5
    · by_cases e5' : d' = 5
      · left; simp [e5, e5']
      · exfalso
        have := mem 'n' (by simp [e5])
        revert this
        split_ifs <;> simp [nn 'n' (by decide)]
    rw [if_neg e3, if_neg e4, if_neg e5] at h mem
    have hd' : ¬ d' = 3 ∧ ¬ d' = 4 ∧ ¬ d' = 5 := by
      have := mem 'd' (by simp)
      refine ⟨?_, ?_, ?_⟩ <;> intro e <;> subst e <;> revert this <;> decide
    rw [if_neg hd'.1, if_neg hd'.2.1, if_neg hd'.2.2] at h
    right
    rcases t with _ | ⟨c, t⟩
    · rfl
    · exfalso
      simp only [List.cons_append, List.cons.injEq] at h
      have : 'd' ∈ 'e' :: 'g' :: (pyStrInt d').toList := by rw [h.2]; simp
      simp [nn 'd' (by decide)] at this
  rcases hlen with h' | h'
  · rw [h'] at hl
    exact List.length_eq_zero_iff.mp (by omega)
  · exact h'

theorem fmt_dotMatch (s s' : ℚ) (h : DotMatch (fmtFixed 3 s).toList (fmtFixed 3 s').toList) :
    (fmtFixed 3 s').toList = (fmtFixed 3 s).toList := by
  have hl := dotMatch_length _ _ h
  have hsplit : ∀ s : ℚ, ∃ A P, (fmtFixed 3 s).toList = A ++ '.' :: P ∧ '.' ∉ A ∧ '.' ∉ P ∧ P.length = 3 := by
    intro s
    refine ⟨(if s < 0 then ['-'] else []) ++ Nat.toDigits 10 (roundHalfEven (|s| * 10 ^ 3) / 10 ^ 3),
      padDigits 3 (roundHalfEven (|s| * 10 ^ 3)), ?_, ?_, ?_, padDigits_length _ _⟩
    · rw [fmtFixed_toList, List.append_assoc]
    · rw [List.mem_append, not_or]
      exact ⟨by split_ifs <;> decide, fun h => absurd (toDigits_isDigit _ _ h) (by decide)⟩
    · exact fun h => absurd (padDigits_isDigit _ _ _ h) (by decide)
  obtain ⟨A, P, e, hA, hP, lP⟩ := hsplit s
  obtain ⟨A', P', e', hA', hP', lP'⟩ := hsplit s'
  rw [e, e'] at h hl
  simp only [List.length_append, List.length_cons] at hl
  obtain ⟨x, y, h1, h2, h3⟩ := dotMatch_append _ _ _ h
  have hx := dotMatch_eq _ _ hA h2
  subst hx
  cases h3 with
  | cons h4 h5 =>
    have hz := dotMatch_eq _ _ hP h5
    have := List.append_inj h1 (by omega)
    obtain ⟨rfl, h6⟩ := this
    simp only [List.cons.injEq] at h6
    rw [e, e', h6.2, hz]

theorem shape_suffix (H : List Char) (hH : H = [] ∨ H = "_heuristic".toList) (n m t u : List Char)
    (hn : Shape H n) (hm : Shape H m) (he : m = t ++ u) (hu : DotMatch n u) : m = n := by
  have hHc : ∀ c ∈ H, c ∈ "_heuristic".toList := by
    rcases hH with rfl | rfl
    · simp
    · exact fun c h => h
  have nosp : ∀ c, (c.isDigit || c == '-' || c == '.') = false → c ∉ "cubic".toList ++ "quartic".toList ++ "quintic".toList ++
      "deg".toList ++ "-spline_".toList ++ "_heuristic".toList → ∀ d s,
      c ∉ ((splineName d).toList ++ ("-spline_".toList ++ ((fmtFixed 3 s).toList ++ H))) := by
    intro c hc h d s
    simp only [List.mem_append, not_or] at h ⊢
    obtain ⟨⟨⟨⟨⟨h1, h2⟩, h3⟩, h4⟩, h5⟩, h6⟩ := h
    exact ⟨not_mem_splineName d c (not_numeral_of c hc) ⟨h1, h2, h3, h4⟩, h5,
      not_mem_fmtFixed s c (not_numeral_of c hc), fun h => h6 (hHc c h)⟩
  cases hn with
  | poly d =>
    have hdot : '.' ∉ "poly_".toList ++ (pyStrInt d).toList := by
      rw [List.mem_append, not_or]; exact ⟨by decide, dot_not_mem_pyStrInt d⟩
    have := dotMatch_eq _ _ hdot hu
    subst this
    have hy : 'y' ∈ m := by rw [he]; simp
    cases hm with
    | poly d' =>
      rcases t with _ | ⟨c, t⟩
      · exact he
      · exfalso
        have e2 : "poly_".toList ++ (pyStrInt d').toList = 'p' :: ("oly_".toList ++ (pyStrInt d').toList) := rfl
        rw [e2] at he
        simp only [List.cons_append, List.cons.injEq] at he
        have : 'p' ∈ "oly_".toList ++ (pyStrInt d').toList := by rw [he.2]; simp
        rw [List.mem_append] at this
        rcases this with h | h
        · revert h; decide
        · exact not_mem_pyStrInt d' 'p' (not_numeral_of _ (by decide)) h
    | spline d' s' => exact absurd hy (nosp 'y' (by decide) (by decide) d' s')
    | gompertz => exact absurd hy (by decide)
  | gompertz =>
    have := dotMatch_eq _ _ (by decide) hu
    subst this
    have hy : 'm' ∈ m := by rw [he]; simp
    cases hm with
    | poly d' =>
      exfalso
      rw [List.mem_append] at hy
      rcases hy with h | h
      · revert h; decide
      · exact absurd h (not_mem_pyStrInt d' 'm' (not_numeral_of _ (by decide)))
    | spline d' s' => exact absurd hy (nosp 'm' (by decide) (by decide) d' s')
    | gompertz => rfl
  | spline d s =>
    obtain ⟨a, w1, rfl, h1, h2⟩ := dotMatch_append _ _ _ hu
    obtain ⟨b, w, rfl, h3, h4⟩ := dotMatch_append _ _ _ h2
    have ha := dotMatch_eq _ _ (fun hc => by
      rw [splineName_toList] at hc
      revert hc
      split_ifs
      · decide
      · decide
      · decide
      · simp [dot_not_mem_pyStrInt]) h1
    have hb := dotMatch_eq _ _ (by decide) h3
    subst ha hb
    have hy : 'i' ∈ m ∧ 'l' ∈ m ∧ 's' ∈ m := by rw [he]; simp
    cases hm with
    | poly d' =>
      exfalso
      have := hy.2.2
      rw [List.mem_append] at this
      rcases this with h | h
      · revert h; decide
      · exact absurd h (not_mem_pyStrInt d' 's' (not_numeral_of _ (by decide)))
    | gompertz => exact absurd hy.2.2 (by decide)
    | spline d' s' =>
      have el : "-spline_".toList = "-sp".toList ++ 'l' :: "ine_".toList := by decide
      have hnl : ∀ d, 'l' ∉ (splineName d).toList ++ "-sp".toList := by
        intro d
        rw [List.mem_append, not_or]
        exact ⟨not_mem_splineName d 'l' (not_numeral_of _ (by decide)) (by decide), by decide⟩
      have hnr : 'l' ∉ "ine_".toList ++ ((fmtFixed 3 s').toList ++ H) := by
        simp only [List.mem_append, not_or]
        exact ⟨by decide, not_mem_fmtFixed s' 'l' (not_numeral_of _ (by decide)),
          fun h => absurd (hHc _ h) (by decide)⟩
      have he1 : ((splineName d').toList ++ "-sp".toList) ++ 'l' :: ("ine_".toList ++ ((fmtFixed 3 s').toList ++ H)) =
          (t ++ (splineName d).toList ++ "-sp".toList) ++ 'l' :: ("ine_".toList ++ w) := by
        rw [el] at he
        simpa only [List.append_assoc, List.cons_append] using he
      have hc := congrArg (List.count 'l') he1
      rw [List.count_append (l₁ := (splineName d').toList ++ "-sp".toList),
        List.count_append (l₁ := t ++ (splineName d).toList ++ "-sp".toList),
        List.count_cons_self, List.count_cons_self,
        List.count_eq_zero.mpr (hnl d'), List.count_eq_zero.mpr hnr] at hc
      have ht : 'l' ∉ t ++ (splineName d).toList ++ "-sp".toList := List.count_eq_zero.mp (by omega)
      obtain ⟨q1, q2⟩ := split_at_sep 'l' _ _ _ _ (hnl d') ht he1
      have q3 : (splineName d').toList = t ++ (splineName d).toList := List.append_cancel_right q1
      have q4 : (fmtFixed 3 s').toList ++ H = w := List.append_cancel_left q2
      have t0 := splineName_suffix d d' t q3
      subst t0
      subst q4
      obtain ⟨x, y, g1, g2, g3⟩ := dotMatch_append _ _ _ h4
      have gl := dotMatch_length _ _ g3
      have gx := List.append_inj_left' g1 gl
      subst gx
      rw [q3, fmt_dotMatch s s' g2]
      rfl

/-- `filter(regex=n + "--score")` matches a summary column exactly if it is the score column of `n`. -/
theorem dotSearch_score (a : FitArgs) (n : String) (hn : n ∈ smootherNames a) (x : String)
    (hx : x ∈ summaryNames (smootherNames a)) :
    dotSearch (n ++ "--score").toList x.toList = true ↔ x = n ++ "--score" := by
  constructor
  · intro h
    rw [dotSearch_iff] at h
    obtain ⟨t, u, v, he, hm⟩ := h
    rw [String.toList_append] at hm
    obtain ⟨u1, u2, rfl, h1, h2⟩ := dotMatch_append _ _ _ hm
    have := dotMatch_eq _ _ (by decide) h2
    subst this
    have e1 : "--score".toList = "--".toList ++ "score".toList := by decide
    have hinf : "score".toList <:+: x.toList := by
      refine ⟨t ++ u1 ++ "--".toList, v, ?_⟩
      rw [he, e1]
      simp only [List.append_assoc]
    have hno : ∀ (m suf : String), m ∈ smootherNames a → NoSC suf.toList → x ≠ m ++ suf := by
      intro m suf hm' hsuf hc
      subst hc
      rw [String.toList_append] at hinf
      have hg := goodName_names a m hm'
      exact not_score_infix _ (GoodName_append_list _ _ hg.1 hsuf hg.2) hinf
    simp only [summaryNames, List.mem_append, List.mem_flatMap, List.mem_cons, List.not_mem_nil, or_false] at hx
    rcases hx with (hx | hx | hx) | ⟨m, hmm, hx⟩
    · subst hx; exact absurd hinf (by decide)
    · subst hx; exact absurd hinf (by decide)
    · subst hx; exact absurd hinf (by decide)
    rcases hx with hx | hx | hx | hx
    · exact absurd hx (hno m _ hmm (by decide))
    · exact absurd hx (hno m _ hmm (by decide))
    · exact absurd hx (hno m _ hmm (by decide))
    subst hx
    have hg := goodName_names a m hmm
    have he' : (m.toList ++ "--".toList) ++ "score".toList =
        (t ++ u1 ++ "--".toList) ++ ("score".toList ++ v) := by
      rw [String.toList_append, e1] at he
      simpa only [List.append_assoc] using he
    obtain ⟨p1, -⟩ := score_position _ _ _ (GoodName_append_list _ _ hg.1 (by decide) hg.2) he'
    have p2 : m.toList = t ++ u1 := (List.append_cancel_right p1).symm
    obtain ⟨H, hH, hS⟩ := shape_names a
    have := shape_suffix H hH _ _ t u1 (hS n hn) (hS m hmm) p2 h1
    rw [String.ext this]
  · rintro rfl
    rw [dotSearch_iff]
    exact ⟨[], _, [], by simp, dotMatch_refl _⟩

end Report
end RMT

namespace RMT
namespace Report

theorem filter_zipIdx_nodup (l : List String) (h : l.Nodup) (j : Nat) (hj : j < l.length) :
    (l.zipIdx.filter fun p => decide (p.1 = l[j])) = [(l[j], j)] := by
  have gen : ∀ (l : List String), l.Nodup → ∀ k j (hj : j < l.length),
      ((l.zipIdx k).filter fun p => decide (p.1 = l[j])) = [(l[j], k + j)] := by
    intro l
    induction l with
    | nil => intro _ k j hj; simp at hj
    | cons a l ih =>
      intro h k j hj
      obtain ⟨ha, hl⟩ := List.nodup_cons.mp h
      cases j with
      | zero =>
        simp only [List.getElem_cons_zero, List.zipIdx_cons, List.filter_cons, decide_true, if_true, Nat.add_zero,
          List.cons.injEq, true_and, List.filter_eq_nil_iff, decide_eq_true_eq]
        intro p hp he
        exact ha (he ▸ List.fst_mem_of_mem_zipIdx hp)
      | succ j =>
        have hj' : j < l.length := by simpa using hj
        have hne : ¬ a = l[j] := fun he => ha (he ▸ List.getElem_mem hj')
        simp only [List.getElem_cons_succ, List.zipIdx_cons, List.filter_cons, hne, decide_false,
          Bool.false_eq_true, if_false]
        rw [ih hl (k + 1) j hj', show k + 1 + j = k + (j + 1) by omega]
  simpa using gen l h 0 j hj

end Report
end RMT
