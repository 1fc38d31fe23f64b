import Verif.Model.Missing
import Verif.Lemmas.Sort
import Verif.Lemmas.Eigenvalues

/-!
# C189: missing and infinite values

`Finite`-only behaviour is in the other modules; `C189_finite` shows that this model agrees with theirs there.
-/

namespace RMT
namespace Props
open Missing EigValsM EigM

/-- The values that are not missing, in their order. -/
noncomputable def present (l : List Fl) : List Fl := open Classical in l.filter fun v => decide (v ≠ Fl.nan)

/-- The number of missing values. -/
noncomputable def missing (l : List Fl) : ℕ := open Classical in l.count Fl.nan

theorem mem_pick (p : Fl → Prop) (l : List Fl) (v : Fl) : v ∈ pick p l ↔ v ∈ l ∧ p v := by
  classical
  simp [pick]

theorem le_nan (a : Fl) : a ≤ Fl.nan := by
  change a.key ≤ Fl.key .nan
  exact le_top

theorem nan_le (a : Fl) (h : Fl.nan ≤ a) : a = Fl.nan := le_antisymm (le_nan a) h

theorem sort_split (l : List Fl) : npSort l = npSort (present l) ++ List.replicate (missing l) Fl.nan := by
  classical
  refine npSort_unique ?_ ?_
  · have h1 : ((l.filter fun v => decide (v ≠ Fl.nan)) ++ (l.filter fun v => ! decide (v ≠ Fl.nan))).Perm l := List.filter_append_perm _ _
    have h2 : (l.filter fun v => ! decide (v ≠ Fl.nan)) = List.replicate (missing l) Fl.nan := by
      have : (fun v : Fl => ! decide (v ≠ Fl.nan)) = fun v => v == Fl.nan := by
        funext v
        by_cases h : v = Fl.nan <;> simp [h]
      rw [this, missing, ← List.filter_beq]
    rw [← h2]
    exact ((npSort_perm _).append_right _).trans h1
  · refine List.pairwise_append.2 ⟨npSort_ascending _, ?_, ?_⟩
    · exact List.pairwise_replicate.2 (Or.inr le_rfl)
    · intro a _ b hb
      rw [List.eq_of_mem_replicate hb]
      exact le_nan a

theorem not_nan_of_present {l : List Fl} {v : Fl} (h : v ∈ npSort (present l)) : v ≠ Fl.nan := by
  classical
  have := (npSort_perm _).mem_iff.1 h
  simp only [present, List.mem_filter, decide_eq_true_eq] at this
  exact this.2

/-- **C189.** The constructor accepts every one-dimensional array: the stored values are the values that are not NaN in ascending order, followed by the NaNs, as many as there were. -/
theorem C189_construct (l : List Fl) : ∃ o, initEigVals1d l = .ok o ∧ o.construct = o.vals ∧
    ∃ s, o.vals = s ++ List.replicate (missing l) Fl.nan ∧ s.Perm (present l) ∧ s.Pairwise Fl.Le := by
  refine ⟨_, initEigVals1d_ok l, rfl, npSort (present l), sort_split l, npSort_perm _, ?_⟩
  refine List.Pairwise.imp_of_mem ?_ (npSort_ascending (present l))
  intro a b ha hb hab
  exact ⟨not_nan_of_present ha, not_nan_of_present hb, hab⟩

theorem sub_nan (a : Fl) : a - Fl.nan = Fl.nan := by cases a <;> rfl

theorem nan_sub (a : Fl) : Fl.nan - a = Fl.nan := by cases a <;> rfl

theorem diff_replicate (k : ℕ) : diff (List.replicate k Fl.nan) = List.replicate (k - 1) Fl.nan := by
  induction k with
  | zero => rfl
  | succ k ih =>
    cases k with
    | zero => rfl
    | succ k =>
      have : diff (List.replicate (k + 1 + 1) Fl.nan) = (Fl.nan - Fl.nan) :: diff (List.replicate (k + 1) Fl.nan) := rfl
      rw [this, ih, nan_sub]
      rfl

theorem diff_cons_replicate (a : Fl) (k : ℕ) : diff (a :: List.replicate k Fl.nan) = List.replicate k Fl.nan := by
  cases k with
  | zero => rfl
  | succ k =>
    have : diff (a :: List.replicate (k + 1) Fl.nan) = (Fl.nan - a) :: diff (List.replicate (k + 1) Fl.nan) := rfl
    rw [this, diff_replicate, nan_sub]
    rfl

theorem diff_append_replicate (k : ℕ) : ∀ s : List Fl, diff (s ++ List.replicate k Fl.nan) = diff s ++ List.replicate (if s = [] then k - 1 else k) Fl.nan
  | [] => by simpa [diff] using diff_replicate k
  | [a] => by simpa [diff] using diff_cons_replicate a k
  | a :: b :: s => by
    have h := diff_append_replicate k (b :: s)
    simp only [List.cons_append, reduceCtorEq, if_false] at h ⊢
    have h1 : diff (a :: b :: (s ++ List.replicate k Fl.nan)) = (b - a) :: diff (b :: (s ++ List.replicate k Fl.nan)) := rfl
    rw [h1, h]
    rfl

theorem spacing_sign (a b : Fl) (hab : Fl.Le a b) : (b - a = Fl.nan ∧ a = b ∧ (a = Fl.posInf ∨ a = Fl.negInf)) ∨ Fl.Le (.fin 0) (b - a) := by
  obtain ⟨ha, hb, h⟩ := hab
  change a.key ≤ b.key at h
  have key : ∀ x : Fl, Fl.Le (.fin 0) x ↔ x ≠ Fl.nan ∧ (Fl.fin 0).key ≤ x.key := fun x => ⟨fun h => ⟨h.2.1, h.2.2⟩, fun h => ⟨by simp, h.1, h.2⟩⟩
  rw [key]
  cases a <;> cases b
  case fin.fin x y =>
    refine Or.inr ⟨by simp [HSub.hSub, Sub.sub, Fl.sub], ?_⟩
    have e : Fl.fin y - Fl.fin x = Fl.fin (y - x) := rfl
    rw [e]
    have h2 : x ≤ y := by simpa [Fl.key] using h
    change (((0 : ℝ) : EReal) : WithTop EReal) ≤ (((y - x : ℝ) : EReal) : WithTop EReal)
    rw [WithTop.coe_le_coe, EReal.coe_le_coe_iff]
    linarith
  all_goals simp_all [Fl.key, HSub.hSub, Sub.sub, Fl.sub]

/-- **C189.** Missing values do not change the spacings of the other values: the spacings of the object are those of the object made from the values that are not NaN, followed by NaNs, one per missing value (one less
if all values are missing). -/
theorem C189_spacings (l : List Fl) (o o' : Obj Fl) (h : initEigVals1d l = .ok o) (h' : initEigVals1d (present l) = .ok o') :
    spacings o = spacings o' ++ List.replicate (if present l = [] then missing l - 1 else missing l) Fl.nan := by
  rw [initEigVals1d_ok] at h h'
  cases h
  cases h'
  have e : ∀ m : List Fl, npSort (npSort m) = npSort m := fun m => npSort_of_ascending _ (npSort_ascending m)
  simp only [spacings, e]
  rw [sort_split, diff_append_replicate]
  have hn : npSort (present l) = [] ↔ present l = [] := by
    rw [← List.length_eq_zero_iff, (npSort_perm _).length_eq, List.length_eq_zero_iff]
  simp only [hn]

theorem mem_diff (d : Fl) : ∀ s : List Fl, s.Pairwise Fl.Le → d ∈ diff s → ∃ a b, Fl.Le a b ∧ d = b - a ∧ (a = b → 2 ≤ open Classical in s.count a)
  | [], _, hd => by simp [diff] at hd
  | [a], _, hd => by simp [diff] at hd
  | a :: b :: s, hs, hd => by
    classical
    have h1 : diff (a :: b :: s) = (b - a) :: diff (b :: s) := rfl
    rw [h1, List.mem_cons] at hd
    rcases hd with hd | hd
    · refine ⟨a, b, List.rel_of_pairwise_cons hs (by simp), hd, ?_⟩
      rintro rfl
      simp
    · obtain ⟨x, y, h2, h3, h4⟩ := mem_diff d (b :: s) hs.of_cons hd
      refine ⟨x, y, h2, h3, fun h => (h4 h).trans ?_⟩
      convert List.count_le_count_cons using 2

/-- **C189.** Without missing values a spacing is NaN only if an infinity of one sign is there twice; every other spacing is at least zero. -/
theorem C189_spacing_sign (l : List Fl) (hl : Fl.nan ∉ l) (o : Obj Fl) (h : initEigVals1d l = .ok o) (d : Fl) (hd : d ∈ spacings o) :
    Fl.Le (.fin 0) d ∨ (d = Fl.nan ∧ ∃ a, (a = Fl.posInf ∨ a = Fl.negInf) ∧ 2 ≤ open Classical in l.count a) := by
  classical
  rw [initEigVals1d_ok] at h
  cases h
  have e : npSort (npSort l) = npSort l := npSort_of_ascending _ (npSort_ascending l)
  simp only [spacings, e] at hd
  have hp : (npSort l).Pairwise Fl.Le := by
    refine List.Pairwise.imp_of_mem ?_ (npSort_ascending l)
    intro a b ha hb hab
    exact ⟨fun h => hl (h ▸ (npSort_perm l).mem_iff.1 ha), fun h => hl (h ▸ (npSort_perm l).mem_iff.1 hb), hab⟩
  obtain ⟨a, b, h1, h2, h3⟩ := mem_diff d _ hp hd
  rcases spacing_sign a b h1 with ⟨h4, h5, h6⟩ | h4
  · refine Or.inr ⟨h2.trans h4, a, h6, ?_⟩
    have := h3 h5
    convert this using 1
    exact ((npSort_perm l).count_eq a).symm
  · exact Or.inl (h2 ▸ h4)

/-- **C189.** `step_values(eigs, x)` for a number `x` counts the values at most `x` among those that are not missing; for `x = NaN` it is 0. -/
theorem C189_step (l : List Fl) (x : Fl) : stepScalar l x = stepScalar (present l) x ∧ stepScalar l Fl.nan = 0 ∧
    (∀ r : List ℝ, ∀ y : ℝ, stepScalar (r.map Fl.fin) (.fin y) = r.countP fun v => decide (v ≤ y)) := by
  classical
  refine ⟨?_, ?_, ?_⟩
  · unfold stepScalar pick present
    rw [List.filter_filter]
    congr 1
    apply List.filter_congr
    intro v _
    by_cases h : v = Fl.nan
    · simp [h, Fl.Le]
    · simp [h]
  · unfold stepScalar pick
    simp [Fl.Le]
  · intro r y
    unfold stepScalar pick
    rw [← List.countP_eq_length_filter, List.countP_map]
    apply List.countP_congr
    intro v _
    simp only [Function.comp, decide_eq_true_eq]
    refine ⟨fun h => ?_, fun h => ⟨by simp, by simp, ?_⟩⟩
    · have : (Fl.fin v).key ≤ (Fl.fin y).key := h.2.2
      simpa [Fl.key] using this
    · change (Fl.fin v).key ≤ (Fl.fin y).key
      simpa [Fl.key] using h

theorem le_max (l : List Fl) (m : Fl) (h : npMaxFl l = .ok m) : m ∈ l ∧ ∀ v ∈ l, v ≤ m := by
  have hne : l ≠ [] := by
    rintro rfl
    simp [npMaxFl, npMax] at h
  obtain ⟨m', h1, h2, h3⟩ := npMax_ok hne
  have e : m = m' := by
    rw [npMaxFl, h1] at h
    exact (Except.ok.inj h).symm
  rw [e]
  exact ⟨h2, h3⟩

theorem max_nan (l : List Fl) (h : Fl.nan ∈ l) : npMaxFl l = .ok Fl.nan := by
  cases l with
  | nil => simp at h
  | cons a l =>
    have e : npMaxFl (a :: l) = .ok (maxOf a l) := rfl
    rw [e, nan_le _ ((le_max _ _ e).2 _ h)]

theorem pick_nil (p : Fl → Prop) (l : List Fl) (h : ∀ v ∈ l, ¬ p v) : pick p l = [] := by
  rw [List.eq_nil_iff_forall_not_mem]
  intro v hv
  rw [mem_pick] at hv
  exact h v hv.1 hv.2

theorem sort_nil : npSort ([] : List Fl) = [] := by simp [npSort]

theorem fin_le (x y : ℝ) : Fl.fin x ≤ Fl.fin y ↔ x ≤ y := by
  change (Fl.fin x).key ≤ (Fl.fin y).key ↔ _
  simp [Fl.key]

theorem fin_lt (x y : ℝ) : Fl.fin x < Fl.fin y ↔ x < y := by
  rw [← not_le, fin_le, not_le]

/-- A call of the trimming with known maximum. -/
theorem trim_eq (N T : ℕ) (hT : T ≠ 0) (l : List Fl) (m : Fl) (hm : npMaxFl l = .ok m) (largest shifted : Bool) : trimSizes N T l largest shifted =
    let lo := if shifted then Fl.scale ((1 - √((N : ℝ) / T)) ^ 2) (Fl.fin 1 - Fl.divNat N m) else Fl.fin ((1 - √((N : ℝ) / T)) ^ 2)
    let hi := if shifted then Fl.scale ((1 + √((N : ℝ) / T)) ^ 2) (Fl.fin 1 - Fl.divNat N m) else Fl.fin ((1 + √((N : ℝ) / T)) ^ 2)
    let k := npSort (if largest then pick (fun v => Fl.Lt hi v) l else pick (fun v => Fl.Lt lo v ∧ Fl.Lt v hi) l)
    .ok (⟨k, k, none⟩, lo, hi) := by
  unfold trimSizes
  cases shifted <;> simp [hm, bind, Except.bind, hT, initEigVals1d_ok]

/-- **C189.** Whatever the options, no value that `trim_marchenko_pastur` keeps is missing, and the values kept are values of the object. -/
theorem C189_kept (N T : ℕ) (l : List Fl) (largest shifted : Bool) (o : Obj Fl) (lo hi : Fl) (h : trimSizes N T l largest shifted = .ok (o, lo, hi)) (v : Fl) :
    v ∈ o.vals ↔ v ∈ l ∧ if largest then Fl.Lt hi v else Fl.Lt lo v ∧ Fl.Lt v hi := by
  unfold trimSizes at h
  cases hm : npMaxFl l with
  | error e => simp [hm, bind, Except.bind] at h
  | ok m =>
    by_cases hT : T = 0
    · simp [hm, bind, Except.bind, hT] at h
    · simp only [hm, bind, Except.bind, if_neg hT, initEigVals1d_ok, Except.ok.injEq, Prod.mk.injEq] at h
      obtain ⟨rfl, h2⟩ := h
      simp only [h2]
      cases largest
      · simp only [Bool.false_eq_true, if_false, (npSort_perm _).mem_iff, mem_pick]
      · simp only [if_true, (npSort_perm _).mem_iff, mem_pick]

/-- **C189.** With the unshifted cut points missing values have no influence: if not all values are missing, the result is that of the object made from the others. -/
theorem C189_unshifted (N T : ℕ) (l : List Fl) (hl : present l ≠ []) (largest : Bool) :
    trimSizes N T l largest false = trimSizes N T (present l) largest false := by
  classical
  have hp : ∀ p : Fl → Prop, (∀ v, p v → v ≠ Fl.nan) → pick p l = pick p (present l) := by
    intro p h
    unfold pick present
    rw [List.filter_filter]
    apply List.filter_congr
    intro v _
    by_cases hv : v = Fl.nan
    · have : ¬ p Fl.nan := fun hh => h _ hh rfl
      simp [hv, this]
    · simp [hv]
  have hne : l ≠ [] := by
    rintro rfl
    simp [present] at hl
  have hm : ∀ k : List Fl, k ≠ [] → ∃ m, npMaxFl k = .ok m := by
    intro k hk
    cases k with
    | nil => exact absurd rfl hk
    | cons a k => exact ⟨_, rfl⟩
  obtain ⟨m, h1⟩ := hm l hne
  obtain ⟨m', h2⟩ := hm _ hl
  unfold trimSizes
  simp only [h1, h2, bind, Except.bind, Bool.false_eq_true, if_false]
  rw [hp (fun v => Fl.Lt (Fl.fin ((1 + √((N : ℝ) / T)) ^ 2)) v) fun v h => h.2.1,
    hp (fun v => Fl.Lt (Fl.fin ((1 - √((N : ℝ) / T)) ^ 2)) v ∧ Fl.Lt v (Fl.fin ((1 + √((N : ℝ) / T)) ^ 2))) fun v h => h.2.1]

/-- **C189.** With the shifted cut points one missing value makes both cut points NaN and removes every value, for either setting of `largest`. -/
theorem C189_shifted_partial (N T : ℕ) (hT : T ≠ 0) (l : List Fl) (hl : Fl.nan ∈ l) (largest : Bool) :
    trimSizes N T l largest true = .ok (⟨[], [], none⟩, Fl.nan, Fl.nan) := by
  unfold trimSizes
  simp only [max_nan l hl, bind, Except.bind, if_neg hT, if_true, initEigVals1d_ok]
  have e : Fl.fin 1 - Fl.divNat N Fl.nan = Fl.nan := sub_nan _
  rw [e]
  have h1 : pick (fun v => Fl.Lt (Fl.scale ((1 + √((N : ℝ) / T)) ^ 2) Fl.nan) v) l = [] := pick_nil _ _ fun v _ h => h.1 rfl
  have h2 : pick (fun v => Fl.Lt (Fl.scale ((1 - √((N : ℝ) / T)) ^ 2) Fl.nan) v ∧ Fl.Lt v (Fl.scale ((1 + √((N : ℝ) / T)) ^ 2) Fl.nan)) l = [] := pick_nil _ _ fun v _ h => h.1.1 rfl
  simp only [h1, h2, ite_self, sort_nil]
  rfl

/-- **C189.** So the shifted trimming does depend on missing values: of the eigenvalues 5 and 1, for 50 series of 450 points, the bulk is 1; with a NaN in addition it is empty. -/
theorem C189_shifted_refuted : ¬ ∀ (N T : ℕ) (l : List Fl), N ≠ 0 → T ≠ 0 → present l ≠ [] → ∀ largest o c o' c', trimSizes N T l largest true = .ok (o, c) →
    trimSizes N T (present l) largest true = .ok (o', c') → o.vals = o'.vals := by
  intro hall
  have hl : present [Fl.fin 1, Fl.fin 5, Fl.nan] = [Fl.fin 1, Fl.fin 5] := by simp [present]
  have h1 := C189_shifted_partial 50 450 (by norm_num) [Fl.fin 1, Fl.fin 5, Fl.nan] (by simp) false
  obtain ⟨o', lo, hi, h2, h3⟩ : ∃ o' lo hi, trimSizes 50 450 [Fl.fin 1, Fl.fin 5] false true = .ok (o', lo, hi) ∧ Fl.fin 1 ∈ o'.vals := by
    have hm : npMaxFl [Fl.fin 1, Fl.fin 5] = .ok (Fl.fin 5) := npMax_eq (by simp) (by simp [fin_le])
    have hq : √(((50 : ℕ) : ℝ) / (450 : ℕ)) = 1 / 3 := by
      rw [show (((50 : ℕ) : ℝ) / (450 : ℕ)) = (1 / 3) ^ 2 by norm_num]
      exact Real.sqrt_sq (by norm_num)
    refine ⟨_, _, _, trim_eq 50 450 (by norm_num) _ _ hm false true, ?_⟩
    simp only [Bool.false_eq_true, if_false, if_true, (npSort_perm _).mem_iff, mem_pick, hq]
    have e : Fl.fin 1 - Fl.divNat 50 (Fl.fin 5) = Fl.fin (9 / 10) := by
      have : Fl.fin 1 - Fl.divNat 50 (Fl.fin 5) = Fl.fin (1 - 5 / (50 : ℕ)) := by simp [Fl.divNat, HSub.hSub, Sub.sub, Fl.sub]
      rw [this]
      norm_num
    rw [e]
    simp only [Fl.scale, Fl.Lt, ne_eq, reduceCtorEq, not_false_eq_true, true_and, fin_lt]
    refine ⟨by simp, ?_, ?_⟩ <;> norm_num
  have := hall 50 450 [Fl.fin 1, Fl.fin 5, Fl.nan] (by norm_num) (by norm_num) (by simp [present]) false _ _ _ _ h1 (hl ▸ h2)
  rw [← this] at h3
  simp at h3

/-- **C189.** An infinite value (and no missing one) moves the shifted cut points to minus infinity (the lower one is NaN if there are as many series as points): `largest=True` keeps every value but minus infinity, `largest=False` keeps none. -/
theorem C189_infinite (N T : ℕ) (hN : N ≠ 0) (hT : T ≠ 0) (l : List Fl) (hn : Fl.nan ∉ l) (hl : Fl.posInf ∈ l) :
    (∃ o, trimSizes N T l true true = .ok (o, if N = T then Fl.nan else Fl.negInf, Fl.negInf) ∧ ∀ v, v ∈ o.vals ↔ v ∈ l ∧ v ≠ Fl.negInf) ∧
    trimSizes N T l false true = .ok (⟨[], [], none⟩, if N = T then Fl.nan else Fl.negInf, Fl.negInf) := by
  have hm : npMaxFl l = .ok Fl.posInf := by
    refine npMax_eq hl fun x hx => ?_
    have : x ≠ Fl.nan := fun h => hn (h ▸ hx)
    change x.key ≤ Fl.key .posInf
    cases x <;> simp_all [Fl.key]
  have hs : Fl.fin 1 - Fl.divNat N Fl.posInf = Fl.negInf := rfl
  have hN' : (0 : ℝ) < N := by exact_mod_cast Nat.pos_of_ne_zero hN
  have hT' : (0 : ℝ) < T := by exact_mod_cast Nat.pos_of_ne_zero hT
  have hq0 : 0 ≤ √((N : ℝ) / T) := Real.sqrt_nonneg _
  have hhi : Fl.scale ((1 + √((N : ℝ) / T)) ^ 2) Fl.negInf = Fl.negInf := by
    have : (0 : ℝ) < (1 + √((N : ℝ) / T)) ^ 2 := by positivity
    simp only [Fl.scale]
    rw [if_neg this.ne', if_pos this]
  have hlo : Fl.scale ((1 - √((N : ℝ) / T)) ^ 2) Fl.negInf = if N = T then Fl.nan else Fl.negInf := by
    by_cases h : N = T
    · have : √((N : ℝ) / T) = 1 := by rw [h, div_self hT'.ne', Real.sqrt_one]
      rw [this, if_pos h]
      simp [Fl.scale]
    · have h1 : √((N : ℝ) / T) ≠ 1 := by
        intro h1
        rw [Real.sqrt_eq_one, div_eq_one_iff_eq hT'.ne'] at h1
        exact h (by exact_mod_cast h1)
      have h2 : (0 : ℝ) < (1 - √((N : ℝ) / T)) ^ 2 := by
        have : 1 - √((N : ℝ) / T) ≠ 0 := sub_ne_zero.2 h1.symm
        positivity
      simp only [Fl.scale]
      rw [if_neg h2.ne', if_pos h2, if_neg h]
  have hbot : ∀ v : Fl, Fl.Lt Fl.negInf v ↔ v ≠ Fl.nan ∧ v ≠ Fl.negInf := by
    intro v
    have key : Fl.negInf < v ↔ v ≠ Fl.negInf := by
      rw [← not_le]
      refine not_congr ⟨fun h => le_antisymm h ?_, fun h => h ▸ le_rfl⟩
      change Fl.key .negInf ≤ v.key
      cases v <;> simp [Fl.key]
    simp [Fl.Lt, key]
  have h1 := trim_eq N T hT l _ hm true true
  simp only [if_true, hs, hhi, hlo] at h1
  refine ⟨⟨_, h1, fun v => ?_⟩, ?_⟩
  · simp only [(npSort_perm _).mem_iff, mem_pick, hbot]
    exact ⟨fun h => ⟨h.1, h.2.2⟩, fun h => ⟨h.1, fun e => hn (e ▸ h.1), h.2⟩⟩
  · rw [trim_eq N T hT l _ hm]
    simp only [if_true, hs, hhi, hlo, Bool.false_eq_true, if_false]
    have : pick (fun v => Fl.Lt (if N = T then Fl.nan else Fl.negInf) v ∧ Fl.Lt v Fl.negInf) l = [] := by
      refine pick_nil _ _ fun v _ h => ?_
      have h2 := h.2.2.2
      have : Fl.negInf ≤ v := by
        change Fl.key .negInf ≤ v.key
        cases v <;> simp [Fl.key]
      exact absurd h2 (not_lt.2 this)
    rw [this, sort_nil]

/-- **C189.** On finite values this model is that of C41, for at least one series. -/
theorem C189_finite (N T : ℕ) (hN : N ≠ 0) (l : List ℝ) (largest shifted : Bool) :
    trimSizes N T (l.map Fl.fin) largest shifted = (marchenkoPasturWith N T l largest shifted).map fun r => (⟨r.1.construct.map Fl.fin, r.1.vals.map Fl.fin, r.1.cache⟩, Fl.fin r.2.1, Fl.fin r.2.2) := by
  classical
  have hs : ∀ k : List ℝ, npSort (k.map Fl.fin) = (npSort k).map Fl.fin := by
    intro k
    refine npSort_unique ((npSort_perm k).map _) ?_
    exact List.pairwise_map.2 ((npSort_ascending k).imp fun h => (fin_le _ _).2 h)
  have hL : ∀ x y : ℝ, Fl.Lt (.fin x) (.fin y) ↔ x < y := by
    intro x y
    simp [Fl.Lt, fin_lt]
  by_cases hne : l = []
  · subst hne
    rfl
  obtain ⟨m, h1, h2, h3⟩ := npMax_ok hne
  have hm : npMaxFl (l.map Fl.fin) = .ok (.fin m) := by
    refine npMax_eq (List.mem_map_of_mem h2) fun x hx => ?_
    obtain ⟨y, hy, rfl⟩ := List.mem_map.1 hx
    exact (fin_le _ _).2 (h3 y hy)
  by_cases hT : T = 0
  · subst hT
    unfold trimSizes marchenkoPasturWith
    simp [hm, h1, bind, Except.bind, Except.map]
  rw [trim_eq N T hT _ _ hm]
  have e : Fl.fin 1 - Fl.divNat N (Fl.fin m) = Fl.fin (1 - m / N) := by simp [Fl.divNat, hN, HSub.hSub, Sub.sub, Fl.sub]
  have hp1 : ∀ c : ℝ, pick (fun v => Fl.Lt (.fin c) v) (l.map Fl.fin) = (l.filter fun v => decide (v > c)).map Fl.fin := by
    intro c
    unfold pick
    rw [List.filter_map]
    congr 1
    apply List.filter_congr
    intro v _
    simp [hL]
  have hp2 : ∀ c d : ℝ, pick (fun v => Fl.Lt (.fin c) v ∧ Fl.Lt v (.fin d)) (l.map Fl.fin) = (l.filter fun v => decide (v > c) && decide (v < d)).map Fl.fin := by
    intro c d
    unfold pick
    rw [List.filter_map]
    congr 1
    apply List.filter_congr
    intro v _
    simp [hL]
  unfold marchenkoPasturWith
  cases shifted <;> cases largest <;> simp [h1, bind, Except.bind, hT, initEigVals1d_ok, Except.map, e, Fl.scale, hp1, hp2, hs]

/-- **C189.** With `n_series=0` the shifted cut points are infinite or NaN: for finite values with maximum `m` they are both minus infinity if `m > 0` (then `largest=True` keeps everything), both plus infinity if `m < 0` and both NaN if `m = 0`
(then nothing is kept); `largest=False` never keeps anything. -/
theorem C189_no_series (T : ℕ) (hT : T ≠ 0) (l : List ℝ) (m : ℝ) (hm : m ∈ l) (hmax : ∀ x ∈ l, x ≤ m) :
    let c := if m = 0 then Fl.nan else if 0 < m then Fl.negInf else Fl.posInf
    (∃ o, trimSizes 0 T (l.map Fl.fin) true true = .ok (o, c, c) ∧ ∀ v, v ∈ o.vals ↔ 0 < m ∧ v ∈ l.map Fl.fin) ∧
    trimSizes 0 T (l.map Fl.fin) false true = .ok (⟨[], [], none⟩, c, c) := by
  intro c
  have hmx : npMaxFl (l.map Fl.fin) = .ok (.fin m) := by
    refine npMax_eq (List.mem_map_of_mem hm) fun x hx => ?_
    obtain ⟨y, hy, rfl⟩ := List.mem_map.1 hx
    exact (fin_le _ _).2 (hmax y hy)
  have hc : Fl.fin 1 - Fl.divNat 0 (Fl.fin m) = c := by
    simp only [c, Fl.divNat, if_true]
    split_ifs <;> rfl
  have hsc : ∀ r : ℝ, 0 < r → Fl.scale r c = c := by
    intro r hr
    simp only [c]
    split_ifs <;> simp [Fl.scale, hr, hr.ne']
  have h0 : √(((0 : ℕ) : ℝ) / T) = 0 := by simp
  have h1 := trim_eq 0 T hT _ _ hmx true true
  have h2 := trim_eq 0 T hT _ _ hmx false true
  simp only [if_true, hc, h0, hsc ((1 - 0) ^ 2) (by norm_num), hsc ((1 + 0) ^ 2) (by norm_num), Bool.false_eq_true, if_false] at h1 h2
  have hk : pick (fun v => Fl.Lt c v ∧ Fl.Lt v c) (l.map Fl.fin) = [] := pick_nil _ _ fun v _ h => lt_asymm h.1.2.2 h.2.2.2
  rw [hk, sort_nil] at h2
  refine ⟨⟨_, h1, fun v => ?_⟩, h2⟩
  simp only [(npSort_perm _).mem_iff, mem_pick]
  have key : ∀ v ∈ l.map Fl.fin, Fl.Lt c v ↔ 0 < m := by
    intro v hv
    obtain ⟨y, _, rfl⟩ := List.mem_map.1 hv
    simp only [c]
    split_ifs with h3 h4
    · simp [Fl.Lt, h3]
    · refine iff_of_true ⟨by simp, by simp, ?_⟩ h4
      change Fl.key .negInf < Fl.key (.fin y)
      exact WithTop.coe_lt_coe.2 (EReal.bot_lt_coe y)
    · refine iff_of_false (fun h => ?_) h4
      have h5 : Fl.key .posInf < Fl.key (.fin y) := h.2.2
      simp [Fl.key] at h5
  exact ⟨fun h => ⟨(key v h.1).1 h.2, h.1⟩, fun h => ⟨h.2, (key v h.2).2 h.1⟩⟩

/-- **C189.** `from_correlations` never returns a missing or infinite value, whatever `atol` is (an infinity and NaN included). -/
theorem C189_correlations (data : List Fl) (atol : Fl) (o : Obj Fl) (h : correlationValues data atol = .ok o) (v : Fl) (hv : v ∈ o.vals) :
    v ∈ data ∧ ∃ x : ℝ, v = Fl.fin x ∧ (∀ a : ℝ, atol = Fl.fin a → |x| < a) := by
  rw [correlationValues, initEigVals1d_ok] at h
  cases h
  simp only [(npSort_perm _).mem_iff, mem_pick] at hv
  obtain ⟨h1, h2, h3, h4⟩ := hv
  refine ⟨h1, ?_⟩
  have h5 : (Fl.abs v).key < atol.key := h4
  have h6 : atol.key ≤ Fl.key .posInf := by cases atol <;> simp_all [Fl.key]
  have h7 := lt_of_lt_of_le h5 h6
  cases v with
  | fin x =>
    refine ⟨x, rfl, ?_⟩
    rintro a rfl
    exact (fin_lt _ _).1 h4
  | nan => exact absurd rfl h2
  | posInf => exact absurd h7 (lt_irrefl _)
  | negInf => exact absurd h7 (lt_irrefl _)

/-- What the zero trimming keeps: the values above the threshold. -/
theorem zeros_kept (float : String → Option Fl) (eigs : List Fl) (z : Missing.Zeros) (k : List Fl) (h : Missing.trimZeros float eigs z = .ok k) : ∃ c, k = pick (fun e => Fl.Lt c e) eigs := by
  cases z with
  | num z => exact ⟨z, (Except.ok.inj h).symm⟩
  | str s =>
    simp only [Missing.trimZeros] at h
    split_ifs at h with h1 h2
    · cases hm : npMinFl eigs with
      | error e => simp [hm, bind, Except.bind] at h
      | ok m =>
        simp only [hm, bind, Except.bind] at h
        exact ⟨_, (Except.ok.inj h).symm⟩
    · exact ⟨_, (Except.ok.inj h).symm⟩
    · cases hf : float s with
      | none => simp [hf] at h
      | some z =>
        simp only [hf] at h
        exact ⟨z, (Except.ok.inj h).symm⟩

/-- **C189.** Whatever LAPACK computes for data with missing values: with `trim_zeros=True` the call returns at least one value and no missing one, all of them computed; if all computed values are missing it raises `ValueError`. -/
theorem C189_time_series (float : String → Option Fl) (N T : ℕ) (eigs : List Fl) (zeros : Missing.Zeros) :
    (∀ r, finishSeries float N T eigs true zeros = .ok r → r.1.vals ≠ [] ∧ ∀ v ∈ r.1.vals, v ∈ eigs ∧ v ≠ Fl.nan) ∧
    ((∀ v ∈ eigs, v = Fl.nan) → finishSeries float N T eigs true zeros = .error .valueError) := by
  cases hz : Missing.trimZeros float eigs zeros with
  | error e =>
    have he : e = .valueError := by
      cases zeros with
      | num z => simp [Missing.trimZeros] at hz
      | str s =>
        simp only [Missing.trimZeros] at hz
        split_ifs at hz with h1 h2
        · cases hm : npMinFl eigs with
          | ok m => simp [hm, bind, Except.bind] at hz
          | error e' =>
            simp only [hm, bind, Except.bind] at hz
            rw [← Except.error.inj hz]
            unfold npMinFl at hm
            split_ifs at hm
            cases eigs with
            | nil => exact (Except.error.inj hm).symm
            | cons a l => simp [npMin] at hm
        · cases hf : float s with
          | none =>
            simp only [hf] at hz
            exact (Except.error.inj hz).symm
          | some z => simp [hf] at hz
    have : finishSeries float N T eigs true zeros = .error e := by simp [finishSeries, hz, bind, Except.bind]
    rw [this]
    exact ⟨fun r h => by simp at h, fun _ => by rw [he]⟩
  | ok k =>
    obtain ⟨c, hc⟩ := zeros_kept float eigs zeros k hz
    have hk : ∀ v ∈ k, v ∈ eigs ∧ v ≠ Fl.nan := by
      intro v hv
      rw [hc, mem_pick] at hv
      exact ⟨hv.1, hv.2.2.1⟩
    cases hm : npMaxFl k with
    | error e =>
      have hk0 : k = [] := by
        cases k with
        | nil => rfl
        | cons a l => simp [npMaxFl, npMax] at hm
      have : finishSeries float N T eigs true zeros = .error .valueError := by
        subst hk0
        simp [finishSeries, hz, bind, Except.bind, initEigVals1d_ok, npMaxFl, npMax]
      rw [this]
      exact ⟨fun r h => by simp at h, fun _ => rfl⟩
    | ok m =>
      have hmem := (le_max k m hm).1
      refine ⟨fun r h => ?_, fun hall => absurd (hall m (hk m hmem).1) (hk m hmem).2⟩
      simp only [finishSeries, hz, bind, Except.bind, initEigVals1d_ok, hm, if_true, Except.ok.injEq] at h
      subst h
      refine ⟨fun h0 => ?_, fun v hv => hk v ((npSort_perm _).mem_iff.1 hv)⟩
      have := (npSort_perm k).mem_iff.2 hmem
      simp only at h0
      rw [h0] at this
      simp at this

/-- **C189.** With `trim_zeros=False` missing values stay, and then both stored shifted endpoints are NaN. -/
theorem C189_untrimmed (float : String → Option Fl) (N T : ℕ) (eigs : List Fl) (zeros : Missing.Zeros) (h : Fl.nan ∈ eigs) :
    ∃ o, finishSeries float N T eigs false zeros = .ok (o, Fl.nan, Fl.nan) ∧ o.vals.Perm eigs := by
  refine ⟨⟨npSort eigs, npSort eigs, none⟩, ?_, npSort_perm _⟩
  have e : Fl.fin 1 - Fl.divNat N Fl.nan = Fl.nan := sub_nan _
  simp only [finishSeries, bind, Except.bind, Bool.false_eq_true, if_false, initEigVals1d_ok, max_nan _ h, e]
  rfl

/-- **C189.** `zeros="heuristic"` with a missing value falls back to `zeros="negative"`: the rounding errors of the other eigenvalues, negative ones included, are not used for the threshold. -/
theorem C189_heuristic (float : String → Option Fl) (eigs : List Fl) (h : Fl.nan ∈ eigs) :
    Missing.trimZeros float eigs (.str "heuristic") = Missing.trimZeros float eigs (.str "negative") := by
  classical
  have h1 : npMinFl eigs = .ok Fl.nan := by simp [npMinFl, h]
  have h2 : ¬ Fl.Le Fl.nan (.fin 0) := fun h => h.1 rfl
  simp [Missing.trimZeros, h1, bind, Except.bind, h2]

/-- The argument `zeros` without NaN and infinities. -/
def finZeros : EigM.Zeros → Missing.Zeros
  | .str s => .str s
  | .num x => .num (.fin x)

/-- **C189.** On finite values the zero trimming of this model is that of C43. -/
theorem C189_finite_zeros (float : String → Option ℝ) (eigs : List ℝ) (z : EigM.Zeros) :
    Missing.trimZeros (fun s => (float s).map Fl.fin) (eigs.map Fl.fin) (finZeros z) = (EigM.trimZeros float eigs z).map fun k => k.map Fl.fin := by
  classical
  have hL : ∀ x y : ℝ, Fl.Lt (.fin x) (.fin y) ↔ x < y := by
    intro x y
    simp [Fl.Lt, fin_lt]
  have hp1 : ∀ c : ℝ, pick (fun v => Fl.Lt (.fin c) v) (eigs.map Fl.fin) = (eigs.filter fun v => decide (v > c)).map Fl.fin := by
    intro c
    unfold pick
    rw [List.filter_map]
    congr 1
    apply List.filter_congr
    intro v _
    simp [hL]
  cases z with
  | num z => simp [finZeros, Missing.trimZeros, EigM.trimZeros, hp1, Except.map]
  | str s =>
    simp only [finZeros, Missing.trimZeros, EigM.trimZeros]
    split_ifs with h1 h2
    · have hn : Fl.nan ∉ eigs.map Fl.fin := by simp
      by_cases he : eigs = []
      · subst he
        simp [npMinFl, npMin, bind, Except.bind, Except.map]
      · obtain ⟨m, h3, h4, h5⟩ := npMin_ok he
        have hm : npMinFl (eigs.map Fl.fin) = .ok (.fin m) := by
          rw [npMinFl, if_neg hn]
          refine npMin_eq (List.mem_map_of_mem h4) fun x hx => ?_
          obtain ⟨y, hy, rfl⟩ := List.mem_map.1 hx
          exact (fin_le _ _).2 (h5 y hy)
        have hle : Fl.Le (.fin m) (.fin 0) ↔ m ≤ 0 := by simp [Fl.Le, fin_le]
        simp only [hm, h3, bind, Except.bind, Except.map, hle]
        by_cases hm0 : m ≤ 0
        · simp only [if_pos hm0, Fl.scale, hp1]
          rw [mul_comm m (-100)]
        · simp only [if_neg hm0, hp1]
    · simp [hp1, Except.map]
    · cases float s <;> simp [hp1, Except.map]

/-- **C189.** `Eigenvalues(matrix)` rejects a matrix with a missing entry, symmetric or not: NaN differs from itself, so the matrix is not taken to be symmetric, and `eigvals` raises `LinAlgError`. The eigenvalue routines are not run on it. -/
theorem C189_matrix (eigvalsh : (n : ℕ) → Matrix (Fin n) (Fin n) Fl → Py (List Fl)) (eigvals : GenSolver) {n m : ℕ} (A : Matrix (Fin n) (Fin m) Fl) (i : Fin n) (j : Fin m) (h : A i j = Fl.nan) :
    fromMatrixFl eigvalsh eigvals A = .error .linAlgError := by
  classical
  unfold fromMatrixFl
  by_cases hnm : n = m
  · subst hnm
    simp only [dif_pos]
    rw [if_neg, if_neg]
    · intro hf
      have := hf i j
      simp [h, Fl.Finite] at this
    · intro he
      exact (he j i).1 (by simpa using h)
  · rw [dif_neg hnm]

/-- **C189.** A matrix with an infinite entry is rejected unless it is symmetric; a symmetric one is passed on to `eigvalsh`. -/
theorem C189_matrix_infinite (eigvalsh : (n : ℕ) → Matrix (Fin n) (Fin n) Fl → Py (List Fl)) (eigvals : GenSolver) {n : ℕ} (A : Matrix (Fin n) (Fin n) Fl) (hA : ∀ i j, A i j ≠ Fl.nan) (i j : Fin n)
    (h : A i j = Fl.posInf ∨ A i j = Fl.negInf) : fromMatrixFl eigvalsh eigvals A = open Classical in if A.transpose = A then (eigvalsh n A).bind initEigVals1d else .error .linAlgError := by
  classical
  have hs : (∀ i j, Fl.Eq (A j i) (A i j)) ↔ A.transpose = A := by
    refine ⟨fun h => ?_, fun h i j => ⟨hA j i, ?_⟩⟩
    · ext i j
      exact (h i j).2
    · exact congrFun (congrFun h i) j
  unfold fromMatrixFl
  simp only [dif_pos, Fin.cast_refl, Matrix.submatrix_id_id, hs]
  split_ifs with h1 h2
  · rfl
  · have := h2 i j
    rcases h with h | h <;> simp [h, Fl.Finite] at this
  · rfl

open Classical in
theorem square_call (eigvalsh : (n : ℕ) → Matrix (Fin n) (Fin n) Fl → Py (List Fl)) (eigvals : GenSolver) {n : ℕ} (A : Matrix (Fin n) (Fin n) Fl) : fromMatrixFl eigvalsh eigvals A =
    if ∀ i j, Fl.Eq (A j i) (A i j) then (eigvalsh n A).bind initEigVals1d
    else if ∀ i j, (A i j).Finite then initEigVals1d ((eigvals n (A.map Fl.toReal)).map fun z => Fl.fin z.re) else .error .linAlgError := by
  unfold fromMatrixFl
  rw [dif_pos rfl]
  rfl

/-- **C189.** On finite entries this is the constructor of C136. -/
theorem C189_finite_matrix (eh : EigSolver) (ev : GenSolver) {n m : ℕ} (B : Matrix (Fin n) (Fin m) ℝ) :
    fromMatrixFl (fun n M => .ok ((eh n (M.map Fl.toReal)).map Fl.fin)) ev (B.map Fl.fin) =
      (fromMatrix eh ev (B.map fun x => (x : ℂ))).map fun o => ⟨o.construct.map Fl.fin, o.vals.map Fl.fin, o.cache⟩ := by
  classical
  have hsrt : ∀ k : List ℝ, npSort (k.map Fl.fin) = (npSort k).map Fl.fin := by
    intro k
    refine npSort_unique ((npSort_perm k).map _) ?_
    exact List.pairwise_map.2 ((npSort_ascending k).imp fun h => (fin_le _ _).2 h)
  have hidem : ∀ k : List ℝ, npSort (npSort k) = npSort k := fun k => npSort_of_ascending _ (npSort_ascending k)
  by_cases hnm : n = m
  · subst hnm
    have hs : (∀ i j, Fl.Eq (Fl.fin (B j i)) (Fl.fin (B i j))) ↔ B.transpose = B := by
      refine ⟨fun h => ?_, fun h i j => ⟨by simp, ?_⟩⟩
      · ext i j
        simpa using (h i j).2
      · exact congrArg Fl.fin (congrFun (congrFun h i) j)
    have ha : asFloat (B.map fun x => (x : ℂ)) = B := by
      ext i j
      simp [asFloat]
    have hr : (fromMatrix eh ev (B.map fun x => (x : ℂ))) = .ok ⟨npSort (squareEigs eh ev B), npSort (npSort (squareEigs eh ev B)), none⟩ := by
      unfold fromMatrix
      rw [dif_pos rfl, ha]
      rfl
    have hfin : ∀ i j, (B.map Fl.fin i j).Finite := fun _ _ => trivial
    have hmap : (B.map Fl.fin).map Fl.toReal = B := by
      ext i j
      rfl
    rw [square_call, hr, hmap, if_pos hfin]
    simp only [Matrix.map_apply, hs, squareEigs]
    split_ifs with h1
    · change initEigVals1d ((eh n B).map Fl.fin) = _
      simp [initEigVals1d_ok, Except.map, hsrt, hidem]
    · change initEigVals1d ((ev n B).map (Fl.fin ∘ Complex.re)) = _
      rw [← List.map_map]
      simp only [initEigVals1d_ok, Except.map, hsrt, hidem]
  · unfold fromMatrixFl fromMatrix
    rw [dif_neg hnm, dif_neg hnm]
    rfl

/-- The theorems apply to a spectrum with a missing and an infinite value. -/
example : Fl.nan ∈ [Fl.fin 1, Fl.nan, Fl.posInf, Fl.fin 3] ∧ present [Fl.fin 1, Fl.nan, Fl.posInf, Fl.fin 3] = [Fl.fin 1, Fl.posInf, Fl.fin 3] ∧ missing [Fl.fin 1, Fl.nan, Fl.posInf, Fl.fin 3] = 1 ∧
    ∃ o, initEigVals1d [Fl.fin 1, Fl.nan, Fl.posInf, Fl.fin 3] = .ok o ∧ o.vals = [Fl.fin 1, Fl.fin 3, Fl.posInf, Fl.nan] := by
  refine ⟨by simp, by simp [present], by simp [missing], _, initEigVals1d_ok _, ?_⟩
  refine npSort_unique ?_ ?_
  · refine List.Perm.cons _ ?_
    exact (List.Perm.trans (List.perm_append_singleton Fl.nan [Fl.fin 3, Fl.posInf]) (List.Perm.cons _ (List.Perm.swap _ _ _)))
  · have hb : ∀ x : ℝ, Fl.fin x ≤ Fl.posInf := by
      intro x
      change Fl.key (.fin x) ≤ Fl.key .posInf
      simp [Fl.key]
    simp [Spec.Ascending, fin_le, hb, le_nan]

end Props
end RMT
