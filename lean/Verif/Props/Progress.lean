import Verif.Model.Progress
import Verif.Lemmas.Numeric
import Mathlib.Data.Nat.Basic
import Mathlib.Tactic.Linarith

/-!
# Property C138: progress output
-/

namespace RMT
namespace Props
open Progress Rigidity LevelVar Utils

variable {K : Type}

section Parallel
variable [Zero K]

/-- The output arrays after the events `pre`: the results of the indices written, the initial contents elsewhere. -/
def outAfter (f : Nat → K × Bool × Nat) (n junk : Nat) (pre : List Ev) : List (K × Bool × Nat) :=
  (List.range n).map fun (i : Nat) => if Ev.write i ∈ pre then f i else (0, false, junk)

theorem outAfter_nil (f : Nat → K × Bool × Nat) (n junk : Nat) : outAfter f n junk [] = List.replicate n (0, false, junk) := by
  simp [outAfter, List.map_const']

theorem outAfter_write (f : Nat → K × Bool × Nat) (n junk : Nat) (pre : List Ev) (i : Nat) :
    outAfter f n junk (pre ++ [.write i]) = (outAfter f n junk pre).set i (f i) := by
  apply List.ext_getElem
  · simp [outAfter]
  · intro k h1 h2
    simp only [outAfter, List.getElem_map, List.getElem_range, List.getElem_set, List.mem_append, List.mem_singleton, Ev.write.injEq]
    by_cases hk : i = k
    · subst hk; simp
    · simp [hk, Ne.symm hk]

theorem outAfter_report (f : Nat → K × Bool × Nat) (n junk : Nat) (pre : List Ev) (i : Nat) :
    outAfter f n junk (pre ++ [.report i]) = outAfter f n junk pre := by
  simp [outAfter]

/-- The values counted after the events `pre`. -/
def counted (P : K → Bool) (f : Nat → K × Bool × Nat) (n : Nat) (pre : List Ev) : List Nat :=
  (List.range n).filter fun i => decide (Ev.write i ∈ pre) && P (f i).1

theorem percent_outAfter (P : K → Bool) (hP : P 0 = false) (f : Nat → K × Bool × Nat) (n junk : Nat) (pre : List Ev) :
    percent P (outAfter f n junk pre) = 100 * (counted P f n pre).length / n := by
  unfold percent outAfter counted
  rw [List.filter_map, List.length_map, List.length_map, List.length_range]
  congr 3
  apply List.filter_congr
  intro i _
  by_cases h : Ev.write i ∈ pre <;> simp [h, hP]

theorem counted_mono (P : K → Bool) (f : Nat → K × Bool × Nat) (n : Nat) (pre pre' : List Ev) (h : ∀ e ∈ pre, e ∈ pre') :
    (counted P f n pre).length ≤ (counted P f n pre').length := by
  apply List.Sublist.length_le
  apply List.monotone_filter_right
  intro i hi
  simp only [Bool.and_eq_true, decide_eq_true_eq] at hi ⊢
  exact ⟨h _ hi.1, hi.2⟩

theorem counted_le (P : K → Bool) (f : Nat → K × Bool × Nat) (n : Nat) (pre : List Ev) : (counted P f n pre).length ≤ n := by
  have := List.length_filter_le (fun i => decide (Ev.write i ∈ pre) && P (f i).1) (List.range n)
  rwa [List.length_range] at this

theorem run_append (P : K → Bool) (f : Nat → K × Bool × Nat) (n junk : Nat) (pre : List Ev) (e : Ev) :
    runProgress P f n junk (pre ++ [e]) = exec P f (runProgress P f n junk pre) e := by
  simp [runProgress]

theorem run_out (P : K → Bool) (f : Nat → K × Bool × Nat) (n junk : Nat) (evs : List Ev) :
    (runProgress P f n junk evs).out = outAfter f n junk evs := by
  induction evs using List.reverseRecOn with
  | nil => rw [outAfter_nil]; rfl
  | append_singleton pre e ih =>
    rw [run_append]
    cases e with
    | write i => rw [outAfter_write, ← ih]; rfl
    | report i => rw [outAfter_report, ← ih]; rfl

theorem run_lines (P : K → Bool) (hP : P 0 = false) (f : Nat → K × Bool × Nat) (n junk : Nat) (evs : List Ev) (l : Nat) :
    l ∈ (runProgress P f n junk evs).lines ↔ l = 0 ∨ ∃ pre i post, evs = pre ++ .report i :: post ∧ l = 100 * (counted P f n pre).length / n := by
  induction evs using List.reverseRecOn with
  | nil => simp [runProgress]
  | append_singleton pre e ih =>
    rw [run_append]
    have old : (∃ pre' i post, pre = pre' ++ .report i :: post ∧ l = 100 * (counted P f n pre').length / n) →
        ∃ pre' i post, pre ++ [e] = pre' ++ .report i :: post ∧ l = 100 * (counted P f n pre').length / n := by
      rintro ⟨p, i, q, h, h'⟩
      exact ⟨p, i, q ++ [e], by rw [h]; simp, h'⟩
    have new : ∀ p i q, pre ++ [e] = p ++ .report i :: q → (q = [] ∧ pre = p ∧ e = .report i) ∨ ∃ q', pre = p ++ .report i :: q' := by
      intro p i q h
      rcases List.eq_nil_or_concat q with rfl | ⟨q', x, rfl⟩
      · have := List.append_inj' h rfl
        exact Or.inl ⟨rfl, this.1, by simpa using this.2⟩
      · rw [List.concat_eq_append, ← List.cons_append, ← List.append_assoc] at h
        exact Or.inr ⟨q', (List.append_inj' h rfl).1⟩
    cases e with
    | write i =>
      simp only [exec]
      rw [ih]
      constructor
      · rintro (h | h)
        · exact Or.inl h
        · exact Or.inr (old h)
      · rintro (h | ⟨p, j, q, h, h'⟩)
        · exact Or.inl h
        · rcases new p j q h with ⟨-, -, h3⟩ | ⟨q', h3⟩
          · cases h3
          · exact Or.inr ⟨p, j, q', h3, h'⟩
    | report i =>
      simp only [exec, List.mem_append, List.mem_singleton]
      rw [ih, run_out, percent_outAfter P hP]
      constructor
      · rintro ((h | h) | h)
        · exact Or.inl h
        · exact Or.inr (old h)
        · exact Or.inr ⟨pre, i, [], by simp, h⟩
      · rintro (h | ⟨p, j, q, h, h'⟩)
        · exact Or.inl (Or.inl h)
        · rcases new p j q h with ⟨-, h2, -⟩ | ⟨q', h3⟩
          · right; rw [h2]; exact h'
          · exact Or.inl (Or.inr ⟨p, j, q', h3, h'⟩)

theorem run_sorted (P : K → Bool) (hP : P 0 = false) (f : Nat → K × Bool × Nat) (n junk : Nat) (evs : List Ev) :
    (runProgress P f n junk evs).lines.Pairwise (· ≤ ·) := by
  have key : (runProgress P f n junk evs).lines.Pairwise (· ≤ ·) ∧ ∀ l ∈ (runProgress P f n junk evs).lines, l ≤ 100 * (counted P f n evs).length / n := by
    induction evs using List.reverseRecOn with
    | nil => simp [runProgress]
    | append_singleton pre e ih =>
      rw [run_append]
      have hm : 100 * (counted P f n pre).length / n ≤ 100 * (counted P f n (pre ++ [e])).length / n :=
        Nat.div_le_div_right (Nat.mul_le_mul_left _ (counted_mono P f n _ _ fun x hx => List.mem_append_left _ hx))
      cases e with
      | write i => exact ⟨ih.1, fun l hl => (ih.2 l hl).trans hm⟩
      | report i =>
        simp only [exec, run_out, percent_outAfter P hP]
        refine ⟨List.pairwise_append.mpr ⟨ih.1, List.pairwise_singleton _ _, fun a ha b hb => ?_⟩, fun l hl => ?_⟩
        · rw [List.mem_singleton] at hb; rw [hb]; exact ih.2 a ha
        · rcases List.mem_append.mp hl with h | h
          · exact (ih.2 l h).trans hm
          · rw [List.mem_singleton] at h; rw [h]; exact hm
  exact key.1

theorem run_count (P : K → Bool) (f : Nat → K × Bool × Nat) (n junk : Nat) (evs : List Ev) :
    (runProgress P f n junk evs).lines.length = 1 + (evs.filterMap Ev.reported).length := by
  induction evs using List.reverseRecOn with
  | nil => rfl
  | append_singleton pre e ih =>
    rw [run_append]
    cases e with
    | write i => simp only [exec, ih, List.filterMap_append]; simp [Ev.reported]
    | report i => simp only [exec, List.length_append, ih, List.filterMap_append]; simp [add_assoc, Ev.reported]

theorem multiples (p : Nat) (hp : 0 < p) (n : Nat) : ((List.range n).filter fun i => i % p = 0).length = (n + p - 1) / p := by
  induction n with
  | zero => simp [Nat.div_eq_of_lt (show p - 1 < p by omega)]
  | succ n ih =>
    rw [List.range_succ, List.filter_append, List.length_append, ih]
    have e : n + 1 + p - 1 = (n + p - 1) + 1 := by omega
    rw [e, Nat.succ_div]
    have e2 : n + p - 1 + 1 = n + p := by omega
    simp only [e2, Nat.dvd_add_self_right]
    by_cases h : p ∣ n
    · simp [h, Nat.mod_eq_zero_of_dvd h]
    · have : ¬ n % p = 0 := fun h' => h (Nat.dvd_of_mod_eq_zero h')
      simp [h, this]

/-- **C138 (results).** In every schedule of the parallel loop with progress output, the arrays returned are those of the results, index by index: the same as without progress output. -/
theorem C138_results (P : K → Bool) (f : Nat → K × Bool × Nat) (n junk : Nat) (evs : List Ev) (h : Schedule n evs) (order : List Nat) (ho : order.Perm (List.range n)) :
    (runProgress P f n junk evs).out = (List.range n).map f ∧
    prangeWrite order (fun i => .ok (f i)) (List.replicate n (0, false, junk)) = .ok (runProgress P f n junk evs).out := by
  have hw : ∀ i, i < n → Ev.write i ∈ evs := by
    intro i hi
    have := h.writes.mem_iff.mpr (List.mem_range.mpr hi)
    obtain ⟨e, he, he'⟩ := List.mem_filterMap.mp this
    cases e with
    | write j => simp [Ev.written] at he'; rwa [he'] at he
    | report j => simp [Ev.written] at he'
  have h1 : (runProgress P f n junk evs).out = (List.range n).map f := by
    rw [run_out, outAfter]
    apply List.map_congr_left
    intro i hi
    rw [if_pos (hw i (List.mem_range.mp hi))]
  refine ⟨h1, ?_⟩
  obtain ⟨r, e1, e2, e3⟩ := prangeWrite_ok order (fun i => .ok (f i)) f (List.replicate n (0, false, junk)) (fun _ _ => rfl)
  rw [e1, h1]
  congr 1
  apply List.ext_getElem?
  intro k
  rw [e3 k]
  by_cases hk : k < n
  · have : k ∈ order := ho.mem_iff.mpr (List.mem_range.mpr hk)
    simp [hk, this]
  · simp [hk]

/-- **C138 (percentages).** In every schedule: the percentages start with 0, lie between 0 and 100 and never decrease; there is one for every `progInterval`-th L value, at most 100 after the first. -/
theorem C138_percentages (P : K → Bool) (hP : P 0 = false) (f : Nat → K × Bool × Nat) (n junk : Nat) (evs : List Ev) (h : Schedule n evs) :
    (runProgress P f n junk evs).lines.head? = some 0 ∧ (∀ l ∈ (runProgress P f n junk evs).lines, l ≤ 100) ∧
    (runProgress P f n junk evs).lines.Pairwise (· ≤ ·) ∧
    (runProgress P f n junk evs).lines.length = 1 + (n + progInterval n - 1) / progInterval n ∧
    (runProgress P f n junk evs).lines.length ≤ 101 := by
  have hp : 0 < progInterval n := by unfold progInterval; split_ifs <;> omega
  have hc : (runProgress P f n junk evs).lines.length = 1 + (n + progInterval n - 1) / progInterval n := by
    rw [run_count, h.reports.length_eq, multiples _ hp]
  refine ⟨?_, fun l hl => ?_, run_sorted P hP f n junk evs, hc, ?_⟩
  · have : ∀ (evs : List Ev) (s : PState K), s.lines.head? = some 0 → (evs.foldl (exec P f) s).lines.head? = some 0 := by
      intro evs
      induction evs with
      | nil => intro s h; exact h
      | cons e es ih =>
        intro s h
        refine ih _ ?_
        cases e with
        | write i => exact h
        | report i => simp only [exec]; rw [List.head?_append, h]; rfl
    exact this evs _ rfl
  · rcases (run_lines P hP f n junk evs l).mp hl with rfl | ⟨pre, i, post, -, rfl⟩
    · omega
    · rcases Nat.eq_zero_or_pos n with rfl | hn
      · simp
      · exact Nat.div_le_of_le_mul (by have := counted_le P f n pre; nlinarith)
  · rw [hc]
    have : (n + progInterval n - 1) / progInterval n ≤ 100 := by
      apply Nat.div_le_of_le_mul
      unfold progInterval
      split_ifs with h0
      · omega
      · omega
    omega

/-- The full characterisation of "the progress reaches 100 percent": every value counts as computed, and some report comes after all writes. -/
theorem C138_hundred_partial (P : K → Bool) (hP : P 0 = false) (f : Nat → K × Bool × Nat) (n junk : Nat) (evs : List Ev) (hn : 0 < n) :
    100 ∈ (runProgress P f n junk evs).lines ↔
      (∀ i < n, P (f i).1 = true) ∧ ∃ pre i post, evs = pre ++ .report i :: post ∧ ∀ j < n, Ev.write j ∈ pre := by
  have key : ∀ pre, 100 = 100 * (counted P f n pre).length / n ↔ ∀ i < n, Ev.write i ∈ pre ∧ P (f i).1 = true := by
    intro pre
    have hle := counted_le P f n pre
    have h1 : 100 = 100 * (counted P f n pre).length / n ↔ (counted P f n pre).length = n := by
      constructor
      · intro h
        by_contra hc
        have hlt : (counted P f n pre).length < n := by omega
        have : 100 * (counted P f n pre).length / n < 100 := by
          rw [Nat.div_lt_iff_lt_mul hn]; nlinarith
        omega
      · intro h; rw [h, Nat.mul_div_cancel _ hn]
    rw [h1]
    constructor
    · intro h i hi
      have h2 : (counted P f n pre).length = (List.range n).length := by rw [h, List.length_range]
      unfold counted at h2
      have := List.length_filter_eq_length_iff.mp h2 i (List.mem_range.mpr hi)
      simpa using this
    · intro h
      unfold counted
      rw [List.filter_eq_self.mpr, List.length_range]
      intro i hi
      have := h i (List.mem_range.mp hi)
      simp [this]
  rw [run_lines P hP]
  constructor
  · rintro (h | ⟨pre, i, post, h, h'⟩)
    · omega
    · have := (key pre).mp h'
      exact ⟨fun j hj => (this j hj).2, pre, i, post, h, fun j hj => (this j hj).1⟩
  · rintro ⟨h, pre, i, post, h1, h2⟩
    exact Or.inr ⟨pre, i, post, h1, (key pre).mpr fun j hj => ⟨h2 j hj, h j hj⟩⟩

theorem sequential_succ (n : Nat) (p : Nat) (hn : ¬ n % p = 0) :
    ((List.range (n + 1)).flatMap fun i => if i % p = 0 then [Ev.write i, Ev.report i] else [Ev.write i]) =
      ((List.range n).flatMap fun i => if i % p = 0 then [Ev.write i, Ev.report i] else [Ev.write i]) ++ [Ev.write n] := by
  rw [List.range_succ, List.flatMap_append]
  simp [hn]

/-- **C138 refuted: 100 percent need not be shown.** If some value is not counted as computed (a zero), no schedule shows 100; and a single thread, even if all values are counted, shows 100 only if the number of
L values is one more than a multiple of the interval, e.g. not for 102 values. -/
theorem C138_hundred_refuted (P : K → Bool) (hP : P 0 = false) (f : Nat → K × Bool × Nat) (n junk : Nat) :
    ((∃ i < n, P (f i).1 = false) → ∀ evs, 100 ∉ (runProgress P f n junk evs).lines) ∧
    (¬ n % progInterval (n + 1) = 0 → 100 ∉ (runProgress P f (n + 1) junk (sequential (n + 1))).lines) ∧
    100 ∉ (runProgress P f 102 junk (sequential 102)).lines := by
  have second : ∀ n, ¬ n % progInterval (n + 1) = 0 → 100 ∉ (runProgress P f (n + 1) junk (sequential (n + 1))).lines := by
    intro n hn h
    obtain ⟨-, pre, i, post, he, hw⟩ := (C138_hundred_partial P hP f (n + 1) junk _ (by omega)).mp h
    rw [sequential, sequential_succ n _ hn] at he
    have hmem := hw n (by omega)
    rcases List.eq_nil_or_concat post with rfl | ⟨q, x, rfl⟩
    · have := List.append_inj' he rfl
      simp at this
    · rw [List.concat_eq_append, ← List.cons_append, ← List.append_assoc] at he
      have h1 := (List.append_inj' he rfl).1
      have h2 : Ev.write n ∈ (List.range n).flatMap fun i => if i % progInterval (n + 1) = 0 then [Ev.write i, Ev.report i] else [Ev.write i] := by
        rw [h1]; exact List.mem_append_left _ hmem
      obtain ⟨j, hj, hj'⟩ := List.mem_flatMap.mp h2
      have hj := List.mem_range.mp hj
      split_ifs at hj'
      · simp at hj'; omega
      · simp at hj'; omega
  refine ⟨?_, second n, second 101 (by decide)⟩
  rintro ⟨i, hi, hz⟩ evs h
  have := ((C138_hundred_partial P hP f n junk evs (by omega)).mp h).1 i hi
  rw [hz] at this
  cases this

end Parallel

/-- The single-threaded schedule is a schedule. -/
theorem sequential_schedule (n : Nat) : Schedule n (sequential n) := by
  have w : ∀ p m, ((List.range m).flatMap fun i => if i % p = 0 then [Ev.write i, Ev.report i] else [Ev.write i]).filterMap
      Ev.written = List.range m := by
    intro p m
    induction m with
    | zero => rfl
    | succ m ih =>
      rw [List.range_succ, List.flatMap_append, List.filterMap_append, ih]
      by_cases h : m % p = 0 <;> simp [h, Ev.written]
  have r : ∀ p m, ((List.range m).flatMap fun i => if i % p = 0 then [Ev.write i, Ev.report i] else [Ev.write i]).filterMap
      Ev.reported = (List.range m).filter fun i => i % p = 0 := by
    intro p m
    induction m with
    | zero => rfl
    | succ m ih =>
      rw [List.range_succ, List.flatMap_append, List.filterMap_append, ih, List.filter_append]
      by_cases h : m % p = 0
      · simp only [List.flatMap_cons, List.flatMap_nil, h, if_true, List.append_nil]; simp [h, Ev.reported, List.filterMap]
      · simp [h, Ev.reported]
  have o : ∀ p m pre post i, ((List.range m).flatMap fun i => if i % p = 0 then [Ev.write i, Ev.report i] else [Ev.write i]) = pre ++ .report i :: post →
      Ev.write i ∈ pre := by
    intro p m
    induction m with
    | zero => intro pre post i h; simp at h
    | succ m ih =>
      intro pre post i h
      rw [List.range_succ, List.flatMap_append] at h
      rcases List.append_eq_append_iff.mp h with ⟨a, h1, h2⟩ | ⟨a, h1, h2⟩
      · -- the report is in the last block
        have h3 : a ++ Ev.report i :: post = if m % p = 0 then [Ev.write m, Ev.report m] else [Ev.write m] := by rw [← h2]; simp
        rw [h1]
        split_ifs at h3
        · match a with
          | [] => simp at h3
          | [x] => simp at h3; simp [h3.1, h3.2.1]
          | x :: y :: a => simp at h3
        · match a with
          | [] => simp at h3
          | x :: a => simp at h3
      · match a with
        | [] =>
          have h3 : Ev.report i :: post = if m % p = 0 then [Ev.write m, Ev.report m] else [Ev.write m] := by simpa using h2
          split_ifs at h3 <;> simp at h3
        | x :: a =>
          rw [List.cons_append, List.cons.injEq] at h2
          exact ih pre a i (by rw [h1, h2.1])
  exact ⟨(w _ n) ▸ List.Perm.refl _, (r _ n) ▸ List.Perm.refl _, o _ n⟩

section Loops
variable [Field K] [LinearOrder K]

/-- The counts printed for iterations `a+1 … b`: twice the number, at each multiple of the interval. -/
def printed (interval a b : Nat) : List Nat := ((List.range' (a + 1) (b - a)).filter fun k => k % interval = 0).map (· * 2)

theorem printed_cons (interval a b : Nat) (h : a < b) :
    printed interval a b = (if (a + 1) % interval = 0 then [(a + 1) * 2] else []) ++ printed interval (a + 1) b := by
  unfold printed
  obtain ⟨d, hd⟩ : ∃ d, b - a = d + 1 := ⟨b - a - 1, by omega⟩
  have h2 : b - (a + 1) = d := by omega
  rw [hd, h2, List.range'_succ, List.filter_cons]
  by_cases hm : (a + 1) % interval = 0 <;> simp [hm]

theorem printed_self (interval a : Nat) : printed interval a a = [] := by simp [printed]

theorem deltaLoopP_eq (interval : Nat) (d : Nat → Py K) (maxIters minIters : Nat) (tol : K) (k : Nat) (c m : K) (b : List K) : ∀ log,
    (∀ e, deltaLoop d maxIters minIters tol k c m b = .error e → deltaLoopP interval d maxIters minIters tol k c m b log = .error e) ∧
    (∀ r, deltaLoop d maxIters minIters tol k c m b = .ok r → max k 1 < r.1 ∧
      deltaLoopP interval d maxIters minIters tol k c m b log = .ok (r, log ++ printed interval (max k 1) r.1)) := by
  fun_induction deltaLoop d maxIters minIters tol k c m b with
  | case1 k c m b e he =>
    intro log
    rw [deltaLoopP, he]
    constructor
    · intro x h; cases h; rfl
    · intro x h; cases h
  | case2 c m b d3 hd ih =>
    intro log
    rw [deltaLoopP, hd]
    simp only [dif_pos]
    exact ih log
  | case3 k c m b d3 hd h0 k' u mc b' hmax =>
    intro log
    have hk : max k 1 = k := by omega
    rw [deltaLoopP, hd]
    simp only [dif_neg h0]
    rw [dif_pos hmax, hk]
    constructor
    · intro _ h; cases h
    intro r h
    cases h
    refine ⟨by simp only [k']; omega, ?_⟩
    rw [printed_cons _ _ _ (show k < k + 1 by omega), printed_self]
    split_ifs <;> simp [k', mc, u, b']
  | case4 k c m b d3 hd h0 k' u mc b' hmax hc =>
    intro log
    have hk : max k 1 = k := by omega
    rw [deltaLoopP, hd]
    simp only [dif_neg h0]
    rw [dif_neg hmax, if_pos hc, hk]
    constructor
    · intro _ h; cases h
    intro r h
    cases h
    refine ⟨by simp only [k']; omega, ?_⟩
    rw [printed_cons _ _ _ (show k < k + 1 by omega), printed_self]
    split_ifs <;> simp [k', mc, u, b']
  | case5 k c m b d3 hd h0 k' u mc b' hmax hc ih =>
    intro log
    have hk : max k 1 = k := by omega
    have hk' : max k' 1 = k + 1 := by simp only [k']; omega
    rw [deltaLoopP, hd]
    simp only [dif_neg h0]
    rw [dif_neg hmax, if_neg hc, hk]
    obtain ⟨i1, i2⟩ := ih (if k' % interval = 0 then log ++ [k' * 2] else log)
    refine ⟨i1, fun r h => ?_⟩
    obtain ⟨j1, j2⟩ := i2 r h
    rw [hk'] at j1 j2
    refine ⟨by omega, ?_⟩
    refine j2.trans ?_
    rw [printed_cons interval k r.1 (by omega)]
    by_cases hm : (k + 1) % interval = 0 <;> simp [k', hm]

theorem sigmaLoopP_eq (interval : Nat) (n : Nat → Nat) (maxIters minIters : Nat) (tol : K) (k : Nat) (cm cs m sq : K) (b : List K) : ∀ log,
    k < (sigmaLoop n maxIters minIters tol k cm cs m sq b).2.2 ∧
    sigmaLoopP interval n maxIters minIters tol k cm cs m sq b log =
      (sigmaLoop n maxIters minIters tol k cm cs m sq b, log ++ printed interval k (sigmaLoop n maxIters minIters tol k cm cs m sq b).2.2) := by
  fun_induction sigmaLoop n maxIters minIters tol k cm cs m sq b with
  | case1 k cm cs m sq b k' nw nsq mU sU mk sk sg b' hc =>
    intro log
    refine ⟨by simp only [k']; omega, ?_⟩
    rw [sigmaLoopP, printed_cons _ _ _ (show k < k + 1 by omega), printed_self]
    rw [if_pos hc]
    split_ifs <;> simp [k', b', sg, sk, mk, mU, sU, nsq, nw]
  | case2 k cm cs m sq b k' nw nsq mU sU mk sk sg b' hc hmax =>
    intro log
    refine ⟨by simp only [k']; omega, ?_⟩
    rw [sigmaLoopP, printed_cons _ _ _ (show k < k + 1 by omega), printed_self]
    rw [if_neg hc, dif_pos hmax]
    split_ifs <;> simp [k', b', sg, sk, mk, mU, sU, nsq, nw]
  | case3 k cm cs m sq b k' nw nsq mU sU mk sk sg b' hc hmax ih =>
    intro log
    obtain ⟨j1, j2⟩ := ih (if k' % interval = 0 then log ++ [k' * 2] else log)
    have j1' : k + 1 < (sigmaLoop n maxIters minIters tol k' mk.2 sk.2 mk.1 sk.1 b').2.2 := j1
    refine ⟨Nat.lt_of_succ_lt j1', ?_⟩
    rw [sigmaLoopP, if_neg hc, dif_neg hmax]
    refine j2.trans ?_
    rw [printed_cons interval k _ (Nat.lt_of_succ_lt j1')]
    by_cases hm : (k + 1) % interval = 0 <;> simp [k', hm]

/-- **C138 (iteration counts).** `delta_L` and `sigma_L` with `show_progress=True` raise and return exactly what they do without it; they print 0, then twice the iteration number at every multiple of the interval, and
finally the number of iterations returned. -/
theorem C138_counts (interval : Nat) (unfolded : List K) (L : K) (gridsize maxIters minIters : Nat) (tol : K) (simpson : Bool) (U : Nat → K) :
    deltaLP interval unfolded L gridsize maxIters minIters tol simpson U =
      (deltaL unfolded L gridsize maxIters minIters tol simpson U).map (fun r => (r, 0 :: printed interval 1 r.2.2 ++ [r.2.2])) ∧
    sigmaLP interval unfolded L maxIters tol minIters U =
      (sigmaL unfolded L maxIters tol minIters U).map (fun r => (r, 0 :: printed interval 0 r.2.2 ++ [r.2.2])) := by
  constructor
  · simp only [deltaLP, deltaL, bind, Except.bind, pure, Except.pure]
    cases pyGet unfolded 0 with
    | error e => rfl
    | ok lo =>
      cases pyGet unfolded (-1) with
      | error e => rfl
      | ok hi =>
        simp only
        obtain ⟨h1, h2⟩ := deltaLoopP_eq interval (fun j => d3Sample unfolded L gridsize simpson (uniform lo hi (U j))) maxIters minIters tol 0 0 0 (List.replicate BUF 0) [0]
        rcases hr : deltaLoop (fun j => d3Sample unfolded L gridsize simpson (uniform lo hi (U j))) maxIters minIters tol 0 0 0 (List.replicate BUF 0) with e | r
        · rw [h1 e hr]; rfl
        · rw [(h2 r hr).2]
          simp [Except.map]
  · simp only [sigmaLP, sigmaL, bind, Except.bind, pure, Except.pure]
    cases npMin unfolded with
    | error e => rfl
    | ok mn =>
      cases npMax unfolded with
      | error e => rfl
      | ok mx =>
        simp only
        rw [(sigmaLoopP_eq interval _ maxIters minIters tol 0 0 0 _ _ _ [0]).2]
        simp only [Except.map, List.cons_append, List.nil_append]

end Loops

-- schedules exist, also one in which reports are late
example : Schedule 102 (sequential 102) := sequential_schedule 102
example : Schedule 2 [.write 1, .write 0, .report 0, .report 1] := by
  refine ⟨by decide, by decide, fun pre post i h => ?_⟩
  match pre with
  | [] => simp at h
  | [_] => simp at h
  | [a, b] => simp at h; obtain ⟨rfl, rfl, rfl, -⟩ := h; simp
  | [a, b, c] => simp at h; obtain ⟨rfl, rfl, rfl, rfl, -⟩ := h; simp
  | a :: b :: c :: d :: l => simp at h
example : (runProgress (fun x : ℚ => decide (x ≠ 0)) (fun i => ((i : ℚ), true, 5)) 3 0 (sequential 3)).lines = [0, 0, 33, 66] := by decide +kernel

end Props
end RMT
