import Verif.Props.Termination
import Verif.Lemmas.Sort

/-! # Property C173: the step function takes linear time -/

namespace RMT
namespace Props
open StepMachine Step Spec

variable {α : Type} [LinearOrder α]

/-- A bound for the number of loop tests still to come. -/
def remaining (eigs x : List (Option α)) (s : St) : Nat :=
  match s.pc with
  | .done => 0
  | .tail => (x.length - s.j) + 1
  | .main => (eigs.length - s.i) + 3 * (x.length - s.j) + 2
  | .look => if s.j < x.length ∧ flt (x.getD s.j none) (eigs.getD s.i none) = true then (eigs.length - s.i) + 3 * (x.length - s.j) + 1
      else (eigs.length - s.i) + 3 * (x.length - s.j) + 3
  | .skip => (eigs.length - s.i) + 3 * (x.length - s.j) + 3

theorem flt_of_not_fle (a b : α) (h : ¬ fle (some a) (some b) = true) : flt (some b) (some a) = true := by
  simp only [fle, flt, decide_eq_true_eq] at h ⊢
  exact not_le.mp h

theorem remaining_step (eigs x : List α) (s : St) (h : s.pc ≠ .done) :
    remaining (eigs.map some) (x.map some) (step (eigs.map some) (x.map some) s) + 1 ≤ remaining (eigs.map some) (x.map some) s := by
  obtain ⟨pc, i, j, count, ret⟩ := s
  cases pc with
  | done => exact absurd rfl h
  | tail =>
    simp only [step]
    split_ifs with hj
    · simp only [remaining]; omega
    · simp only [remaining]; omega
  | skip =>
    simp only [step]
    split_ifs with hj
    · simp only [remaining]; omega
    · simp only [remaining]; omega
  | main =>
    simp only [step]
    split_ifs with hij hle
    · simp only [remaining]; omega
    · have hi : i < eigs.length := by simpa using hij.2
      have hj : j < x.length := by simpa using hij.1
      have hf : flt ((x.map some).getD j none) ((eigs.map some).getD i none) = true := by
        rw [List.getD_eq_getElem?_getD, List.getD_eq_getElem?_getD] at hle ⊢
        simp only [List.getElem?_map, List.getElem?_eq_getElem hi, List.getElem?_eq_getElem hj, Option.map_some, Option.getD_some] at hle ⊢
        exact flt_of_not_fle _ _ hle
      simp only [remaining]
      rw [if_pos ⟨hij.1, hf⟩]
    · simp only [remaining]; omega
  | look =>
    simp only [step]
    by_cases hj : j < (x.map some).length ∧ flt ((x.map some).getD j none) ((eigs.map some).getD i none) = true
    · rw [if_pos hj]
      simp only [remaining]
      rw [if_pos hj]
      have := hj.1
      split_ifs <;> omega
    · rw [if_neg hj]
      simp only [remaining]
      rw [if_neg hj]

theorem done_absorbing (eigs x : List (Option α)) (n : Nat) (s : St) (h : s.pc = .done) : runFrom eigs x n s = s := by
  induction n with
  | zero => rfl
  | succ n ih =>
    have : step eigs x s = s := by simp only [step, h]
    rw [runFrom, this, ih]

theorem done_after (eigs x : List α) (n : Nat) (s : St) (h : remaining (eigs.map some) (x.map some) s ≤ n) : (runFrom (eigs.map some) (x.map some) n s).pc = .done := by
  induction n generalizing s with
  | zero =>
    by_contra hc
    have := remaining_step eigs x s (by simpa [runFrom] using hc)
    omega
  | succ n ih =>
    by_cases hd : s.pc = .done
    · rw [done_absorbing _ _ _ _ hd]; exact hd
    · rw [runFrom]
      exact ih _ (by have := remaining_step eigs x s hd; omega)

/-- **C173.** On NaN-free arrays of `n` eigenvalues and `m` queries, in any order, the array step function returns after at most `n + 3 m + 3` loop tests, with the result of the functional model (to which C01-C04 apply). -/
theorem C173_linear (eigs x : List α) (he : eigs ≠ []) (hx : x ≠ []) :
    ∃ s r, start (eigs.map some) (x.map some) = .ok s ∧ stepFunctionFast eigs x = .ok r ∧
      ∃ n ≤ eigs.length + 3 * x.length + 3, (runFrom (eigs.map some) (x.map some) n s).pc = .done ∧ (runFrom (eigs.map some) (x.map some) n s).ret = r := by
  obtain ⟨r, hr, -, s, hs, n, hn, hret⟩ := C88_terminates_partial eigs x he hx
  refine ⟨s, r, hs, hr, eigs.length + 3 * x.length + 3, le_rfl, ?_⟩
  have hrem : remaining (eigs.map some) (x.map some) s ≤ eigs.length + 3 * x.length + 3 := by
    simp only [start, bind, Except.bind, pure, Except.pure] at hs
    repeat' split at hs
    all_goals first
      | (injection hs with hs; subst hs; simp [remaining, returned]; done)
      | (cases hs; done)
      | (cases hs; simp [remaining, returned])
  have hd := done_after eigs x _ s hrem
  refine ⟨hd, ?_⟩
  -- both runs end in the same state
  rw [← hret]
  have key : ∀ a b : Nat, (runFrom (eigs.map some) (x.map some) a s).pc = .done → (runFrom (eigs.map some) (x.map some) (a + b) s) = runFrom (eigs.map some) (x.map some) a s := by
    intro a b ha
    have hadd : ∀ a s, runFrom (eigs.map some) (x.map some) (a + b) s = runFrom (eigs.map some) (x.map some) b (runFrom (eigs.map some) (x.map some) a s) := by
      intro a
      induction a with
      | zero => intro s; simp [runFrom]
      | succ a ih => intro s; rw [Nat.succ_add, runFrom, ih, runFrom]
    rw [hadd, done_absorbing _ _ _ _ ha]
  rcases Nat.le_total n (eigs.length + 3 * x.length + 3) with hle | hle
  · obtain ⟨b, hb⟩ := Nat.exists_eq_add_of_le hle
    rw [hb, key n b hn]
  · obtain ⟨b, hb⟩ := Nat.exists_eq_add_of_le hle
    rw [hb, key _ b hd]

/-- **C173 (lower bound).** No fewer than `m` loop tests can do: with eigenvalues `0` and `2` and all `m ≥ 1` queries equal to `1`, fewer than `m` tests do not finish. -/
theorem C173_lower (m : Nat) (s : St) (hs : start ([0, 2].map some) ((List.replicate m (1 : ℤ)).map some) = .ok s) (n : Nat) (hn : n < m) :
    (runFrom ([0, 2].map some) ((List.replicate m (1 : ℤ)).map some) n s).pc ≠ .done := by
  obtain ⟨m, rfl⟩ : ∃ k, m = k + 1 := ⟨m - 1, by omega⟩
  have hstart : s = ⟨.skip, 0, 0, 0, List.replicate (m + 1) 0⟩ := by
    have hlast : pyGet ((List.replicate (m + 1) (1 : ℤ)).map some) (-1) = .ok (some 1) := by
      rw [pyGet_neg_one _ (by simp)]; simp
    have hfirst : pyGet ((List.replicate (m + 1) (1 : ℤ)).map some) 0 = .ok (some 1) := by
      rw [pyGet_zero _ (by simp)]; simp
    have e0 : pyGet ([0, 2].map some : List (Option ℤ)) 0 = .ok (some 0) := by rw [pyGet_zero _ (by simp)]; rfl
    have e1 : pyGet ([0, 2].map some : List (Option ℤ)) (-1) = .ok (some 2) := by rw [pyGet_neg_one _ (by simp)]; rfl
    simp only [start, hlast, hfirst, e0, e1, bind, Except.bind, pure, Except.pure, fle, flt] at hs
    simp at hs
    exact hs.symm
  -- after `n` tests at most `n` queries have been answered
  have inv : ∀ n s, (s.j ≤ m + 1 ∧ (s.pc = .done → s.j = m + 1)) → ((runFrom ([0, 2].map some) ((List.replicate (m + 1) (1 : ℤ)).map some) n s).j ≤ s.j + n) ∧
      ((runFrom ([0, 2].map some) ((List.replicate (m + 1) (1 : ℤ)).map some) n s).pc = .done → (runFrom ([0, 2].map some) ((List.replicate (m + 1) (1 : ℤ)).map some) n s).j = m + 1) := by
    intro n
    induction n with
    | zero => intro s h; exact ⟨le_rfl, h.2⟩
    | succ n ih =>
      intro s h
      have h1 : (step ([0, 2].map some) ((List.replicate (m + 1) (1 : ℤ)).map some) s).j ≤ s.j + 1 ∧ (step ([0, 2].map some) ((List.replicate (m + 1) (1 : ℤ)).map some) s).j ≤ m + 1 ∧
          ((step ([0, 2].map some) ((List.replicate (m + 1) (1 : ℤ)).map some) s).pc = .done → (step ([0, 2].map some) ((List.replicate (m + 1) (1 : ℤ)).map some) s).j = m + 1) := by
        obtain ⟨pc, i, j, count, ret⟩ := s
        have hlen : ((List.replicate (m + 1) (1 : ℤ)).map some).length = m + 1 := by simp
        cases pc <;> simp only [step, hlen] <;> (try split_ifs) <;> simp_all <;> omega
      obtain ⟨h2, h3⟩ := ih _ ⟨h1.2.1, h1.2.2⟩
      rw [runFrom]
      exact ⟨by omega, h3⟩
  intro hd
  have := inv n s ⟨by rw [hstart]; simp, by rw [hstart]; simp⟩
  have h2 := this.2 hd
  have h3 := this.1
  rw [hstart] at h3 h2
  simp only at h3
  omega

/-- **C173 (counting curve).** Reading `steps` of an object with `n ≥ 1` NaN-free values takes at most `4 n + 3` loop tests. -/
theorem C173_steps (vals : List α) (h : vals ≠ []) :
    ∃ s, start ((EigValsM.npSort vals).map some) ((EigValsM.npSort vals).map some) = .ok s ∧ ∃ n ≤ 4 * vals.length + 3, (runFrom ((EigValsM.npSort vals).map some) ((EigValsM.npSort vals).map some) n s).pc = .done := by
  have hl : (EigValsM.npSort vals).length = vals.length := (EigValsM.npSort_perm vals).length_eq
  have hne : EigValsM.npSort vals ≠ [] := fun hc => h (List.length_eq_zero_iff.mp (by rw [← hl, hc]; rfl))
  obtain ⟨s, r, h1, -, n, hn, hd, -⟩ := C173_linear _ _ hne hne
  exact ⟨s, h1, n, by omega, hd⟩

example : ∃ s r, start ([1, 2, 5].map some) ([3, 0].map some : List (Option ℤ)) = .ok s ∧ stepFunctionFast [1, 2, 5] [3, 0] = .ok r ∧
    ∃ n ≤ 12, (runFrom ([1, 2, 5].map some) ([3, 0].map some) n s).pc = .done ∧ (runFrom ([1, 2, 5].map some) ([3, 0].map some) n s).ret = r :=
  C173_linear [1, 2, 5] [3, 0] (by simp) (by simp)

end Props
end RMT
