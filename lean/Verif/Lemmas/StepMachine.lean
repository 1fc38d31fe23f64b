import Verif.Model.StepMachine
import Verif.Lemmas.Step

/-!
# Lemmas on the step-function machine
-/

namespace RMT
namespace StepMachine
open Step

variable {α : Type} [LinearOrder α]

/-- `t` is reached from `s`. -/
def Reach (eigs x : List (Option α)) (s t : St) : Prop := ∃ n, runFrom eigs x n s = t

theorem Reach.refl (eigs x : List (Option α)) (s : St) : Reach eigs x s s := ⟨0, rfl⟩

theorem runFrom_add (eigs x : List (Option α)) (m n : Nat) (s : St) :
    runFrom eigs x (m + n) s = runFrom eigs x n (runFrom eigs x m s) := by
  induction m generalizing s with
  | zero => simp [runFrom]
  | succ m ih => rw [Nat.succ_add, runFrom, runFrom, ih]

theorem Reach.trans {eigs x : List (Option α)} {s t u : St} (h : Reach eigs x s t) (h' : Reach eigs x t u) :
    Reach eigs x s u := by
  obtain ⟨m, hm⟩ := h
  obtain ⟨n, hn⟩ := h'
  exact ⟨m + n, by rw [runFrom_add, hm, hn]⟩

theorem Reach.cons {eigs x : List (Option α)} {s t : St} (h : Reach eigs x (step eigs x s) t) : Reach eigs x s t := by
  obtain ⟨n, hn⟩ := h
  exact ⟨n + 1, by rw [runFrom, hn]⟩

omit [LinearOrder α] in
theorem getD_map_some (q : List α) (j : Nat) (h : j < q.length) : (q.map some).getD j none = some q[j] := by
  simp [List.getD_eq_getElem?_getD, h]

theorem reach_skip (eigs : List (Option α)) (q : List α) (e0 : α) (h0 : eigs.getD 0 none = some e0)
    (i j c : Nat) (ret : List Nat) :
    Reach eigs (q.map some) ⟨.skip, i, j, c, ret⟩ ⟨.main, i, skipLoop e0 q j, c, ret⟩ := by
  fun_induction skipLoop e0 q j with
  | case1 j h hx ih =>
    refine Reach.cons ?_
    have : step eigs (q.map some) ⟨.skip, i, j, c, ret⟩ = ⟨.skip, i, j + 1, c, ret⟩ := by
      simp [step, h, getD_map_some q j h, h0, flt, hx, -List.getD_eq_getElem?_getD]
    rw [this]; exact ih
  | case2 j h hx =>
    refine Reach.cons ?_
    have : step eigs (q.map some) ⟨.skip, i, j, c, ret⟩ = ⟨.main, i, j, c, ret⟩ := by
      simp [step, getD_map_some q j h, h0, flt, hx, -List.getD_eq_getElem?_getD]
    rw [this]; exact Reach.refl ..
  | case3 j h =>
    refine Reach.cons ?_
    have : step eigs (q.map some) ⟨.skip, i, j, c, ret⟩ = ⟨.main, i, j, c, ret⟩ := by
      simp [step, h]
    rw [this]; exact Reach.refl ..

theorem reach_look (eigs : List (Option α)) (q : List α) (e : α) (i : Nat) (h0 : eigs.getD i none = some e)
    (c j : Nat) (ret : List Nat) :
    Reach eigs (q.map some) ⟨.look, i, j, c, ret⟩
      ⟨.main, i, (lookAhead e q c j ret).1, c, (lookAhead e q c j ret).2⟩ := by
  fun_induction lookAhead e q c j ret with
  | case1 j ret h hx ih =>
    refine Reach.cons ?_
    have : step eigs (q.map some) ⟨.look, i, j, c, ret⟩ = ⟨.look, i, j + 1, c, ret.set j c⟩ := by
      simp [step, h, getD_map_some q j h, h0, flt, hx, -List.getD_eq_getElem?_getD]
    rw [this]; exact ih
  | case2 j ret h hx =>
    refine Reach.cons ?_
    have : step eigs (q.map some) ⟨.look, i, j, c, ret⟩ = ⟨.main, i, j, c, ret⟩ := by
      simp [step, getD_map_some q j h, h0, flt, hx, -List.getD_eq_getElem?_getD]
    rw [this]; exact Reach.refl ..
  | case3 j ret h =>
    refine Reach.cons ?_
    have : step eigs (q.map some) ⟨.look, i, j, c, ret⟩ = ⟨.main, i, j, c, ret⟩ := by
      simp [step, h]
    rw [this]; exact Reach.refl ..

theorem reach_main (e q : List α) (i j c : Nat) (ret : List Nat) :
    ∃ i', Reach (e.map some) (q.map some) ⟨.main, i, j, c, ret⟩
      ⟨.tail, i', (mainLoop e q i j c ret).1, (mainLoop e q i j c ret).2.1, (mainLoop e q i j c ret).2.2⟩ := by
  fun_induction mainLoop e q i j c ret with
  | case1 i j c ret h hle ih =>
    obtain ⟨i', hi⟩ := ih
    refine ⟨i', Reach.cons ?_⟩
    have : step (e.map some) (q.map some) ⟨.main, i, j, c, ret⟩ = ⟨.main, i + 1, j, c + 1, ret⟩ := by
      simp [step, h.1, h.2, getD_map_some q j h.1, getD_map_some e i h.2, fle, hle, -List.getD_eq_getElem?_getD]
    rw [this]; exact hi
  | case2 i j c ret h hle ih =>
    obtain ⟨i', hi⟩ := ih
    refine ⟨i', Reach.cons ?_⟩
    have : step (e.map some) (q.map some) ⟨.main, i, j, c, ret⟩ = ⟨.look, i, j, c, ret⟩ := by
      simp [step, h.1, h.2, getD_map_some q j h.1, getD_map_some e i h.2, fle, not_le.mp hle, -List.getD_eq_getElem?_getD]
    rw [this]
    exact (reach_look (e.map some) q e[i] i (getD_map_some e i h.2) c j ret).trans hi
  | case3 i j c ret h =>
    refine ⟨i, Reach.cons ?_⟩
    have : step (e.map some) (q.map some) ⟨.main, i, j, c, ret⟩ = ⟨.tail, i, j, c, ret⟩ := by
      simp only [step, List.length_map, if_neg h]
    rw [this]; exact Reach.refl ..

theorem reach_tail (eigs x : List (Option α)) (i j c : Nat) (ret : List Nat) :
    ∃ j', Reach eigs x ⟨.tail, i, j, c, ret⟩ ⟨.done, i, j', c, tailLoop x.length c j ret⟩ := by
  generalize hn : x.length = n
  fun_induction tailLoop n c j ret with
  | case1 j ret h ih =>
    obtain ⟨j', hj⟩ := ih
    refine ⟨j', Reach.cons ?_⟩
    have : step eigs x ⟨.tail, i, j, c, ret⟩ = ⟨.tail, i, j + 1, c, ret.set j c⟩ := by
      simp [step, hn, h]
    rw [this]; exact hj
  | case2 j ret h =>
    refine ⟨j, Reach.cons ?_⟩
    have : step eigs x ⟨.tail, i, j, c, ret⟩ = ⟨.done, i, j, c, ret⟩ := by
      simp [step, hn, h]
    rw [this]; exact Reach.refl ..

theorem lookAhead_len (e : α) (q : List α) (c j : Nat) (ret : List Nat) : (lookAhead e q c j ret).2.length = ret.length := by
  fun_induction lookAhead e q c j ret with
  | case1 j ret h hx ih => rw [ih]; simp
  | case2 j ret h hx => rfl
  | case3 j ret h => rfl

theorem mainLoop_len (e q : List α) (i j c : Nat) (ret : List Nat) : (mainLoop e q i j c ret).2.2.length = ret.length := by
  fun_induction mainLoop e q i j c ret with
  | case1 i j c ret h hle ih => exact ih
  | case2 i j c ret h hle ih => rw [ih, lookAhead_len]
  | case3 i j c ret h => rfl

/-- From any state of the last loop the function returns. -/
theorem tail_done (eigs x : List (Option α)) (s : St) (h : s.pc = .tail) :
    ∃ n, (runFrom eigs x n s).pc = .done := by
  obtain ⟨pc, i, j, c, ret⟩ := s
  simp only at h
  subst h
  obtain ⟨j', n, hn⟩ := reach_tail eigs x i j c ret
  exact ⟨n, by rw [hn]⟩

/-- An invariant that excludes `done`. -/
theorem never_done {eigs x : List (Option α)} (P : St → Prop) (hP : ∀ s, P s → P (step eigs x s))
    (hd : ∀ s, P s → s.pc ≠ .done) (s : St) (hs : P s) (n : Nat) : (runFrom eigs x n s).pc ≠ .done := by
  induction n generalizing s with
  | zero => exact hd s hs
  | succ n ih => exact ih _ (hP s hs)

/-- The machine is stuck before the first NaN query `p` and before eigenvalue `r`, if eigenvalue `r` is not `≤` any of the queries up to
`p`. -/
theorem stuck {eigs x : List (Option α)} (p r : Nat) (hp : p < x.length) (hr : r < eigs.length)
    (hnan : x.getD p none = none)
    (hcon : ∀ j, j ≤ p → fle (eigs.getD r none) (x.getD j none) = false)
    (s : St) (hs : (s.pc = .skip ∨ s.pc = .main ∨ s.pc = .look) ∧ s.j ≤ p ∧ s.i ≤ r) (n : Nat) :
    (runFrom eigs x n s).pc ≠ .done := by
  refine never_done (fun s => (s.pc = .skip ∨ s.pc = .main ∨ s.pc = .look) ∧ s.j ≤ p ∧ s.i ≤ r) ?_ ?_ s hs n
  · rintro ⟨pc, i, j, c, ret⟩ ⟨hpc, hj, hi⟩
    change j ≤ p at hj
    change i ≤ r at hi
    have hjx : j < x.length := lt_of_le_of_lt hj hp
    have hie : i < eigs.length := lt_of_le_of_lt hi hr
    have hfl : ∀ e : Option α, flt (x.getD j none) e = true → j < p := by
      intro e he
      rcases Nat.lt_or_eq_of_le hj with h | h
      · exact h
      · rw [h, hnan] at he; simp [flt] at he
    rcases hpc with h | h | h <;> simp only at h <;> subst h
    · simp only [step]
      split
      · rename_i hc
        exact ⟨Or.inl rfl, hfl _ hc.2, hi⟩
      · exact ⟨Or.inr (Or.inl rfl), hj, hi⟩
    · simp only [step]
      rw [if_pos ⟨hjx, hie⟩]
      split
      · rename_i hc
        refine ⟨Or.inr (Or.inl rfl), hj, ?_⟩
        rcases Nat.lt_or_eq_of_le hi with h | h
        · exact h
        · rw [h, hcon j hj] at hc; cases hc
      · exact ⟨Or.inr (Or.inr rfl), hj, hi⟩
    · simp only [step]
      split
      · rename_i hc
        exact ⟨Or.inr (Or.inr rfl), hfl _ hc.2, hi⟩
      · exact ⟨Or.inr (Or.inl rfl), hj, hi⟩
  · rintro ⟨pc, i, j, c, ret⟩ ⟨hpc, -, -⟩
    rcases hpc with h | h | h <;> simp only at h <;> subst h <;> simp

/-- If query `q` is `≥` every eigenvalue and no query up to `q` and no eigenvalue is NaN, the last loop is reached. -/
theorem progress {eigs x : List (Option α)} (q : Nat) (hq : q < x.length)
    (hx : ∀ j, j ≤ q → x.getD j none ≠ none) (he : ∀ i, i < eigs.length → eigs.getD i none ≠ none)
    (hall : ∀ i, i < eigs.length → fle (eigs.getD i none) (x.getD q none) = true) :
    ∀ (N : Nat) (i j c : Nat) (ret : List Nat), (eigs.length - i) + (q - j) ≤ N → j ≤ q →
      (∃ n, (runFrom eigs x n ⟨.main, i, j, c, ret⟩).pc = .tail) := by
  have key : ∀ i j, i < eigs.length → j ≤ q → fle (eigs.getD i none) (x.getD j none) = false →
      flt (x.getD j none) (eigs.getD i none) = true ∧ j < q := by
    intro i j hi hj hf
    have h1 := hx j hj
    have h2 := he i hi
    have h3 := hall i hi
    constructor
    · revert hf h1 h2
      cases x.getD j none <;> cases eigs.getD i none <;> simp [flt, fle]
    · rcases Nat.lt_or_eq_of_le hj with h | h
      · exact h
      · rw [h, h3] at hf; cases hf
  intro N
  induction N with
  | zero =>
    intro i j c ret hN hj
    refine ⟨1, ?_⟩
    simp only [runFrom, step]
    rw [if_neg (by omega)]
  | succ N ih =>
    intro i j c ret hN hj
    by_cases hi : i < eigs.length
    · cases hf : fle (eigs.getD i none) (x.getD j none) with
      | true =>
        obtain ⟨n, hn⟩ := ih (i + 1) j (c + 1) ret (by omega) hj
        refine ⟨n + 1, ?_⟩
        rw [runFrom]
        have : step eigs x ⟨.main, i, j, c, ret⟩ = ⟨.main, i + 1, j, c + 1, ret⟩ := by
          simp only [step, if_pos (show j < x.length ∧ i < eigs.length from ⟨by omega, hi⟩), hf, if_true]
        rw [this]; exact hn
      | false =>
        obtain ⟨hlt, hjq⟩ := key i j hi hj hf
        -- one look-ahead step, then the look-ahead loop continues; go back to `main` when it stops
        have look : ∀ M j ret, q - j ≤ M → j ≤ q → (eigs.length - i) + (q - j) ≤ N →
            ∃ n, (runFrom eigs x n ⟨.look, i, j, c, ret⟩).pc = .tail := by
          intro M
          induction M with
          | zero =>
            intro j ret hM hj hN'
            obtain ⟨n, hn⟩ := ih i j c ret hN' hj
            refine ⟨n + 1, ?_⟩
            rw [runFrom]
            have : step eigs x ⟨.look, i, j, c, ret⟩ = ⟨.main, i, j, c, ret⟩ := by
              have hjq : j = q := by omega
              have hno : flt (x.getD j none) (eigs.getD i none) = false := by
                have := hall i hi
                rw [← hjq] at this
                revert this
                cases x.getD j none <;> cases eigs.getD i none <;> simp [flt, fle]
              simp [step, hno, -List.getD_eq_getElem?_getD]
            rw [this]; exact hn
          | succ M ihM =>
            intro j ret hM hj hN'
            cases hl : flt (x.getD j none) (eigs.getD i none) with
            | true =>
              have hjq : j < q := by
                rcases Nat.lt_or_eq_of_le hj with h | h
                · exact h
                · exfalso
                  have := hall i hi
                  rw [← h] at this
                  revert this hl
                  cases x.getD j none <;> cases eigs.getD i none <;> simp [flt, fle]
              obtain ⟨n, hn⟩ := ihM (j + 1) (ret.set j c) (by omega) (by omega) (by omega)
              refine ⟨n + 1, ?_⟩
              rw [runFrom]
              have : step eigs x ⟨.look, i, j, c, ret⟩ = ⟨.look, i, j + 1, c, ret.set j c⟩ := by
                simp only [step, hl, and_true, if_pos (show j < x.length by omega)]
              rw [this]; exact hn
            | false =>
              obtain ⟨n, hn⟩ := ih i j c ret hN' hj
              refine ⟨n + 1, ?_⟩
              rw [runFrom]
              have : step eigs x ⟨.look, i, j, c, ret⟩ = ⟨.main, i, j, c, ret⟩ := by
                simp [step, hl, -List.getD_eq_getElem?_getD]
              rw [this]; exact hn
        obtain ⟨n, hn⟩ := look (q - (j + 1)) (j + 1) (ret.set j c) (le_refl _) (by omega) (by omega)
        refine ⟨n + 2, ?_⟩
        rw [runFrom, runFrom]
        have h1 : step eigs x ⟨.main, i, j, c, ret⟩ = ⟨.look, i, j, c, ret⟩ := by
          simp [step, hi, (show j < x.length by omega), hf, -List.getD_eq_getElem?_getD]
        have h2 : step eigs x ⟨.look, i, j, c, ret⟩ = ⟨.look, i, j + 1, c, ret.set j c⟩ := by
          simp only [step, hlt, and_true, if_pos (show j < x.length by omega)]
        rw [h1, h2]; exact hn
    · refine ⟨1, ?_⟩
      simp only [runFrom, step]
      rw [if_neg (by omega)]

/-- The skip loop reaches the main loop at or before a query that is not `<` the first eigenvalue. -/
theorem skip_main {eigs x : List (Option α)} (q : Nat) (hq : flt (x.getD q none) (eigs.getD 0 none) = false) :
    ∀ (M j c i : Nat) (ret : List Nat), q - j ≤ M → j ≤ q →
      ∃ j', j' ≤ q ∧ Reach eigs x ⟨.skip, i, j, c, ret⟩ ⟨.main, i, j', c, ret⟩ := by
  intro M
  induction M with
  | zero =>
    intro j c i ret hM hj
    have : j = q := by omega
    subst this
    refine ⟨j, le_refl _, Reach.cons ?_⟩
    have : step eigs x ⟨.skip, i, j, c, ret⟩ = ⟨.main, i, j, c, ret⟩ := by
      simp [step, hq, -List.getD_eq_getElem?_getD]
    rw [this]; exact Reach.refl ..
  | succ M ih =>
    intro j c i ret hM hj
    by_cases h : j < x.length ∧ flt (x.getD j none) (eigs.getD 0 none) = true
    · have hjq : j < q := by
        rcases Nat.lt_or_eq_of_le hj with h' | h'
        · exact h'
        · rw [h', hq] at h; cases h.2
      obtain ⟨j', hj', hr⟩ := ih (j + 1) c i ret (by omega) (by omega)
      refine ⟨j', hj', Reach.cons ?_⟩
      have : step eigs x ⟨.skip, i, j, c, ret⟩ = ⟨.skip, i, j + 1, c, ret⟩ := by
        simp only [step, if_pos h]
      rw [this]; exact hr
    · refine ⟨j, hj, Reach.cons ?_⟩
      have : step eigs x ⟨.skip, i, j, c, ret⟩ = ⟨.main, i, j, c, ret⟩ := by
        simp only [step, if_neg h]
      rw [this]; exact Reach.refl ..

end StepMachine
end RMT
