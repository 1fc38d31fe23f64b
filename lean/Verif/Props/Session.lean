import Verif.Model.Session
import Verif.Props.LevelVariance
import Verif.Props.Generate

/-!
# Property C143: the random states of a session
-/

namespace RMT
namespace Props
open Session Gen LevelVar Rigidity Spec

variable {σ τ : Type}

/-- The call draws from NumPy's global generator. -/
def IsNumpy : Call σ → Bool
  | .numpy _ => true
  | .generate .. => true
  | _ => false

/-- The results of calls which draw from NumPy's global generator. -/
def numpyResults (l : List Out) : List Out := l.filter fun
  | .observable _ => false
  | _ => true

/-- The results of observables. -/
def observableResults (l : List Out) : List Out := l.filter fun
  | .observable _ => true
  | _ => false

/-- **C143 (generation is not disturbed by observables).** For every session, the results of the calls which draw from NumPy's generator are those of the same session without the observables, whatever the states of the compiled code. -/
theorem C143_generation (R : Rng σ) (eh : EigM.EigSolver) (ehC : (n : Nat) → Matrix (Fin n) (Fin n) ℂ → List ℝ) (N : Compiled τ) (calls : List (Call σ)) :
    ∀ w w' : World σ τ, w.np = w'.np → numpyResults (results R eh ehC N w calls) = results R eh ehC N w' (calls.filter IsNumpy) := by
  induction calls with
  | nil => intro w w' _; rfl
  | cons c cs ih =>
    intro w w' h
    cases c with
    | numpy f =>
      have := ih (step R eh ehC N w (.numpy f)).2 (step R eh ehC N w' (.numpy f)).2 (by simp [step, h])
      simp only [results, numpyResults, List.filter_cons, IsNumpy] at this ⊢
      simp only [step, h, if_true] at this ⊢
      rw [this, results]
      rfl
    | generate n kind seed tri e =>
      have := ih (step R eh ehC N w (.generate n kind seed tri e)).2 (step R eh ehC N w' (.generate n kind seed tri e)).2 (by simp [step, h])
      simp only [results, numpyResults, List.filter_cons, IsNumpy] at this ⊢
      simp only [step, h, if_true] at this ⊢
      rw [this, results]
      rfl
    | levelVariance order assign unfolded L tol maxIters junk =>
      have := ih (step R eh ehC N w (.levelVariance order assign unfolded L tol maxIters junk)).2 w' (by simp [step, h])
      simp only [results, numpyResults, List.filter_cons, IsNumpy, Bool.false_eq_true, if_false] at this ⊢
      simpa [step] using this
    | rigidity order assign unfolded L tol maxIters g i =>
      have := ih (step R eh ehC N w (.rigidity order assign unfolded L tol maxIters g i)).2 w' (by simp [step, h])
      simp only [results, numpyResults, List.filter_cons, IsNumpy, Bool.false_eq_true, if_false] at this ⊢
      simpa [step] using this

/-- **C143 (observables are not disturbed by generation).** Likewise the results of the observables are those of the session without the calls to NumPy's generator, whatever NumPy's state. -/
theorem C143_observables (R : Rng σ) (eh : EigM.EigSolver) (ehC : (n : Nat) → Matrix (Fin n) (Fin n) ℂ → List ℝ) (N : Compiled τ) (calls : List (Call σ)) :
    ∀ w w' : World σ τ, w.nb = w'.nb → observableResults (results R eh ehC N w calls) = results R eh ehC N w' (calls.filter fun c => !IsNumpy c) := by
  induction calls with
  | nil => intro w w' _; rfl
  | cons c cs ih =>
    intro w w' h
    cases c with
    | numpy f =>
      have := ih (step R eh ehC N w (.numpy f)).2 w' (by simp [step, h])
      simp only [results, observableResults, List.filter_cons, IsNumpy] at this ⊢
      simpa [step] using this
    | generate n kind seed tri e =>
      have := ih (step R eh ehC N w (.generate n kind seed tri e)).2 w' (by simp [step, h])
      simp only [results, observableResults, List.filter_cons, IsNumpy] at this ⊢
      simpa [step] using this
    | levelVariance order assign unfolded L tol maxIters junk =>
      have := ih (step R eh ehC N w (.levelVariance order assign unfolded L tol maxIters junk)).2 (step R eh ehC N w' (.levelVariance order assign unfolded L tol maxIters junk)).2 (by simp [step, h])
      simp only [results, observableResults, List.filter_cons, IsNumpy] at this ⊢
      simp only [step, h, if_true, Bool.not_false] at this ⊢
      simp only [results, step]
      rw [this]
    | rigidity order assign unfolded L tol maxIters g i =>
      have := ih (step R eh ehC N w (.rigidity order assign unfolded L tol maxIters g i)).2 (step R eh ehC N w' (.rigidity order assign unfolded L tol maxIters g i)).2 (by simp [step, h])
      simp only [results, observableResults, List.filter_cons, IsNumpy] at this ⊢
      simp only [step, h, if_true, Bool.not_false] at this ⊢
      simp only [results, step]
      rw [this]

/-- **C143 (seeding reproduces generation).** After `np.random.seed(k)`, everything drawn from NumPy's generator in the rest of the session is the same whatever the states before, with any observables in between. -/
theorem C143_seed_partial (R : Rng σ) (eh : EigM.EigSolver) (ehC : (n : Nat) → Matrix (Fin n) (Fin n) ℂ → List ℝ) (N : Compiled τ) (k : Nat) (calls : List (Call σ)) (w w' : World σ τ) :
    numpyResults (results R eh ehC N w (npSeed R k :: calls)) = numpyResults (results R eh ehC N w' (npSeed R k :: calls)) := by
  have h : ∀ v : World σ τ, numpyResults (results R eh ehC N v (npSeed R k :: calls)) = .numpy [] :: numpyResults (results R eh ehC N ⟨R.seed k, v.nb⟩ calls) := by
    intro v
    simp [results, npSeed, step, numpyResults]
  rw [h, h, C143_generation R eh ehC N calls ⟨R.seed k, w.nb⟩ ⟨R.seed k, w'.nb⟩ rfl, C143_generation R eh ehC N calls ⟨R.seed k, w'.nb⟩ ⟨R.seed k, w'.nb⟩ rfl]

/-! The generator of the counterexamples: the state is the stream of draws to come. -/

/-- The state is the stream of draws to come. -/
def streamCompiled : Compiled (Nat → ℝ) := ⟨fun s => (s 0, fun k => s (k + 1))⟩

theorem stream_draw (s : Nat → ℝ) (j : Nat) : streamCompiled.after s j = (fun k => s (k + j)) ∧ streamCompiled.draw s j = s j := by
  have h : ∀ j, streamCompiled.after s j = fun k => s (k + j) := by
    intro j
    induction j with
    | zero => rfl
    | succ j ih =>
      rw [Compiled.after, ih]
      funext k
      exact congrArg s (by omega)
  refine ⟨h j, ?_⟩
  rw [Compiled.draw, h]
  exact congrArg s (by omega)

theorem two_windows (U : Nat → ℝ) : ∃ conv, sigmaL [0, 1] 1 2 0 100 U = .ok (runVar (fun j => windowCount [0, 1] 1 0 1 U (j + 1)) 2, conv, 2) := by
  obtain ⟨v, conv, k, h1, h2, h3, h4, h5, h6⟩ := C20_sigma_budget (K := ℝ) [0, 1] 0 1 (by simp [Spec.IsMin]) (by simp [Spec.IsMax]) 1 2 0 100 U
  obtain ⟨v', conv', k', g1, g2, g3, g4⟩ := C19_sigma_is_variance (K := ℝ) [0, 1] 0 1 (by simp [Spec.IsMin]) (by simp [Spec.IsMax]) 1 2 0 100 U
  rw [h1] at g1
  simp only [Except.ok.injEq, Prod.mk.injEq] at g1
  obtain ⟨rfl, rfl, rfl⟩ := g1
  have hk : k = 2 := by
    by_contra hne
    have : k < 2 := by
      have : max 1 2 = 2 := rfl
      omega
    have := (h4 this).1
    omega
  subst hk
  exact ⟨conv, by rw [h1, g3]⟩

theorem count_window (u : ℝ) : (countIn [(0 : ℝ), 1] (0 + (1 - 0) * u - 1 / 2) (0 + (1 - 0) * u + 1 / 2) : Nat) =
    (if u = 1 / 2 then 2 else if -1 / 2 ≤ u ∧ u ≤ 3 / 2 then 1 else 0) := by
  unfold countIn
  by_cases h : u = 1 / 2
  · subst h; norm_num [List.countP_cons]
  · rw [if_neg h]
    by_cases h2 : -1 / 2 ≤ u ∧ u ≤ 3 / 2
    · rw [if_pos h2]
      rcases lt_or_gt_of_ne h with h3 | h3
      · have a1 : u - 1 / 2 ≤ 0 ∧ 0 ≤ u + 1 / 2 := ⟨by linarith, by linarith [h2.1]⟩
        have a2 : ¬ (u - 1 / 2 ≤ 1 ∧ 1 ≤ u + 1 / 2) := fun h => by linarith [h.2]
        have a1' : 0 + (1 - 0) * u - 1 / 2 ≤ 0 ∧ 0 ≤ 0 + (1 - 0) * u + 1 / 2 := ⟨by linarith, by linarith⟩
        have a2' : ¬ (0 + (1 - 0) * u - 1 / 2 ≤ 1 ∧ 1 ≤ 0 + (1 - 0) * u + 1 / 2) := fun h => by linarith [h.2]
        rw [List.countP_cons, List.countP_cons, decide_eq_true a1', decide_eq_false a2']
        rfl
      · have a1' : ¬ (0 + (1 - 0) * u - 1 / 2 ≤ 0 ∧ 0 ≤ 0 + (1 - 0) * u + 1 / 2) := fun h => by linarith [h.1]
        have a2' : 0 + (1 - 0) * u - 1 / 2 ≤ 1 ∧ 1 ≤ 0 + (1 - 0) * u + 1 / 2 := ⟨by linarith [h2.2], by linarith⟩
        rw [List.countP_cons, List.countP_cons, decide_eq_false a1', decide_eq_true a2']
        rfl
    · rw [if_neg h2]
      have a1' : ¬ (0 + (1 - 0) * u - 1 / 2 ≤ 0 ∧ 0 ≤ 0 + (1 - 0) * u + 1 / 2) := fun h => h2 ⟨by linarith [h.2], by linarith [h.1]⟩
      have a2' : ¬ (0 + (1 - 0) * u - 1 / 2 ≤ 1 ∧ 1 ≤ 0 + (1 - 0) * u + 1 / 2) := fun h => h2 ⟨by linarith [h.2], by linarith [h.1]⟩
      rw [List.countP_cons, List.countP_cons, decide_eq_false a1', decide_eq_false a2']
      rfl

/-- The variance of two windows: 0 if they are alike, 1/4 if one is in the middle. -/
theorem var_two (U : Nat → ℝ) (h1 : U 1 = 0) : (U 2 = 0 → runVar (fun j => windowCount [0, 1] 1 0 1 U (j + 1)) 2 = 0) ∧
    (U 2 = 1 / 2 → runVar (fun j => windowCount [0, 1] 1 0 1 U (j + 1)) 2 = 1 / 4) := by
  have h2 : ∀ j, windowCount [0, 1] 1 0 1 U j = ((if U j = 1 / 2 then 2 else if -1 / 2 ≤ U j ∧ U j ≤ 3 / 2 then 1 else 0 : Nat) : ℝ) := fun j => by
    rw [windowCount, count_window]
  constructor
  · intro h3
    simp only [runVar, runMean, Finset.sum_range_succ, Finset.sum_range_zero, h2, h1, h3]
    norm_num
  · intro h4
    simp only [runVar, runMean, Finset.sum_range_succ, Finset.sum_range_zero, h2, h1, h4]
    norm_num

/-- The stream of zeros, and the streams of zeros with 1/2 at one place. -/
noncomputable def half (k : Nat) : Nat → ℝ := fun j => if j = k then 1 / 2 else 0

/-- The values of `level_variance` on the spectrum `[0, 1]` with windows of length 1 and two iterations, for the streams given. -/
theorem lv_values (order : List Nat) (m : Nat) (ho : order.Perm (List.range m)) (Up : Nat → ℝ) (U : Nat → Nat → ℝ) :
    ∃ vals conv iters, levelNumberVariance order [0, 1] (List.replicate m (1 : ℝ)) 0 2 Up U 0 = .ok (List.replicate m 1, vals, conv, iters) ∧
      ∀ i, i < m → vals[i]? = some (runVar (fun j => windowCount [0, 1] 1 0 1 (U i) (j + 1)) 2) := by
  obtain ⟨vals, conv, iters, h1, h2, h3, h4, h5⟩ := C20_levelvar_explicit order [(0 : ℝ), 1] (List.replicate m 1) (by simp) 0 2 (by norm_num) Up U 0 (by simpa using ho)
  refine ⟨vals, conv, iters, h1, fun i hi => ?_⟩
  rw [List.length_replicate] at h2 h3 h4
  have := h5 i (by simpa using hi) (by omega) (by omega) (by omega)
  rw [List.getElem_replicate] at this
  obtain ⟨c, hc⟩ := two_windows (U i)
  rw [show (2 : Int).toNat = 2 from rfl] at this
  rw [hc] at this
  simp only [Except.ok.injEq, Prod.mk.injEq] at this
  rw [List.getElem?_eq_getElem (by omega), this.1]

theorem sigma_used (U : Nat → ℝ) : sigmaUsed [0, 1] 1 2 0 100 U = 3 := by
  obtain ⟨c, hc⟩ := two_windows U
  simp [sigmaUsed, hc]

/-- **C143 (seeding does not reproduce observables).** After `np.random.seed(k)`, for any `k` and any generator behind NumPy, the same call `level_variance` can return different values: it depends on the states of the compiled code, which the seed does not set. -/
theorem C143_seed_refuted (R : Rng σ) (eh : EigM.EigSolver) (ehC : (n : Nat) → Matrix (Fin n) (Fin n) ℂ → List ℝ) (k : Nat) (s : σ) :
    ∃ (N : Compiled (Nat → ℝ)) (th th' : Nat → Nat → ℝ) (c : Call σ),
      results R eh ehC N ⟨s, th⟩ [npSeed R k, c] ≠ results R eh ehC N ⟨s, th'⟩ [npSeed R k, c] := by
  refine ⟨streamCompiled, fun _ _ => 0, fun _ => half 2, .levelVariance [0] id [0, 1] [1] 0 2 0, fun h => ?_⟩
  simp only [results, npSeed, step, List.cons.injEq, Out.observable.injEq, true_and, and_true] at h
  have e : ∀ th : Nat → Nat → ℝ, (runLevelVariance streamCompiled [0] id [0, 1] [1] 0 2 0 th).1 =
      levelNumberVariance [0] [0, 1] (List.replicate 1 1) 0 2 (streamCompiled.draw (th 0)) (Function.update (fun _ _ => 0) 0 (th 0)) 0 := by
    intro th
    simp only [runLevelVariance, streams]
    rw [if_neg (by norm_num)]
    have : streamCompiled.draw (th (id 0)) = th 0 := funext fun j => (stream_draw (th 0) j).2
    rw [this]
    rfl
  rw [e, e] at h
  obtain ⟨v, c, i, h1, h2⟩ := lv_values [0] 1 (by simp) (streamCompiled.draw ((fun _ _ => 0 : Nat → Nat → ℝ) 0)) (Function.update (fun _ _ => 0) 0 ((fun _ _ => 0 : Nat → Nat → ℝ) 0))
  obtain ⟨v', c', i', h1', h2'⟩ := lv_values [0] 1 (by simp) (streamCompiled.draw ((fun _ => half 2 : Nat → Nat → ℝ) 0)) (Function.update (fun _ _ => 0) 0 ((fun _ => half 2 : Nat → Nat → ℝ) 0))
  rw [h1, h1'] at h
  simp only [Except.ok.injEq, Prod.mk.injEq] at h
  have a := h2 0 (by norm_num)
  have b := h2' 0 (by norm_num)
  rw [h.2.1, b] at a
  simp only [Function.update_self, Option.some.injEq] at a
  rw [(var_two _ (by simp [half])).2 (by simp [half]), (var_two _ rfl).1 rfl] at a
  norm_num at a

/-- **C143 (nor does the state of the compiled code alone).** With equal states of all threads, the values which `level_variance` returns can depend on which thread executes which iteration of the parallel loop. -/
theorem C143_schedule_refuted (R : Rng σ) (eh : EigM.EigSolver) (ehC : (n : Nat) → Matrix (Fin n) (Fin n) ℂ → List ℝ) (s : σ) :
    ∃ (N : Compiled (Nat → ℝ)) (w : World σ (Nat → ℝ)) (assign assign' : Nat → Nat),
      results R eh ehC N w [.levelVariance [0, 1] assign [0, 1] [1, 1] 0 2 0] ≠ results R eh ehC N w [.levelVariance [0, 1] assign' [0, 1] [1, 1] 0 2 0] := by
  refine ⟨streamCompiled, ⟨s, fun _ => half 5⟩, fun _ => 0, id, fun h => ?_⟩
  simp only [results, step, List.cons.injEq, Out.observable.injEq, and_true] at h
  have e1 : (runLevelVariance streamCompiled [0, 1] (fun _ => 0) [0, 1] [1, 1] 0 2 0 (fun _ => half 5)).1 =
      levelNumberVariance [0, 1] [0, 1] (List.replicate 2 1) 0 2 (streamCompiled.draw (half 5)) (Function.update (Function.update (fun _ _ => 0) 0 (half 5)) 1 (half 2)) 0 := by
    simp only [runLevelVariance, streams]
    rw [if_neg (by norm_num)]
    have h0 : streamCompiled.draw (half 5) = half 5 := funext fun j => (stream_draw _ j).2
    have hu : sigmaUsed [0, 1] (nth [1, 1] ((0 : Nat) : Int)) (Int.toNat 2) 0 MIN_ITERS (half 5) = 3 := sigma_used _
    have h3 : streamCompiled.after (half 5) 3 = half 2 := by
      rw [(stream_draw _ 3).1]
      funext j
      simp only [half]
      congr 1
      simp
    have h4 : streamCompiled.draw (half 2) = half 2 := funext fun j => (stream_draw _ j).2
    simp only [h0, hu, h3, h4, Function.update_self]
    rfl
  have e2 : (runLevelVariance streamCompiled [0, 1] id [0, 1] [1, 1] 0 2 0 (fun _ => half 5)).1 =
      levelNumberVariance [0, 1] [0, 1] (List.replicate 2 1) 0 2 (streamCompiled.draw (half 5)) (Function.update (Function.update (fun _ _ => 0) 0 (half 5)) 1 (half 5)) 0 := by
    simp only [runLevelVariance, streams]
    rw [if_neg (by norm_num)]
    have h0 : streamCompiled.draw (half 5) = half 5 := funext fun j => (stream_draw _ j).2
    have hne : Function.update (fun _ => half 5 : Nat → Nat → ℝ) (id 0) (streamCompiled.after (half 5) (sigmaUsed [0, 1] (nth [1, 1] ((0 : Nat) : Int)) (Int.toNat 2) 0 MIN_ITERS (half 5))) (id 1) = half 5 := by
      rw [Function.update_of_ne (by simp)]
    simp only [h0, hne]
    rfl
  rw [e1, e2] at h
  obtain ⟨v, c, i, h1, h2⟩ := lv_values [0, 1] 2 (by simp [List.range_succ]) (streamCompiled.draw (half 5)) (Function.update (Function.update (fun _ _ => 0) 0 (half 5)) 1 (half 2))
  obtain ⟨v', c', i', h1', h2'⟩ := lv_values [0, 1] 2 (by simp [List.range_succ]) (streamCompiled.draw (half 5)) (Function.update (Function.update (fun _ _ => 0) 0 (half 5)) 1 (half 5))
  rw [h1, h1'] at h
  simp only [Except.ok.injEq, Prod.mk.injEq] at h
  have a := h2 1 (by norm_num)
  have b := h2' 1 (by norm_num)
  rw [h.2.1, b] at a
  simp only [Function.update_self, Option.some.injEq] at a
  rw [(var_two (half 5) (by simp [half])).1 (by simp [half]), (var_two (half 2) (by simp [half])).2 (by simp [half])] at a
  norm_num at a

-- C143: a session with a seed, two generated matrices and an observable between them; the second matrix is the one drawn without the observable
example (R : Rng σ) (eh : EigM.EigSolver) (ehC : (n : Nat) → Matrix (Fin n) (Fin n) ℂ → List ℝ) (N : Compiled τ) (w : World σ τ) (o : Call σ) (ho : IsNumpy o = false) (e : σ) :
    numpyResults (results R eh ehC N w [npSeed R 7, .generate 3 (.kind .goe) none false e, o, .generate 3 (.kind .gue) none false e]) =
      [.numpy [], .generated (generate R eh ehC 3 (.kind .goe) none false e (R.seed 7)).1,
        .generated (generate R eh ehC 3 (.kind .gue) none false e (generate R eh ehC 3 (.kind .goe) none false e (R.seed 7)).2).1] := by
  rw [C143_generation R eh ehC N _ w w rfl]
  rw [List.filter_cons_of_pos rfl, List.filter_cons_of_pos rfl, List.filter_cons_of_neg (by simp [ho]), List.filter_cons_of_pos rfl]
  rfl

end Props
end RMT
