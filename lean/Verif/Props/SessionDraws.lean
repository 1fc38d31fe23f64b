import Verif.Props.Session
import Verif.Props.RigidityLoop
import Verif.Props.Invariance
import Mathlib.Data.List.GetD

/-!
# Property C163: which random numbers a call uses

The states of a session advance by exactly the numbers a call has used, so no number is used twice and none is skipped.
-/

namespace RMT
namespace Props
open Session Gen LevelVar Rigidity Spec

variable {σ τ : Type}

/-- The number of draws which the iterations `l` take from thread `t`, if iteration `i` runs on thread `assign i` and takes `used i` draws. -/
def drawsOn (assign : Nat → Nat) (used : Nat → Nat) (t : Nat) (l : List Nat) : Nat := ((l.filter fun i => assign i == t).map used).sum

theorem after_add (N : Compiled τ) (s : τ) (a b : Nat) : N.after (N.after s a) b = N.after s (a + b) := by
  induction b with
  | zero => rfl
  | succ b ih => rw [Compiled.after, ih]; rfl

theorem draw_after (N : Compiled τ) (s : τ) (a j : Nat) : N.draw (N.after s a) j = N.draw s (a + j) := by
  rw [Compiled.draw, after_add]; rfl

theorem drawsOn_cons (assign used : Nat → Nat) (t i : Nat) (l : List Nat) :
    drawsOn assign used t (i :: l) = (if assign i = t then used i else 0) + drawsOn assign used t l := by
  by_cases h : assign i = t <;> simp [drawsOn, h]

theorem streams_spec (N : Compiled τ) (assign : Nat → Nat) (used : Nat → (Nat → ℝ) → Nat) (l : List Nat) :
    ∀ (th : Nat → τ) (U0 : Nat → Nat → ℝ), l.Nodup →
      (∀ i, i ∉ l → (streams N assign used l th U0).1 i = U0 i) ∧
      (∀ pre i post, l = pre ++ i :: post → (streams N assign used l th U0).1 i =
        N.draw (N.after (th (assign i)) (drawsOn assign (fun i => used i ((streams N assign used l th U0).1 i)) (assign i) pre))) ∧
      ∀ t, (streams N assign used l th U0).2 t = N.after (th t) (drawsOn assign (fun i => used i ((streams N assign used l th U0).1 i)) t l) := by
  induction l with
  | nil =>
    intro th U0 _
    refine ⟨fun i _ => rfl, fun pre i post h => ?_, fun t => rfl⟩
    simp at h
  | cons a l ih =>
    intro th U0 hn
    rw [List.nodup_cons] at hn
    obtain ⟨h1, h2, h3⟩ := ih (Function.update th (assign a) (N.after (th (assign a)) (used a (N.draw (th (assign a))))))
      (Function.update U0 a (N.draw (th (assign a)))) hn.2
    simp only [streams]
    set S := streams N assign used l (Function.update th (assign a) (N.after (th (assign a)) (used a (N.draw (th (assign a))))))
      (Function.update U0 a (N.draw (th (assign a)))) with hS
    have ha : S.1 a = N.draw (th (assign a)) := by rw [h1 a hn.1, Function.update_self]
    have hthr : ∀ t k, N.after (Function.update th (assign a) (N.after (th (assign a)) (used a (N.draw (th (assign a))))) t) k =
        N.after (th t) ((if assign a = t then used a (S.1 a) else 0) + k) := by
      intro t k
      by_cases h : assign a = t
      · subst h; rw [Function.update_self, after_add, if_pos rfl, ha]
      · rw [Function.update_of_ne (Ne.symm h), if_neg h, Nat.zero_add]
    refine ⟨fun i hi => ?_, fun pre i post h => ?_, fun t => ?_⟩
    · rw [List.mem_cons, not_or] at hi
      rw [h1 i hi.2, Function.update_of_ne hi.1]
    · cases pre with
      | nil =>
        simp only [List.nil_append, List.cons.injEq] at h
        rw [← h.1, ha]; rfl
      | cons b pre =>
        simp only [List.cons_append, List.cons.injEq] at h
        rw [← h.1, h2 pre i post h.2, hthr, drawsOn_cons]
    · rw [h3 t, hthr, drawsOn_cons]

theorem drawsOn_congr (assign u v : Nat → Nat) (t : Nat) (l : List Nat) (h : ∀ i ∈ l, u i = v i) : drawsOn assign u t l = drawsOn assign v t l := by
  simp only [drawsOn]
  congr 1
  exact List.map_congr_left fun i hi => h i (List.mem_of_mem_filter hi)

/-- **C163 (every number is used once: `level_variance`).** With `max_iters > 0`, the call takes its numbers in order from the states of the threads: the iteration for the `i`-th length starts right after the numbers taken by the
earlier iterations on its thread, and takes one more number than the iterations it reports; afterwards each thread has advanced by exactly the numbers taken on it, and NumPy's state is as before. Later calls therefore use fresh numbers. -/
theorem C163_level_variance (R : Rng σ) (eh : EigM.EigSolver) (ehC : (n : Nat) → Matrix (Fin n) (Fin n) ℂ → List ℝ) (N : Compiled τ) (w : World σ τ)
    (order : List Nat) (assign : Nat → Nat) (unfolded L : List ℝ) (hu : unfolded ≠ []) (tol : ℝ) (maxIters : Int) (hm : 0 < maxIters) (junk : Nat)
    (ho : order.Perm (List.range L.length)) :
    ∃ vals conv iters w', step R eh ehC N w (.levelVariance order assign unfolded L tol maxIters junk) = (.observable (.ok (L, vals, conv, iters)), w') ∧
      w'.np = w.np ∧ (∀ t, w'.nb t = N.after (w.nb t) (drawsOn assign (fun i => iters.getD i 0 + 1) t order)) ∧
      vals.length = L.length ∧ conv.length = L.length ∧ iters.length = L.length ∧
      ∀ pre i post, order = pre ++ i :: post →
        sigmaL unfolded (L.getD i 0) maxIters.toNat tol 100 (fun j => N.draw (w.nb (assign i)) (drawsOn assign (fun i => iters.getD i 0 + 1) (assign i) pre + j)) =
          .ok (vals.getD i 0, conv.getD i false, iters.getD i 0) := by
  have hnd : order.Nodup := ho.nodup_iff.mpr List.nodup_range
  set us := streams N assign (fun i => sigmaUsed unfolded (nth L i) maxIters.toNat tol MIN_ITERS) order w.nb fun _ _ => 0 with hus
  obtain ⟨-, h2, h3⟩ := streams_spec N assign (fun i => sigmaUsed unfolded (nth L i) maxIters.toNat tol MIN_ITERS) order w.nb (fun _ _ => 0) hnd
  rw [← hus] at h2 h3
  obtain ⟨vals, conv, iters, g1, g2, g3, g4, g5⟩ := C20_levelvar_explicit order unfolded L hu tol maxIters hm (N.draw (w.nb 0)) us.1 junk ho
  have hlt : ∀ i ∈ order, i < L.length := fun i hi => by simpa using ho.mem_iff.mp hi
  have hsig : ∀ i ∈ order, sigmaL unfolded (L.getD i 0) maxIters.toNat tol 100 (us.1 i) = .ok (vals.getD i 0, conv.getD i false, iters.getD i 0) := by
    intro i hi
    have hl := hlt i hi
    rw [List.getD_eq_getElem _ _ hl, List.getD_eq_getElem _ _ (by omega), List.getD_eq_getElem _ _ (by omega), List.getD_eq_getElem _ _ (by omega)]
    exact g5 i hl _ _ _
  have hused : ∀ i ∈ order, sigmaUsed unfolded (nth L i) maxIters.toNat tol MIN_ITERS (us.1 i) = iters.getD i 0 + 1 := by
    intro i hi
    have hl := hlt i hi
    have e : nth L (i : Int) = L.getD i 0 := by
      rw [List.getD_eq_getElem _ _ hl]
      simp [nth, pyIdx, hl]
    rw [sigmaUsed, e]
    erw [hsig i hi]
  refine ⟨vals, conv, iters, ⟨w.np, us.2⟩, ?_, rfl, fun t => ?_, g2, g3, g4, fun pre i post h => ?_⟩
  · simp only [step, runLevelVariance]
    rw [if_neg (by omega), ← hus, g1]
  · show us.2 t = _
    rw [h3 t]
    exact congrArg _ (drawsOn_congr _ _ _ _ _ fun i hi => hused i hi)
  · have hs := hsig i (by rw [h]; simp)
    rw [h2 pre i post h] at hs
    rw [← hs]
    congr 1
    funext j
    rw [draw_after]
    congr 2
    exact drawsOn_congr _ _ _ _ _ fun i' hi' => (hused i' (by rw [h]; simp [hi'])).symm

/-- **C163 (every number is used once: `spectral_rigidity`).** Likewise; an iteration takes exactly as many numbers as the iterations it reports. -/
theorem C163_rigidity (R : Rng σ) (eh : EigM.EigSolver) (ehC : (n : Nat) → Matrix (Fin n) (Fin n) ℂ → List ℝ) (N : Compiled τ) (w : World σ τ)
    (order : List Nat) (assign : Nat → Nat) (unfolded L : List ℝ) (hu : unfolded ≠ []) (hL : ∀ l ∈ L, 0 < l) (tol : ℝ) (maxIters : Int) (hm : 0 < maxIters)
    (gridsize : Nat) (hg : 1 ≤ gridsize) (integration : String) (ho : order.Perm (List.range L.length)) :
    ∃ vals conv iters w', step R eh ehC N w (.rigidity order assign unfolded L tol maxIters gridsize integration) = (.observable (.ok (L, vals, conv, iters)), w') ∧
      w'.np = w.np ∧ (∀ t, w'.nb t = N.after (w.nb t) (drawsOn assign (fun i => iters.getD i 0) t order)) ∧
      vals.length = L.length ∧ conv.length = L.length ∧ iters.length = L.length ∧
      ∀ pre i post, order = pre ++ i :: post →
        deltaL unfolded (L.getD i 0) gridsize maxIters.toNat 100 tol (decide (integration ≠ "trapz"))
          (fun j => N.draw (w.nb (assign i)) (drawsOn assign (fun i => iters.getD i 0) (assign i) pre + j)) =
          .ok (vals.getD i 0, conv.getD i false, iters.getD i 0) := by
  have hnd : order.Nodup := ho.nodup_iff.mpr List.nodup_range
  have hb : (integration != "trapz") = decide (integration ≠ "trapz") := by
    by_cases h : integration = "trapz" <;> simp [h]
  set us := streams N assign (fun i => deltaUsed unfolded (nth L i) gridsize maxIters.toNat MIN_ITERS tol (integration != "trapz")) order w.nb fun _ _ => 0 with hus
  obtain ⟨-, h2, h3⟩ := streams_spec N assign (fun i => deltaUsed unfolded (nth L i) gridsize maxIters.toNat MIN_ITERS tol (integration != "trapz")) order w.nb (fun _ _ => 0) hnd
  rw [← hus] at h2 h3
  obtain ⟨vals, conv, iters, g1, g2, g3, g4, g5⟩ := C17_rigidity_explicit order unfolded L hu hL tol maxIters hm gridsize hg integration (N.draw (w.nb 0)) us.1 ho
  have hlt : ∀ i ∈ order, i < L.length := fun i hi => by simpa using ho.mem_iff.mp hi
  have hsig : ∀ i ∈ order, deltaL unfolded (L.getD i 0) gridsize maxIters.toNat 100 tol (decide (integration ≠ "trapz")) (us.1 i) = .ok (vals.getD i 0, conv.getD i false, iters.getD i 0) := by
    intro i hi
    have hl := hlt i hi
    rw [List.getD_eq_getElem _ _ hl, List.getD_eq_getElem _ _ (by omega), List.getD_eq_getElem _ _ (by omega), List.getD_eq_getElem _ _ (by omega)]
    exact g5 i hl _ _ _
  have hused : ∀ i ∈ order, deltaUsed unfolded (nth L i) gridsize maxIters.toNat MIN_ITERS tol (integration != "trapz") (us.1 i) = iters.getD i 0 := by
    intro i hi
    have hl := hlt i hi
    have e : nth L (i : Int) = L.getD i 0 := by
      rw [List.getD_eq_getElem _ _ hl]
      simp [nth, pyIdx, hl]
    rw [deltaUsed, e, hb]
    erw [hsig i hi]
  refine ⟨vals, conv, iters, ⟨w.np, us.2⟩, ?_, rfl, fun t => ?_, g2, g3, g4, fun pre i post h => ?_⟩
  · simp only [step, runRigidity]
    rw [if_neg (by omega), ← hus, g1]
  · show us.2 t = _
    rw [h3 t]
    exact congrArg _ (drawsOn_congr _ _ _ _ _ fun i hi => hused i hi)
  · have hs := hsig i (by rw [h]; simp)
    rw [h2 pre i post h] at hs
    rw [← hs]
    congr 1
    funext j
    rw [draw_after]
    congr 2
    exact drawsOn_congr _ _ _ _ _ fun i' hi' => (hused i' (by rw [h]; simp [hi'])).symm

/-- **C163 (`level_variance` with automatic `max_iters`).** The pilot run is on thread 0 and takes one more number than its `k` iterations; if it has not converged, `ConvergenceError` is raised and no more numbers are taken; otherwise the call
continues, from the advanced state, as the call with `max_iters = 2k`. -/
theorem C163_level_variance_auto (R : Rng σ) (eh : EigM.EigSolver) (ehC : (n : Nat) → Matrix (Fin n) (Fin n) ℂ → List ℝ) (N : Compiled τ) (w : World σ τ)
    (order : List Nat) (assign : Nat → Nat) (unfolded L : List ℝ) (hu : unfolded ≠ []) (tol : ℝ) (maxIters : Int) (hm : maxIters ≤ 0) (junk : Nat) (Lmax : ℝ) (hmax : Spec.IsMax L Lmax) :
    ∃ v conv k, sigmaL unfolded Lmax 1000000000 tol 1000 (N.draw (w.nb 0)) = .ok (v, conv, k) ∧ 0 < k ∧
      ∀ w' : World σ τ, w' = ⟨w.np, fun t => if t = 0 then N.after (w.nb 0) (k + 1) else w.nb t⟩ →
        (conv = false → step R eh ehC N w (.levelVariance order assign unfolded L tol maxIters junk) = (.observable (.error .convergenceError), w')) ∧
        (conv = true → step R eh ehC N w (.levelVariance order assign unfolded L tol maxIters junk) = step R eh ehC N w' (.levelVariance order assign unfolded L tol ((2 * k : Nat) : Int) junk)) := by
  obtain ⟨mn, hmn⟩ := exists_isMin unfolded hu
  obtain ⟨mx, hmx⟩ := exists_isMax unfolded hu
  have hnp : npMax L = .ok Lmax := npMax_of_isMax _ _ hmax
  obtain ⟨v, conv, k, h1, hk, -⟩ := C20_sigma_budget unfolded mn mx hmn hmx Lmax 1000000000 tol 1000 (N.draw (w.nb 0))
  refine ⟨v, conv, k, h1, by omega, ?_⟩
  have h1' : sigmaL unfolded Lmax AUTO_MAX_ITERS tol (MIN_ITERS * 10) (N.draw (w.nb 0)) = .ok (v, conv, k) := h1
  have hup : ∀ (g : Nat), Function.update w.nb 0 (N.after (w.nb 0) g) = fun t => if t = 0 then N.after (w.nb 0) g else w.nb t := by
    intro g; funext t; by_cases h : t = 0
    · subst h; simp
    · simp [h]
  rintro w' rfl
  constructor
  · rintro rfl
    simp only [step, runLevelVariance, if_pos hm, hnp, h1', sigmaUsed, hup, Bool.false_eq_true, if_false]
    congr 2
    simp only [levelNumberVariance, if_pos hm, hnp, h1', bind, Except.bind, Bool.false_eq_true, if_false]
  · rintro rfl
    have hk2 : ¬ (((2 * k : Nat) : Int) ≤ 0) := by omega
    have hk3 : ¬ (((k * 2 : Nat) : Int) ≤ 0) := by omega
    simp only [step, runLevelVariance, if_pos hm, hnp, h1', sigmaUsed, hup, if_true, Nat.mul_comm 2 k, if_neg hk3, Int.toNat_natCast, levelNumberVariance, bind, Except.bind, pure, Except.pure]

/-- **C163 (`spectral_rigidity` with automatic `max_iters`).** Likewise; the pilot run takes as many numbers as its iterations. -/
theorem C163_rigidity_auto (R : Rng σ) (eh : EigM.EigSolver) (ehC : (n : Nat) → Matrix (Fin n) (Fin n) ℂ → List ℝ) (N : Compiled τ) (w : World σ τ)
    (order : List Nat) (assign : Nat → Nat) (unfolded L : List ℝ) (hu : unfolded ≠ []) (tol : ℝ) (maxIters : Int) (hm : maxIters ≤ 0) (gridsize : Nat) (integration : String)
    (Lmax : ℝ) (hmax : Spec.IsMax L Lmax) (hL : 0 < Lmax) :
    ∃ v conv k, deltaL unfolded Lmax 100 1000000000 1000 tol (decide (integration ≠ "trapz")) (N.draw (w.nb 0)) = .ok (v, conv, k) ∧ 0 < k ∧
      ∀ w' : World σ τ, w' = ⟨w.np, fun t => if t = 0 then N.after (w.nb 0) k else w.nb t⟩ →
        (conv = false → step R eh ehC N w (.rigidity order assign unfolded L tol maxIters gridsize integration) = (.observable (.error .convergenceError), w')) ∧
        (conv = true → step R eh ehC N w (.rigidity order assign unfolded L tol maxIters gridsize integration) =
          step R eh ehC N w' (.rigidity order assign unfolded L tol ((2 * k : Nat) : Int) gridsize integration)) := by
  have hb : (integration != "trapz") = decide (integration ≠ "trapz") := by
    by_cases h : integration = "trapz" <;> simp [h]
  have hnp : npMax L = .ok Lmax := npMax_of_isMax _ _ hmax
  obtain ⟨v, conv, k, h1, hk, -⟩ := C13_delta_budget unfolded hu Lmax hL 100 (by norm_num) 1000000000 1000 tol (decide (integration ≠ "trapz")) (N.draw (w.nb 0))
  refine ⟨v, conv, k, h1, by omega, ?_⟩
  have h1' : deltaL unfolded Lmax RIGIDITY_GRID AUTO_MAX_ITERS (10 * MIN_ITERS) tol (integration != "trapz") (N.draw (w.nb 0)) = .ok (v, conv, k) := by rw [hb]; exact h1
  have hup : ∀ (g : Nat), Function.update w.nb 0 (N.after (w.nb 0) g) = fun t => if t = 0 then N.after (w.nb 0) g else w.nb t := by
    intro g; funext t; by_cases h : t = 0
    · subst h; simp
    · simp [h]
  rintro w' rfl
  constructor
  · rintro rfl
    simp only [step, runRigidity, if_pos hm, hnp, h1', deltaUsed, hup, Bool.false_eq_true, if_false]
    congr 2
    simp only [spectralRigidity, if_pos hm, hnp, h1', bind, Except.bind, Bool.false_eq_true, if_false]
  · rintro rfl
    have hk2 : ¬ (((2 * k : Nat) : Int) ≤ 0) := by omega
    have hk3 : ¬ (((k * 2 : Nat) : Int) ≤ 0) := by omega
    simp only [step, runRigidity, if_pos hm, hnp, h1', deltaUsed, hup, if_true, Nat.mul_comm 2 k, if_neg hk3, Int.toNat_natCast, spectralRigidity, bind, Except.bind, pure, Except.pure]

theorem sigmaLoop_reads {K : Type} [Field K] [LinearOrder K] (n n' : Nat → Nat) (maxI minI : Nat) (tol : K) : ∀ (m k : Nat) (cm cs a sq : K) (b : List K), maxI - k = m →
    k + 1 ≤ (sigmaLoop n maxI minI tol k cm cs a sq b).2.2 ∧
    ((∀ j ≤ (sigmaLoop n maxI minI tol k cm cs a sq b).2.2, n' j = n j) → sigmaLoop n' maxI minI tol k cm cs a sq b = sigmaLoop n maxI minI tol k cm cs a sq b) := by
  intro m
  induction m using Nat.strong_induction_on with
  | _ m ih =>
    intro k cm cs a sq b hm
    constructor
    · rw [sigmaLoop]
      split_ifs with h1 h2
      · exact le_rfl
      · exact le_rfl
      · exact (Nat.le_succ _).trans (ih (maxI - (k + 1)) (by omega) (k + 1) _ _ _ _ _ rfl).1
    · intro h
      have hk : n' (k + 1) = n (k + 1) := by
        apply h
        rw [sigmaLoop]
        split_ifs with h1 h2
        · exact le_rfl
        · exact le_rfl
        · exact (Nat.le_succ _).trans (ih (maxI - (k + 1)) (by omega) (k + 1) _ _ _ _ _ rfl).1
      rw [sigmaLoop] at h
      rw [sigmaLoop, sigmaLoop.eq_def n]
      simp only at h ⊢
      rw [hk]
      split_ifs at h ⊢ with h1 h2
      · rfl
      · rfl
      · exact (ih (maxI - (k + 1)) (by omega) (k + 1) _ _ _ _ _ rfl).2 h

theorem deltaLoop_reads {K : Type} [Field K] [LinearOrder K] (d d' : Nat → Py K) (maxI minI : Nat) (tol : K) (r : Nat × K × List K) : ∀ (m k : Nat) (c a : K) (b : List K), 0 < k → maxI - k = m →
    deltaLoop d maxI minI tol k c a b = .ok r →
    k + 1 ≤ r.1 ∧ ((∀ j < r.1, d' j = d j) → deltaLoop d' maxI minI tol k c a b = .ok r) := by
  intro m
  induction m using Nat.strong_induction_on with
  | _ m ih =>
    intro k c a b hk0 hm h
    have h' := h
    rw [deltaLoop] at h
    split at h
    · cases h
    · rename_i d3 hd
      rw [dif_neg (by omega)] at h
      simp only at h
      have hk : k + 1 ≤ r.1 := by
        split_ifs at h with h1 h2
        · cases h; exact le_rfl
        · cases h; exact le_rfl
        · exact (Nat.le_succ _).trans (ih (maxI - (k + 1)) (by omega) (k + 1) _ _ _ (by omega) rfl h).1
      refine ⟨hk, fun ha => ?_⟩
      rw [deltaLoop, ha k (by omega), hd]
      simp only
      rw [dif_neg (by omega)]
      split_ifs at h ⊢ with h1 h2
      · exact h
      · exact h
      · exact (ih (maxI - (k + 1)) (by omega) (k + 1) _ _ _ (by omega) rfl h).2 ha

/-- **C163 (no other number is used).** What `sigma_L` returns with `k` iterations depends on the first `k + 1` draws only, and what `delta_L` returns with `k` iterations on the first `k` draws only: the draws the states advance by. -/
theorem C163_reads (unfolded : List ℝ) (L tol : ℝ) (maxI minI g : Nat) (simpson : Bool) (U U' : Nat → ℝ) (v : ℝ) (conv : Bool) (k : Nat) :
    (sigmaL unfolded L maxI tol minI U = .ok (v, conv, k) → (∀ j < k + 1, U' j = U j) → sigmaL unfolded L maxI tol minI U' = .ok (v, conv, k)) ∧
    (deltaL unfolded L g maxI minI tol simpson U = .ok (v, conv, k) → (∀ j < k, U' j = U j) → deltaL unfolded L g maxI minI tol simpson U' = .ok (v, conv, k)) := by
  constructor
  · intro h hU
    simp only [sigmaL, bind, Except.bind, pure, Except.pure] at h ⊢
    rcases hmn : npMin unfolded with e | mn
    · rw [hmn] at h; cases h
    rcases hmx : npMax unfolded with e | mx
    · rw [hmn, hmx] at h; cases h
    simp only [hmn, hmx] at h ⊢
    have h0 : nWithin unfolded L (uniform mn mx (U' 0)) = nWithin unfolded L (uniform mn mx (U 0)) := by rw [hU 0 (by omega)]
    rw [h0]
    simp only [Except.ok.injEq, Prod.mk.injEq] at h
    have key := (sigmaLoop_reads (fun j => nWithin unfolded L (uniform mn mx (U j))) (fun j => nWithin unfolded L (uniform mn mx (U' j))) maxI minI tol maxI 0 0 0
      ((nWithin unfolded L (uniform mn mx (U 0)) : Nat) : ℝ) ((nWithin unfolded L (uniform mn mx (U 0)) * nWithin unfolded L (uniform mn mx (U 0)) : Nat) : ℝ) _ (by omega)).2 (fun j hj => by
        rw [h.2.2] at hj
        rw [hU j (by omega)])
    rw [key, h.1, h.2.1, h.2.2]
  · intro h hU
    simp only [deltaL, bind, Except.bind, pure, Except.pure] at h ⊢
    rcases h1 : pyGet unfolded 0 with e | lo
    · rw [h1] at h; cases h
    rcases h2 : pyGet unfolded (-1) with e | hi
    · rw [h1, h2] at h; cases h
    simp only [h1, h2] at h ⊢
    rcases h3 : deltaLoop (fun j => d3Sample unfolded L g simpson (uniform lo hi (U j))) maxI minI tol 0 0 0 (List.replicate BUF 0) with e | r
    · rw [h3] at h; cases h
    simp only [h3, Except.ok.injEq, Prod.mk.injEq] at h
    have key : deltaLoop (fun j => d3Sample unfolded L g simpson (uniform lo hi (U' j))) maxI minI tol 0 0 0 (List.replicate BUF 0) = .ok r := by
      rw [deltaLoop] at h3 ⊢
      have hr : ∀ d3, d3Sample unfolded L g simpson (uniform lo hi (U 0)) = .ok d3 →
          deltaLoop (fun j => d3Sample unfolded L g simpson (uniform lo hi (U j))) maxI minI tol 1 0 d3 ((List.replicate BUF 0).set 0 d3) = .ok r := by
        intro d3 hd
        rw [hd] at h3
        simpa using h3
      rcases hd : d3Sample unfolded L g simpson (uniform lo hi (U 0)) with e | d3
      · rw [hd] at h3; cases h3
      obtain ⟨g1, g2⟩ := deltaLoop_reads _ (fun j => d3Sample unfolded L g simpson (uniform lo hi (U' j))) maxI minI tol r _ 1 0 d3 _ (by omega) rfl (hr d3 hd)
      rw [hU 0 (by omega), hd]
      simp only [dite_true]
      exact g2 fun j hj => by rw [hU j (by omega)]
    rw [key]
    simp only [h.1, h.2.1, h.2.2]

/-- **C163 (generation advances NumPy's state).** Code that draws from NumPy's generator after `Eigenvalues.generate` continues right after the draws of the matrix: after `n²` normal draws for the full GOE matrix, `2n²` for GUE, `n - 1`
chi-square and `n` normal draws for the tridiagonal matrix, counted from the state given by the seed, or without a seed from the state before the call; after `n` normal draws for Poisson levels, where without a seed the state comes from the
operating system. An unsuccessful call changes nothing. -/
theorem C163_generate (R : Rng σ) (eh : EigM.EigSolver) (ehC : (n : Nat) → Matrix (Fin n) (Fin n) ℂ → List ℝ) (N : Compiled τ) (w : World σ τ)
    (n : Nat) (seed : Option Nat) (tri : Bool) (e : σ) (f : σ → List ℝ × σ) (k : KindArg) :
    let s := match seed with | none => w.np | some k => R.seed k
    let next := fun s' => ∃ o, results R eh ehC N w [.generate n k seed tri e, .numpy f] = [o, .numpy (f s').1]
    (k = .kind .goe → (n ≤ 500 ∨ tri = false) → next (stateAfter R s (n * n))) ∧
    (k = .kind .goe → 500 < n → tri = true → next (stateAfter R (chiState R n s (n - 1)) n)) ∧
    (k = .kind .gue → next (stateAfter R s (n * n + n * n))) ∧
    (k = .kind .poisson → next (stateAfter R (match seed with | none => e | some k => R.seed k) n)) ∧
    (k = .kind .uniform → next w.np) ∧ (∀ x ex, k = .str x → KindArg.validate (.str x) = .error ex → next w.np) := by
  intro s next
  have hs : s = seedIfGiven R seed w.np := by cases seed <;> rfl
  have key : ∀ s', (step R eh ehC N w (.generate n k seed tri e)).2.np = s' → next s' := by
    rintro s' rfl
    exact ⟨_, rfl⟩
  refine ⟨?_, ?_, ?_, ?_, ?_, ?_⟩
  · rintro rfl h
    have : ¬ (n > 500 ∧ tri = true) := by rcases h with h | h <;> simp [h]
    apply key
    simp only [step, generate, KindArg.validate, goeMatrix, if_neg this, generateGOEMatrix, normals_draws, ← hs]
  · rintro rfl h h'
    apply key
    simp only [step, generate, KindArg.validate, goeMatrix, if_pos (show n > 500 ∧ tri = true from ⟨h, h'⟩), generateGOETridiagonal, normals_draws, ← hs, chisquares_draws]
  · rintro rfl
    apply key
    simp only [step, generate, KindArg.validate, generateGUE, normals_draws, ← hs, stateAfter_add]
  · rintro rfl
    apply key
    simp only [step, generate, KindArg.validate, normals_draws]
    cases seed <;> rfl
  · rintro rfl
    exact key _ rfl
  · rintro x ex rfl h
    apply key
    simp only [step, generate, h]

-- C163: five levels, two lengths on one thread; the second iteration starts after the draws of the first
example (R : Rng σ) (eh : EigM.EigSolver) (ehC : (n : Nat) → Matrix (Fin n) (Fin n) ℂ → List ℝ) (N : Compiled τ) (w : World σ τ) :
    ∃ vals conv iters w', step R eh ehC N w (.levelVariance [1, 0] (fun _ => 0) [0, 1, 2, 3, 5] [1, 2] 0 7 0) = (.observable (.ok ([1, 2], vals, conv, iters)), w') ∧
      sigmaL [0, 1, 2, 3, 5] (1 : ℝ) 7 0 100 (fun j => N.draw (w.nb 0) (iters.getD 1 0 + 1 + j)) = .ok (vals.getD 0 0, conv.getD 0 false, iters.getD 0 0) := by
  obtain ⟨vals, conv, iters, w', h1, -, -, -, -, -, h2⟩ := C163_level_variance R eh ehC N w [1, 0] (fun _ => 0) [0, 1, 2, 3, 5] [1, 2] (by simp) 0 7 (by norm_num) 0
    (by simp only [List.length_cons, List.length_nil, List.range_succ, List.range_zero]; exact List.Perm.swap 0 1 [])
  refine ⟨vals, conv, iters, w', h1, ?_⟩
  have := h2 [1] 0 [] rfl
  simpa [drawsOn] using this

end Props
end RMT
