import Verif.Model.Bounds
import Verif.Lemmas.Py
import Verif.Lemmas.Numeric
import Verif.Lemmas.StepMachine
import Verif.Lemmas.Rigidity
import Mathlib.Data.List.GetD

/-!
# Property C139: the compiled loops stay inside their arrays
-/

namespace RMT
namespace Props
set_option linter.unusedSectionVars false
set_option linter.unusedSimpArgs false
open Bounds Step StepMachine Rigidity LevelVar Utils Detrending

theorem pyIdx_nat (n i : Nat) (h : i < n) : pyIdx n (i : Int) = some i := by
  simp [pyIdx, h]

theorem pyGet_nat {β : Type} (l : List β) (i : Nat) (d : β) (h : i < l.length) : pyGet l (i : Int) = .ok (l.getD i d) := by
  simp [pyGet, pyIdx_nat _ _ h, List.getElem?_eq_getElem h]

theorem pySet_nat {β : Type} (l : List β) (i : Nat) (v : β) (h : i < l.length) : pySet l (i : Int) v = .ok (l.set i v) := by
  simp [pySet, pyIdx_nat _ _ h]

theorem pyGet_in {K : Type} [Zero K] (l : List K) (i : Int) (h1 : -(l.length : Int) ≤ i) (h2 : i < l.length) : pyGet l i = .ok (nth l i) := by
  unfold pyGet nth pyIdx
  by_cases h : 0 ≤ i
  · have hk : i.toNat < l.length := by omega
    simp [h, h2, List.getElem?_eq_getElem hk]
  · have hk : ((l.length : Int) + i).toNat < l.length := by omega
    have h3 : 0 ≤ (l.length : Int) + i := by omega
    simp [h, h3, List.getElem?_eq_getElem hk]

theorem pyGet_out {β : Type} (l : List β) (i : Int) (h : i < -(l.length : Int) ∨ (l.length : Int) ≤ i) : pyGet l i = .error .indexError := by
  unfold pyGet pyIdx
  by_cases h0 : 0 ≤ i
  · have : ¬ i < (l.length : Int) := by omega
    simp [h0, this]
  · have : ¬ 0 ≤ (l.length : Int) + i := by omega
    simp [h0, this]

section Machine
variable {α : Type} [LinearOrder α]

/-- What every state of a run satisfies. -/
def InRange (eigs x : List (Option α)) (s : St) : Prop :=
  s.ret.length = x.length ∧ (s.pc = .look → s.i < eigs.length)

theorem stepC_ok (eigs x : List (Option α)) (he : eigs ≠ []) (s : St) (h : InRange eigs x s) :
    stepC eigs x s = .ok (StepMachine.step eigs x s) ∧ InRange eigs x (StepMachine.step eigs x s) := by
  obtain ⟨h1, h2⟩ := h
  have he' : 0 < eigs.length := List.length_pos_iff.mpr he
  have g0 : pyGet eigs 0 = .ok (eigs.getD 0 none) := pyGet_nat eigs 0 none he'
  rcases s with ⟨pc, i, j, count, ret⟩
  simp only at h1 h2
  cases pc
  · by_cases hj : j < x.length
    · have gx := pyGet_nat x j none hj
      by_cases hc : flt (x.getD j none) (eigs.getD 0 none) = true
      · simp only [stepC, StepMachine.step, if_pos hj, gx, g0, bind, Except.bind, hc, hj, and_self, if_true]
        exact ⟨trivial, h1, fun h => by cases h⟩
      · simp only [stepC, StepMachine.step, if_pos hj, gx, g0, bind, Except.bind, hc, Bool.false_eq_true, and_false, if_false]
        exact ⟨trivial, h1, fun h => by cases h⟩
    · simp only [stepC, StepMachine.step, hj, false_and, if_false]
      exact ⟨trivial, h1, fun h => by cases h⟩
  · by_cases hj : j < x.length ∧ i < eigs.length
    · have gx := pyGet_nat x j none hj.1
      have ge := pyGet_nat eigs i none hj.2
      by_cases hc : fle (eigs.getD i none) (x.getD j none) = true
      · simp only [stepC, StepMachine.step, if_pos hj, gx, ge, bind, Except.bind, hc, if_true]
        exact ⟨trivial, h1, fun h => by cases h⟩
      · simp only [stepC, StepMachine.step, if_pos hj, gx, ge, bind, Except.bind, hc, Bool.false_eq_true, if_false]
        exact ⟨trivial, h1, fun _ => hj.2⟩
    · simp only [stepC, StepMachine.step, hj, if_false]
      exact ⟨trivial, h1, fun h => by cases h⟩
  · by_cases hj : j < x.length
    · have gx := pyGet_nat x j none hj
      have ge := pyGet_nat eigs i none (h2 rfl)
      by_cases hc : flt (x.getD j none) (eigs.getD i none) = true
      · have gs := pySet_nat ret j count (by omega)
        simp only [stepC, StepMachine.step, if_pos hj, gx, ge, gs, bind, Except.bind, hc, hj, and_self, if_true]
        exact ⟨trivial, by simpa using h1, fun _ => h2 rfl⟩
      · simp only [stepC, StepMachine.step, if_pos hj, gx, ge, bind, Except.bind, hc, Bool.false_eq_true, and_false, if_false]
        exact ⟨trivial, h1, fun h => by cases h⟩
    · simp only [stepC, StepMachine.step, hj, false_and, if_false]
      exact ⟨trivial, h1, fun h => by cases h⟩
  · by_cases hj : j < x.length
    · have gs := pySet_nat ret j count (by omega)
      simp only [stepC, StepMachine.step, if_pos hj, gs, bind, Except.bind]
      exact ⟨trivial, by simpa using h1, fun h => by cases h⟩
    · simp only [stepC, StepMachine.step, hj, if_false]
      exact ⟨trivial, h1, fun h => by cases h⟩
  · exact ⟨rfl, h1, fun h => by cases h⟩

theorem fillC_ok (n : Nat) : ∀ todo i (ret : List Nat), i + todo = ret.length → fillC n todo i ret = .ok (ret.take i ++ List.replicate todo n) := by
  intro todo
  induction todo with
  | zero => intro i ret h; simp [fillC, ← h]
  | succ t ih =>
    intro i ret h
    rw [fillC, pySet_nat ret i n (by omega)]
    simp only [bind, Except.bind]
    rw [ih (i + 1) (ret.set i n) (by simp; omega)]
    congr 1
    rw [List.take_add_one, List.take_set_of_le (by omega)]
    simp [List.getElem?_set, show i < ret.length by omega, List.replicate_succ]

/-- **C139 (step function).** For non-empty arrays, sorted or not, with or without NaN: the version of `_step_function_fast` which raises at the first access outside an array never raises, in any number of steps, and does
what the unchecked one does. For an empty array it raises at once. -/
theorem C139_step (eigs x : List (Option α)) :
    (eigs ≠ [] → x ≠ [] → ∃ s, startC eigs x = .ok s ∧ start eigs x = .ok s ∧ ∀ n, runC eigs x n s = .ok (runFrom eigs x n s)) ∧
    (eigs = [] ∨ x = [] → startC eigs x = .error .indexError) := by
  constructor
  · intro he hx
    have he' : 0 < eigs.length := List.length_pos_iff.mpr he
    have hx' : 0 < x.length := List.length_pos_iff.mpr hx
    have hrun : ∀ n s, InRange eigs x s → runC eigs x n s = .ok (runFrom eigs x n s) := by
      intro n
      induction n with
      | zero => intro s _; rfl
      | succ n ih =>
        intro s hs
        obtain ⟨h1, h2⟩ := stepC_ok eigs x he s hs
        simp only [runC, runFrom, h1, bind, Except.bind]
        exact ih _ h2
    have hfill : fillC eigs.length x.length 0 (List.replicate x.length 0) = .ok (List.replicate x.length eigs.length) := by
      rw [fillC_ok _ _ _ _ (by simp)]; simp
    simp only [startC, start, pyGet_zero _ he', pyGet_zero _ hx', pyGet_neg_one _ he', pyGet_neg_one _ hx', bind, Except.bind, pure, Except.pure, List.length_replicate, hfill]
    split_ifs
    · exact ⟨_, rfl, rfl, fun n => hrun n _ ⟨by simp [returned], fun h => by cases h⟩⟩
    · exact ⟨_, rfl, rfl, fun n => hrun n _ ⟨by simp [returned], fun h => by cases h⟩⟩
    · exact ⟨_, rfl, rfl, fun n => hrun n _ ⟨by simp, fun h => by cases h⟩⟩
  · intro h
    by_cases hx : x = []
    · subst hx; rfl
    · have he : eigs = [] := h.resolve_right hx
      subst he
      have hx' : 0 < x.length := List.length_pos_iff.mpr hx
      simp only [startC, pyGet_neg_one _ hx', bind, Except.bind]
      rfl

end Machine

section Numeric
variable {K : Type} [Field K] [LinearOrder K]

theorem trapzC_ok (grid values : List K) (hv : grid.length ≤ values.length) : ∀ todo i s, i + todo = grid.length - 1 →
    trapzC grid values todo i s = .ok (trapzFrom grid values i s) := by
  intro todo
  induction todo with
  | zero =>
    intro i s h
    rw [trapzFrom, if_neg (by omega)]; rfl
  | succ t ih =>
    intro i s h
    rw [trapzFrom, if_pos (by omega), trapzC, pyGet_in grid _ (by omega) (by omega), pyGet_in grid _ (by omega) (by omega),
      pyGet_in values _ (by omega) (by omega), pyGet_in values _ (by omega) (by omega)]
    simp only [bind, Except.bind]
    rw [ih (i + 1) _ (by omega)]

theorem sqLinC_ok (steps grid : List K) (k w : K) (hs : steps.length = grid.length) : ∀ todo i (ret : List K), i + todo = grid.length → ret.length = grid.length →
    sqLinC steps grid k w todo i ret = .ok (ret.take i ++ (sqLinDeviation steps k w grid).drop i) := by
  intro todo
  have hl : (sqLinDeviation steps k w grid).length = grid.length := by simp [sqLinDeviation, hs]
  induction todo with
  | zero =>
    intro i ret h hr
    rw [sqLinC, List.drop_eq_nil_of_le (by omega), List.take_of_length_le (by omega), List.append_nil]
  | succ t ih =>
    intro i ret h hr
    have hi : i < grid.length := by omega
    rw [sqLinC, pyGet_nat steps i 0 (by omega), pyGet_nat grid i 0 hi]
    simp only [bind, Except.bind]
    rw [pySet_nat _ _ _ (by omega)]
    simp only
    rw [ih (i + 1) _ (by omega) (by simp [hr])]
    congr 1
    rw [List.take_add_one, List.take_set_of_le (by omega), List.append_assoc]
    congr 1
    rw [List.getElem?_set]
    simp only [if_true, show i < ret.length by omega, Option.toList_some, List.singleton_append]
    rw [List.drop_eq_getElem_cons (i := i) (by omega)]
    congr 1
    rw [List.getD_eq_getElem _ _ (by omega), List.getD_eq_getElem _ _ hi]
    simp [sqLinDeviation]

theorem simpsC_ok (h vals : List K) (N : Nat) (hh : N = h.length) (hv : N + 1 ≤ vals.length) : ∀ i r, 1 ≤ i →
    simpsC h vals N i r = .ok (simpsFrom h vals N i r) := by
  intro i r
  fun_induction simpsFrom h vals N i r with
  | case1 i r hi h1 h0 hph r1 r2 r3 ih =>
    intro hi1
    rw [simpsC, if_pos hi, pyGet_in h _ (by omega) (by omega), pyGet_in h _ (by omega) (by omega), pyGet_in vals _ (by omega) (by omega),
      pyGet_in vals _ (by omega) (by omega), pyGet_in vals _ (by omega) (by omega)]
    exact ih (by omega)
  | case2 i r hi =>
    intro _
    rw [simpsC, if_neg hi]

theorem diff_len (l : List K) : (diff l).length = l.length - 1 := by
  fun_induction diff l with
  | case1 a b l ih => simp_all
  | case2 l h =>
    match l with
    | [] => rfl
    | [_] => rfl
    | a :: b :: l => exact absurd rfl (h a b l)

/-- **C139 (integration).** For a grid with at least one point and as many values, the trapezoidal and Simpson loops and the loop computing the squared deviations access only entries of
their arrays (negative indices counting from the end), and compute the unchecked result. For an empty grid Simpson's rule reads outside. -/
theorem C139_integration (grid vals steps : List K) (k w : K) (junk : Nat → K) :
    (grid.length ≤ vals.length → integrateC grid vals = .ok (integrateFast grid vals)) ∧
    (grid ≠ [] → vals.length = grid.length → intSimpsC grid vals = .ok (intSimpsNonunif grid vals)) ∧
    (steps.length = grid.length → sqLinC steps grid k w grid.length 0 ((List.range grid.length).map junk) = .ok (sqLinDeviation steps k w grid)) ∧
    intSimpsC ([] : List K) [] = .error .indexError := by
  refine ⟨fun h => trapzC_ok grid vals h _ _ _ (by omega), fun h0 h => ?_, fun h => ?_, ?_⟩
  · have hg : 0 < grid.length := List.length_pos_iff.mpr h0
    have hd := diff_len grid
    have hN : ((grid.length : Int) - 1).toNat = grid.length - 1 := by omega
    simp only [intSimpsC, hN]
    rw [simpsC_ok (diff grid) vals (grid.length - 1) hd.symm (by omega) 1 0 le_rfl]
    simp only [bind, Except.bind, intSimpsNonunif]
    have hmod : ((grid.length : Int) - 1 + 1) % 2 = 0 ↔ (grid.length - 1 + 1) % 2 = 0 := by omega
    by_cases hc : (grid.length - 1 + 1) % 2 = 0
    · rw [if_pos (hmod.mpr hc), if_pos hc, pyGet_in vals _ (by omega) (by omega), pyGet_in (diff grid) _ (by omega) (by omega),
        pyGet_in (diff grid) _ (by omega) (by omega), pyGet_in vals _ (by omega) (by omega), pyGet_in vals _ (by omega) (by omega)]
      simp only
      have e : ((grid.length - 1 : Nat) : Int) = (grid.length : Int) - 1 := by omega
      rw [e]
    · rw [if_neg (fun h => hc (hmod.mp h)), if_neg hc]
  · rw [sqLinC_ok steps grid k w h _ _ _ (by simp) (by simp)]
    simp
  · simp [intSimpsC, simpsC, bind, Except.bind, pyGet, pyIdx]

/-- **C139 (one sample).** With all subscripts checked, a sample of the rigidity is computed exactly as without checks, for every spectrum and grid: it raises only for an empty spectrum or an
empty grid. -/
theorem C139_sample (junk : Nat → K) (unfolded : List K) (L : K) (gridsize : Nat) (simpson : Bool) (start : K) :
    d3SampleC junk unfolded L gridsize simpson start = d3Sample unfolded L gridsize simpson start ∧
    ((∃ v, d3SampleC junk unfolded L gridsize simpson start = .ok v) ↔ unfolded ≠ [] ∧ 1 ≤ gridsize) := by
  have hgl : (linspace (start - L / 2) (start + L / 2) gridsize).length = gridsize := by simp [linspace]
  have hempty : ∀ u x : List K, u = [] ∨ x = [] → stepFunctionFast u x = .error .indexError := by
    intro u x h
    by_cases hx : x = []
    · subst hx; rfl
    · have he : u = [] := h.resolve_right hx
      subst he
      have hx' : 0 < x.length := List.length_pos_iff.mpr hx
      simp only [stepFunctionFast, pyGet_neg_one _ hx', bind, Except.bind]
      rfl
  by_cases h : unfolded ≠ [] ∧ 1 ≤ gridsize
  · obtain ⟨hu, hg⟩ := h
    have hx : linspace (start - L / 2) (start + L / 2) gridsize ≠ [] := by
      intro h; rw [h] at hgl; simp at hgl; omega
    have hstep : ∃ r, stepFunctionFast unfolded (linspace (start - L / 2) (start + L / 2) gridsize) = .ok r ∧ r.length = gridsize := by
      have hu' : 0 < unfolded.length := List.length_pos_iff.mpr hu
      have hx' := List.length_pos_iff.mpr hx
      have hfl : ∀ n i (ret : List Nat), (fillLoop n i ret).length = ret.length := by
        intro n i ret
        fun_induction fillLoop n i ret <;> simp_all
      have htl : ∀ n c j (ret : List Nat), (tailLoop n c j ret).length = ret.length := by
        intro n c j ret
        fun_induction tailLoop n c j ret <;> simp_all
      simp only [stepFunctionFast, pyGet_zero _ hu', pyGet_zero _ hx', pyGet_neg_one _ hu', pyGet_neg_one _ hx', bind, Except.bind, pure, Except.pure]
      split_ifs
      · exact ⟨_, rfl, by simp [hgl]⟩
      · exact ⟨_, rfl, by rw [hfl]; simp [hgl]⟩
      · exact ⟨_, rfl, by rw [htl, mainLoop_len]; simp [hgl]⟩
    obtain ⟨r, hr, hrl⟩ := hstep
    have hgrid : ∀ steps : List K, steps.length = gridsize → ∀ k w,
        sqLinC steps (linspace (start - L / 2) (start + L / 2) gridsize) k w (linspace (start - L / 2) (start + L / 2) gridsize).length 0
          ((List.range (linspace (start - L / 2) (start + L / 2) gridsize).length).map junk) =
        .ok (sqLinDeviation steps k w (linspace (start - L / 2) (start + L / 2) gridsize)) := by
      intro steps hs k w
      exact (C139_integration _ [] steps k w junk).2.2.1 (by rw [hs, hgl])
    have hd : d3Sample unfolded L gridsize simpson start = d3Sample unfolded L gridsize simpson start := rfl
    have heq : d3SampleC junk unfolded L gridsize simpson start = d3Sample unfolded L gridsize simpson start := by
      simp only [d3SampleC, d3Sample, hr, bind, Except.bind, pure, Except.pure]
      rw [hgrid _ (by simp [hrl])]
      simp only
      have hlen : ∀ k w, (sqLinDeviation (r.map fun n : Nat => (n : K)) k w (linspace (start - L / 2) (start + L / 2) gridsize)).length =
          (linspace (start - L / 2) (start + L / 2) gridsize).length := by
        intro k w; simp [sqLinDeviation, hrl, hgl]
      cases simpson with
      | true =>
        simp only [if_true]
        rw [(C139_integration _ _ [] 0 0 junk).2.1 hx (hlen _ _)]
      | false =>
        simp only [Bool.false_eq_true, if_false]
        rw [(C139_integration _ _ [] 0 0 junk).1 (by rw [hlen])]
    refine ⟨heq, ⟨fun _ => ⟨hu, hg⟩, fun _ => ?_⟩⟩
    rw [heq]
    simp only [d3Sample, hr, bind, Except.bind, pure, Except.pure]
    exact ⟨_, rfl⟩
  · have hor : unfolded = [] ∨ linspace (start - L / 2) (start + L / 2) gridsize = [] := by
      by_cases hu : unfolded = []
      · exact Or.inl hu
      · right
        have : gridsize = 0 := by
          by_contra hc
          exact h ⟨hu, by omega⟩
        simp [linspace, this]
    have e := hempty _ _ hor
    simp only [d3SampleC, d3Sample, e, bind, Except.bind]
    refine ⟨trivial, ?_⟩
    constructor
    · rintro ⟨v, hv⟩; cases hv
    · intro hc; exact absurd hc h

/-- **C139 (buffers).** The circular buffers of 1000 entries of `delta_L` and `sigma_L` are never written outside, in any number of iterations: with the writes checked, the loops give the results they give without checks. -/
theorem C139_buffers (d : Nat → Py K) (n : Nat → Nat) (maxIters minIters : Nat) (tol : K) :
    (∀ k c m (b : List K), b.length = 1000 → deltaLoopC d maxIters minIters tol k c m b = deltaLoop d maxIters minIters tol k c m b) ∧
    (∀ k cm cs m sq (b : List K), b.length = 1000 → sigmaLoopC n maxIters minIters tol k cm cs m sq b = .ok (sigmaLoop n maxIters minIters tol k cm cs m sq b)) := by
  constructor
  · intro k c m b
    fun_induction deltaLoop d maxIters minIters tol k c m b with
    | case1 k c m b e he => intro _; rw [deltaLoopC, he]
    | case2 c m b d3 hd ih =>
      intro hb
      rw [deltaLoopC, hd]
      simp only [dif_pos]
      rw [show (0 : Int) = ((0 : Nat) : Int) from rfl, pySet_nat b 0 d3 (by omega)]
      exact ih (by simpa using hb)
    | case3 k c m b d3 hd h0 k' u mc b' hmax =>
      intro hb
      rw [deltaLoopC, hd]
      simp only [dif_neg h0]
      rw [pySet_nat b _ _ (by rw [hb]; exact Nat.mod_lt _ (by simp [BUF]))]
      simp only
      exact dif_pos hmax
    | case4 k c m b d3 hd h0 k' u mc b' hmax hc =>
      intro hb
      rw [deltaLoopC, hd]
      simp only [dif_neg h0]
      rw [pySet_nat b _ _ (by rw [hb]; exact Nat.mod_lt _ (by simp [BUF]))]
      simp only
      rw [dif_neg hmax, if_pos hc]
    | case5 k c m b d3 hd h0 k' u mc b' hmax hc ih =>
      intro hb
      rw [deltaLoopC, hd]
      simp only [dif_neg h0]
      rw [pySet_nat b _ _ (by rw [hb]; exact Nat.mod_lt _ (by simp [BUF]))]
      simp only
      rw [dif_neg hmax, if_neg hc]
      exact ih (by simpa [b'] using hb)
  · intro k cm cs m sq b
    fun_induction sigmaLoop n maxIters minIters tol k cm cs m sq b with
    | case1 k cm cs m sq b k' nw nsq mU sU mk sk sg b' hc =>
      intro hb
      rw [sigmaLoopC]
      rw [pySet_nat b _ _ (by rw [hb]; exact Nat.mod_lt _ (by norm_num))]
      simp only
      exact if_pos hc
    | case2 k cm cs m sq b k' nw nsq mU sU mk sk sg b' hc hmax =>
      intro hb
      rw [sigmaLoopC]
      rw [pySet_nat b _ _ (by rw [hb]; exact Nat.mod_lt _ (by norm_num))]
      simp only
      rw [if_neg hc, dif_pos hmax]
    | case3 k cm cs m sq b k' nw nsq mU sU mk sk sg b' hc hmax ih =>
      intro hb
      rw [sigmaLoopC]
      rw [pySet_nat b _ _ (by rw [hb]; exact Nat.mod_lt _ (by norm_num))]
      simp only
      rw [if_neg hc, dif_neg hmax]
      exact ih (by simpa [b'] using hb)

/-- **C139 (derivative).** For at least two points `derivative` stays inside its arrays and gives the result of the unchecked model; for fewer it reads outside. -/
theorem C139_derivative (junk : Nat → K) (pts : List (K × K)) :
    derivativeC junk (pts.map Prod.fst) (pts.map Prod.snd) = Exponentials.derivative junk pts ∧
    ((∃ r, derivativeC junk (pts.map Prod.fst) (pts.map Prod.snd) = .ok r) ↔ 2 ≤ pts.length) := by
  have short : pts.length < 2 → derivativeC junk (pts.map Prod.fst) (pts.map Prod.snd) = .error .indexError := by
    intro h
    have : pyGet (pts.map Prod.snd) 1 = .error .indexError := pyGet_out _ _ (Or.inr (by simp; omega))
    simp only [derivativeC, this, bind, Except.bind]
  have long : 2 ≤ pts.length → derivativeC junk (pts.map Prod.fst) (pts.map Prod.snd) = Exponentials.derivative junk pts := by
    intro h
    obtain ⟨L, hL⟩ : ∃ L, pts.length = L := ⟨_, rfl⟩
    have gx : ∀ i : Int, ∀ k : Nat, (i = k ∨ i = (k : Int) - L) → k < L → pyGet (pts.map Prod.fst) i = .ok (pts.getD k (0, 0)).1 := by
      intro i k hi hk
      rw [pyGet_map]
      have : pyGet pts i = .ok (pts.getD k (0, 0)) := by
        rcases hi with rfl | rfl
        · exact pyGet_nat pts k _ (by omega)
        · unfold pyGet pyIdx
          have h1 : ¬ (0 : Int) ≤ (k : Int) - L := by omega
          have h2 : (0 : Int) ≤ (pts.length : Int) + ((k : Int) - L) := by omega
          have h3 : ((pts.length : Int) + ((k : Int) - L)).toNat = k := by omega
          simp only [h1, if_false, h2, if_true, h3, List.getElem?_eq_getElem (show k < pts.length by omega), List.getD_eq_getElem _ _ (show k < pts.length by omega)]
      rw [this]; rfl
    have gy : ∀ i : Int, ∀ k : Nat, (i = k ∨ i = (k : Int) - L) → k < L → pyGet (pts.map Prod.snd) i = .ok (pts.getD k (0, 0)).2 := by
      intro i k hi hk
      rw [pyGet_map]
      have : pyGet pts i = .ok (pts.getD k (0, 0)) := by
        rcases hi with rfl | rfl
        · exact pyGet_nat pts k _ (by omega)
        · unfold pyGet pyIdx
          have h1 : ¬ (0 : Int) ≤ (k : Int) - L := by omega
          have h2 : (0 : Int) ≤ (pts.length : Int) + ((k : Int) - L) := by omega
          have h3 : ((pts.length : Int) + ((k : Int) - L)).toNat = k := by omega
          simp only [h1, if_false, h2, if_true, h3, List.getElem?_eq_getElem (show k < pts.length by omega), List.getD_eq_getElem _ _ (show k < pts.length by omega)]
      rw [this]; rfl
    have hmid : (if (pts.map Prod.fst).length < 3 then (List.range (pts.map Prod.fst).length).map junk else
        Exponentials.setSlice ((List.range (pts.map Prod.fst).length).map junk) 1
          (List.zipWith (· / ·) (List.zipWith (· - ·) ((pts.map Prod.snd).drop 2) ((pts.map Prod.snd).take ((pts.map Prod.fst).length - 2)))
            (List.zipWith (· - ·) ((pts.map Prod.fst).drop 2) ((pts.map Prod.fst).take ((pts.map Prod.fst).length - 2))))) =
        Exponentials.setSlice ((List.range L).map junk) 1
          ((List.range (L - 2)).map fun (i : Nat) => ((pts.getD (i + 2) (0, 0)).2 - (pts.getD i (0, 0)).2) / ((pts.getD (i + 2) (0, 0)).1 - (pts.getD i (0, 0)).1)) := by
      have hz : List.zipWith (· / ·) (List.zipWith (· - ·) ((pts.map Prod.snd).drop 2) ((pts.map Prod.snd).take ((pts.map Prod.fst).length - 2)))
            (List.zipWith (· - ·) ((pts.map Prod.fst).drop 2) ((pts.map Prod.fst).take ((pts.map Prod.fst).length - 2))) =
          (List.range (L - 2)).map fun (i : Nat) => ((pts.getD (i + 2) (0, 0)).2 - (pts.getD i (0, 0)).2) / ((pts.getD (i + 2) (0, 0)).1 - (pts.getD i (0, 0)).1) := by
        apply List.ext_getElem
        · simp [hL]
        · intro i h1 h2
          simp only [List.length_map, List.length_range] at h2
          have e1 : pts.getD (i + 2) (0, 0) = pts[i + 2]'(by omega) := List.getD_eq_getElem _ _ (by omega)
          have e2 : pts.getD i (0, 0) = pts[i]'(by omega) := List.getD_eq_getElem _ _ (by omega)
          simp only [List.getElem_zipWith, List.getElem_drop, List.getElem_take, List.getElem_map, List.getElem_range, e1, e2, Nat.add_comm 2 i]
      rw [hz, List.length_map, hL]
      split_ifs with h3
      · have : L = 2 := by omega
        subst this
        simp [Exponentials.setSlice]
        rfl
      · rfl
    have hlen : (Exponentials.setSlice ((List.range L).map junk) 1
          ((List.range (L - 2)).map fun (i : Nat) => ((pts.getD (i + 2) (0, 0)).2 - (pts.getD i (0, 0)).2) / ((pts.getD (i + 2) (0, 0)).1 - (pts.getD i (0, 0)).1))).length = L := by
      simp only [Exponentials.setSlice, List.length_append, List.length_take, List.length_map, List.length_range, List.length_drop]
      omega
    simp only [derivativeC, hmid, Exponentials.derivative, hL, if_neg (show ¬ L < 2 by omega)]
    rw [gy 1 1 (Or.inl rfl) (by omega), gy 0 0 (Or.inl rfl) (by omega), gx 1 1 (Or.inl rfl) (by omega), gx 0 0 (Or.inl rfl) (by omega)]
    simp only [bind, Except.bind]
    rw [show (0 : Int) = ((0 : Nat) : Int) from rfl, pySet_nat _ _ _ (by rw [hlen]; omega)]
    simp only
    rw [gy (-1) (L - 1) (Or.inr (by omega)) (by omega), gy (-2) (L - 2) (Or.inr (by omega)) (by omega), gx (-1) (L - 1) (Or.inr (by omega)) (by omega), gx (-2) (L - 2) (Or.inr (by omega)) (by omega)]
    simp only [pySet, List.length_set, hlen]
    have : pyIdx L (-1) = some (L - 1) := by
      unfold pyIdx
      have h2 : (0 : Int) ≤ (L : Int) + -1 := by omega
      have h3 : ((L : Int) + -1).toNat = L - 1 := by omega
      simp only [h2, if_true, h3]
      rfl
    simp only [this]
  by_cases h : 2 ≤ pts.length
  · refine ⟨long h, fun _ => h, fun _ => ?_⟩
    rw [long h]
    simp only [Exponentials.derivative, if_neg (show ¬ pts.length < 2 by omega)]
    exact ⟨_, rfl⟩
  · refine ⟨?_, ?_⟩
    · rw [short (by omega)]
      simp [Exponentials.derivative, show pts.length < 2 by omega]
    · rw [short (by omega)]
      constructor
      · rintro ⟨v, hv⟩; cases hv
      · intro hc; exact absurd hc h

end Numeric

section Rows
variable {K : Type} [Field K] [LinearOrder K]

/-- **C139 (detrending of rows).** `mean_detrend` and `linear_detrend`, in any order of their parallel iterations, stay inside `signals` and `ret` if `ret` has at least as many rows, and then give the unchecked result. -/
theorem C139_rows (order : List Nat) (signals ret : List (List K)) (ho : ∀ i ∈ order, i < signals.length) (hr : signals.length ≤ ret.length) :
    meanDetrendC order signals ret = meanDetrend order signals ret ∧ linearDetrendC order signals ret = linearDetrend order signals ret := by
  have gen : ∀ (f : List K → List K) (g : List Nat → List (List K) → Py (List (List K)))
      (_ : ∀ ret, g [] ret = .ok ret) (_ : ∀ i is ret, g (i :: is) ret = (pyGet signals i).bind fun y => (pySet ret i (f y)).bind fun r => g is r),
      ∀ order ret, (∀ i ∈ order, i < signals.length) → signals.length ≤ ret.length →
        g order ret = prangeWrite order (fun i => .ok (f (signals.getD i []))) ret := by
    intro f g g0 g1 order
    induction order with
    | nil => intro ret _ _; rw [g0]; rfl
    | cons i is ih =>
      intro ret ho hr
      have hi := ho i List.mem_cons_self
      rw [g1, pyGet_nat signals i [] hi]
      simp only [Except.bind]
      rw [pySet_nat _ _ _ (by omega)]
      simp only [prangeWrite]
      exact ih _ (fun j hj => ho j (List.mem_cons_of_mem _ hj)) (by simpa using hr)
  exact ⟨gen (fun y => y.map fun v => v - mean y) (fun o r => meanDetrendC o signals r) (fun _ => rfl) (fun _ _ _ => rfl) order ret ho hr,
    gen (linearDetrendRow signals.length) (fun o r => linearDetrendC o signals r) (fun _ => rfl) (fun _ _ _ => rfl) order ret ho hr⟩

/-- **C139 refuted for a too small output.** With fewer rows in `ret` than in `signals`, `mean_detrend` and `linear_detrend` write outside `ret` in every order of the iterations. -/
theorem C139_rows_refuted (order : List Nat) (signals ret : List (List K)) (ho : order.Perm (List.range signals.length)) (hr : ret.length < signals.length) :
    meanDetrendC order signals ret = .error .indexError ∧ linearDetrendC order signals ret = .error .indexError := by
  have gen : ∀ (f : List K → List K) (g : List Nat → List (List K) → Py (List (List K)))
      (_ : ∀ i is ret, g (i :: is) ret = (pyGet signals i).bind fun y => (pySet ret i (f y)).bind fun r => g is r),
      ∀ order ret, (∀ i ∈ order, i < signals.length) → (∃ i ∈ order, ret.length ≤ i) → g order ret = .error .indexError := by
    intro f g g1 order
    induction order with
    | nil => rintro ret _ ⟨i, hi, -⟩; cases hi
    | cons i is ih =>
      rintro ret ho ⟨j, hj, hjl⟩
      have hi := ho i List.mem_cons_self
      rw [g1, pyGet_nat signals i [] hi]
      simp only [Except.bind]
      by_cases hil : i < ret.length
      · rw [pySet_nat _ _ _ hil]
        simp only
        refine ih _ (fun k hk => ho k (List.mem_cons_of_mem _ hk)) ⟨j, ?_, by simpa using hjl⟩
        rcases List.mem_cons.mp hj with rfl | h
        · omega
        · exact h
      · have : pySet ret (i : Int) (f (signals.getD i [])) = .error .indexError := by
          simp [pySet, pyIdx, hil]
        rw [this]
  have h1 : ∀ i ∈ order, i < signals.length := fun i hi => List.mem_range.mp (ho.mem_iff.mp hi)
  have h2 : ∃ i ∈ order, ret.length ≤ i := ⟨ret.length, ho.mem_iff.mpr (List.mem_range.mpr hr), le_rfl⟩
  exact ⟨gen (fun y => y.map fun v => v - mean y) (fun o r => meanDetrendC o signals r) (fun _ _ _ => rfl) order ret h1 h2,
    gen (linearDetrendRow signals.length) (fun o r => linearDetrendC o signals r) (fun _ _ _ => rfl) order ret h1 h2⟩

end Rows

section Parallel
variable {K : Type} [Field K] [LinearOrder K]

/-- **C139 (parallel loops).** The parallel loops of `spectral_rigidity` and `level_number_variance` read and write only inside their arrays, in any order of their iterations and for every number of threads. -/
theorem C139_parallel (order : List Nat) (unfolded Lvals : List K) (gridsize maxIters minIters junk : Nat) (tol : K) (useSimpson : Bool) (U : Nat → Nat → K) (ho : order.Perm (List.range Lvals.length)) :
    deltaParallelC order unfolded Lvals gridsize maxIters minIters tol useSimpson U = deltaParallel order unfolded Lvals gridsize maxIters minIters tol useSimpson U ∧
      sigmaParallelC order unfolded Lvals tol maxIters minIters U junk = sigmaParallel order unfolded Lvals tol maxIters minIters U junk := by
  have gen : ∀ (f : Nat → K → Py (K × Bool × Nat)) (order : List Nat) (out : List (K × Bool × Nat)), (∀ i ∈ order, i < Lvals.length) → Lvals.length ≤ out.length →
      prangeC order Lvals f out = prangeWrite order (fun i => f i (nth Lvals i)) out := by
    intro f order
    induction order with
    | nil => intro out _ _; rfl
    | cons i is ih =>
      intro out ho hr
      have hi := ho i List.mem_cons_self
      have hn : nth Lvals (i : Int) = Lvals.getD i 0 := by
        simp [nth, pyIdx_nat _ _ hi, List.getD]
      rw [prangeC, pyGet_nat Lvals i 0 hi, prangeWrite, hn]
      simp only [bind, Except.bind]
      cases f i (Lvals.getD i 0) with
      | error e => rfl
      | ok v =>
        simp only
        rw [pySet_nat _ _ _ (by omega)]
        exact ih _ (fun j hj => ho j (List.mem_cons_of_mem _ hj)) (by simpa using hr)
  have h : ∀ i ∈ order, i < Lvals.length := fun i hi => List.mem_range.mp (ho.mem_iff.mp hi)
  exact ⟨gen _ order _ h (by simp), gen _ order _ h (by simp)⟩

end Parallel

/-- **C139 (mask).** `fill_mask`, as called by `get_signals` (a mask with one entry per row), stays inside the mask and the array in any order of its iterations. -/
theorem C139_mask (order : List Nat) (mask : List Bool) (rows : List (List ℝ)) (threshold : ℝ) (ho : order.Nodup) (hm : ∀ i ∈ order, i < mask.length) (hl : mask.length = rows.length) :
    fillMaskC order mask rows threshold = fillMask order mask rows threshold := by
  have gen : ∀ order (mask0 mask : List Bool), order.Nodup → (∀ i ∈ order, i < mask.length) → mask.length = rows.length → (∀ i ∈ order, mask.getD i true = mask0.getD i true) →
      fillMaskC order mask rows threshold = prangeWrite order (fun i => .ok (maskBody threshold (rows.getD i []) (mask0.getD i true))) mask := by
    intro order mask0
    induction order with
    | nil => intro mask _ _ _ _; rfl
    | cons i is ih =>
      intro mask ho hm hl he
      have hi := hm i List.mem_cons_self
      obtain ⟨hn, ho'⟩ := List.nodup_cons.mp ho
      rw [fillMaskC, pyGet_nat rows i [] (by omega), pyGet_nat mask i true hi]
      simp only [bind, Except.bind]
      rw [pySet_nat _ _ _ hi]
      simp only [prangeWrite]
      rw [he i List.mem_cons_self]
      refine ih _ ho' (fun j hj => by simpa using hm j (List.mem_cons_of_mem _ hj)) (by simpa using hl) (fun j hj => ?_)
      rw [← he j (List.mem_cons_of_mem _ hj)]
      have hij : i ≠ j := fun h => hn (h ▸ hj)
      simp [List.getElem?_set, hij]
  exact gen order mask mask ho hm hl (fun _ _ => rfl)

-- the hypotheses are satisfiable and the checked programs run
example : d3SampleC (fun _ => (7 : ℚ)) [0, 1, 2] 1 4 true 1 = d3Sample [0, 1, 2] 1 4 true 1 := (C139_sample _ _ _ _ _ _).1
example : intSimpsC [(0 : ℚ), 1] [1, 3] = .ok (intSimpsNonunif [0, 1] [1, 3]) := (C139_integration _ _ [] 0 0 fun _ => 0).2.1 (by decide) rfl
example : deltaParallelC [1, 0] [(0 : ℚ), 1, 2] [1, 2] 4 2 1 0 true (fun _ _ => 0) = deltaParallel [1, 0] [0, 1, 2] [1, 2] 4 2 1 0 true (fun _ _ => 0) := (C139_parallel _ _ _ _ _ _ 0 _ _ _ (by decide)).1
example : ∃ order : List Nat, order.Perm (List.range 3) ∧ order ≠ [0, 1, 2] := ⟨[2, 0, 1], by decide, by decide⟩

end Props
end RMT
