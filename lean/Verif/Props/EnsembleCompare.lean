import Verif.Lemmas.Lag
import Verif.Model.EnsembleCompare
import Verif.Props.Compare
import Verif.Props.Ensemble

/-!
# Property C89: the table of `ensemble_compare`
-/

namespace RMT
namespace Props
open Comparing EigValsM EigM Spec Ensembles EnsembleCmp Real

/-- Specification: the value of a metric for two curves of the same length. -/
noncomputable def metricOf (m : String) (expected curve : List ℝ) : Option ℝ :=
  if m = "mad" then some (mad curve.length expected curve)
  else if m = "msqd" then some (msqd curve.length expected curve)
  else if m = "corr" then some (pearson (asFun curve.length expected) (asFun curve.length curve))
  else none

/-- The metrics that are documented. -/
def ValidMetric (m : String) : Prop := m = "mad" ∨ m = "msqd" ∨ m = "corr"

theorem fillMetrics_ok (junk : String → String → List ℝ) (hj : ∀ a b, (junk a b).length = 1) (expected curve : List ℝ) (name : String)
    (h : expected.length = curve.length) (h2 : 2 ≤ curve.length) (ms : List String) (hm : ∀ m ∈ ms, ValidMetric m) (t : Table) :
    ∃ t', fillMetrics junk expected curve name ms t = .ok t' ∧ t'.index = t.index ∧ t'.columns = t.columns ∧
      ∀ c r, t'.cell c r = if c = name ∧ r ∈ ms ∧ t.columns.count name ≤ 1 then metricOf r expected curve else t.cell c r := by
  have hidx : ∀ (t : Table) (a b : String) (v : ℝ), (t.assign a b v).index = t.index ∧ (t.assign a b v).columns = t.columns := by
    intro t a b v
    unfold Table.assign
    split_ifs <;> exact ⟨rfl, rfl⟩
  induction ms generalizing t with
  | nil => exact ⟨t, rfl, rfl, rfl, fun c r => by simp⟩
  | cons m ms ih =>
    have hv : ∃ v, metricOf m expected curve = some v ∧ ensembleMetric expected curve (junk name m) name m = .ok v := by
      rw [C80_metric expected curve _ name m h h2 (hj _ _)]
      unfold metricOf
      rcases hm m (by simp) with rfl | rfl | rfl
      · exact ⟨_, by rw [if_pos rfl], by rw [if_pos rfl]⟩
      · exact ⟨_, by rw [if_neg (by decide), if_pos rfl], by rw [if_neg (by decide), if_pos rfl]⟩
      · exact ⟨_, by rw [if_neg (by decide), if_neg (by decide), if_pos rfl], by rw [if_neg (by decide), if_neg (by decide), if_pos rfl]⟩
    obtain ⟨v, hv1, hv2⟩ := hv
    obtain ⟨t', h1, h3, h4, h5⟩ := ih (fun m hm' => hm m (by simp [hm'])) (t.assign name m v)
    rw [(hidx _ _ _ _).1] at h3
    rw [(hidx _ _ _ _).2] at h4 h5
    refine ⟨t', ?_, h3, h4, fun c r => ?_⟩
    · simp only [fillMetrics, hv2, bind, Except.bind, h1]
    · rw [h5]
      by_cases hcount : t.columns.count name ≤ 1
      swap
      · rw [if_neg (fun h => hcount h.2.2), if_neg (fun h => hcount h.2.2)]
        simp only [Table.assign, if_pos (not_le.mp hcount)]
      have hnot : ¬ 1 < t.columns.count name := not_lt.mpr hcount
      by_cases hc : c = name
      · by_cases hr : r ∈ ms
        · rw [if_pos ⟨hc, hr, hcount⟩, if_pos ⟨hc, by simp [hr], hcount⟩]
        · rw [if_neg (fun h => hr h.2.1)]
          by_cases hrm : r = m
          · rw [if_pos ⟨hc, by simp [hrm], hcount⟩, hrm, hv1]
            simp [Table.assign, hc, hnot]
          · rw [if_neg (by rintro ⟨-, h, -⟩; simp at h; tauto)]
            simp [Table.assign, hrm, hnot]
      · rw [if_neg (fun h => hc h.1), if_neg (fun h => hc h.1)]
        simp [Table.assign, hc, hnot]

theorem block_ok (junk : String → String → List ℝ) (hj : ∀ a b, (junk a b).length = 1) (observables metrics : List String) (name : String)
    (expected curve : List ℝ) (pe : Py (List ℝ)) (pc : Py (List ℝ)) (hpe : name ∈ observables → pe = .ok expected) (hpc : name ∈ observables → pc = .ok curve)
    (h : name ∈ observables → expected.length = curve.length ∧ 2 ≤ curve.length) (hm : ∀ m ∈ metrics, ValidMetric m) (t : Table) (ht : t.columns = observables) :
    ∃ t', block junk observables metrics name pc pe t = .ok t' ∧ t'.index = t.index ∧ t'.columns = t.columns ∧
      ∀ c r, c ∈ observables → r ∈ metrics → t'.cell c r = if c = name ∧ observables.count c ≤ 1 then metricOf r expected curve else t.cell c r := by
  by_cases hn : name ∈ observables
  · obtain ⟨t', h1, h2, h3, h4⟩ := fillMetrics_ok junk hj expected curve name (h hn).1 (h hn).2 metrics hm t
    refine ⟨t', ?_, h2, h3, fun c r _ hr => ?_⟩
    · simp only [block, if_pos hn, hpe hn, hpc hn, bind, Except.bind, h1]
    · rw [h4, ht]
      by_cases hcn : c = name
      · subst hcn; simp [hr]
      · rw [if_neg (fun h => hcn h.1), if_neg (fun h => hcn h.1)]
  · refine ⟨t, by simp only [block, if_neg hn], rfl, rfl, fun c r hc _ => ?_⟩
    rw [if_neg (fun h => hn (by rw [← h.1]; exact hc))]

/-- **C89.** `ensemble_compare` returns the table with one row per metric and one column per observable. For nearest-neighbour spacings the cell compares the kernel density
estimate of the spacings with the ensemble's density on the equally spaced grid of the range; for next-nearest neighbours that of the lag-2 spacings with the ensemble's curve; for
rigidity and level variance the estimates with the ensemble's values for the same `L`. Columns with another name stay NaN, and so do columns given twice. The two spacing observables are restricted to Poisson and GOE
(see `C89_refuted`). -/
theorem C89_table_partial (kde : List ℝ → List ℝ → List ℝ) (hk : ∀ d g, (kde d g).length = g.length) (rigidity levelvar : List ℝ → Py (List ℝ))
    (junk : String → String → List ℝ) (hj : ∀ a b, (junk a b).length = 1) (e : Ens) (vals : List ℝ) (observables metrics : List String)
    (hm : ∀ m ∈ metrics, ValidMetric m) (lo hi : ℝ) (n : Nat) (hn : 2 ≤ n) (Lr Ll delta sigma : List ℝ)
    (he : "nnsd" ∈ observables ∨ "nnnsd" ∈ observables → e = .poisson ∨ e = .goe)
    (hr : rigidity Lr = .ok delta) (hr2 : delta.length = Lr.length ∧ 2 ≤ Lr.length)
    (hl : levelvar Ll = .ok sigma) (hl2 : sigma.length = Ll.length ∧ 2 ≤ Ll.length) :
    ∃ t, ensembleCompare kde rigidity levelvar junk e vals observables metrics (lo, hi) n Lr Ll = .ok t ∧
      t.index = metrics ∧ t.columns = observables ∧
      ∀ o ∈ observables, ∀ m ∈ metrics, t.cell o m =
        if 1 < observables.count o then none
        else if o = "nnsd" then metricOf m ((linspace lo hi n).map e.density) (kde (diff (npSort vals)) (linspace lo hi n))
        else if o = "nnnsd" then
          metricOf m ((linspace lo hi n).map (if e = .goe then fun s => goeNextDensity (s / 2) else fun s => brodyDist s 0.6))
            (kde (npSort (Spec.lagTwo vals)) (linspace lo hi n))
        else if o = "rigidity" then metricOf m (Lr.map e.rigidityAt) delta
        else if o = "levelvar" then metricOf m (Ll.map e.levelVarAt) sigma
        else none := by
  rw [← lag2_eq]
  obtain ⟨t1, a1, a2, a3, a4⟩ := block_ok junk hj observables metrics "nnsd" ((linspace lo hi n).map e.density)
    (kde (diff (npSort vals)) (linspace lo hi n)) (.ok (e.nnsd (lo, hi) n none)) (.ok (kdeValues kde vals (lo, hi) false n))
    (fun h => by rcases he (Or.inl h) with rfl | rfl <;> rfl) (fun _ => rfl) (fun _ => by simp [hk, hn]) hm
    ⟨metrics, observables, fun _ _ => none⟩ rfl
  obtain ⟨t2, b1, b2, b3, b4⟩ := block_ok junk hj observables metrics "nnnsd"
    ((linspace lo hi n).map (if e = .goe then fun s => goeNextDensity (s / 2) else fun s => brodyDist s 0.6))
    (kde (npSort (lag2 vals)) (linspace lo hi n)) (e.nnnsd (lo, hi) n none) (.ok (kdeValues kde vals (lo, hi) true n))
    (fun h => by
      rcases he (Or.inr h) with rfl | rfl
      · simp [Ens.nnnsd, poissonNnnsd, gridOf]
      · simp [Ens.nnnsd, goeNnnsd, Function.comp_def]) (fun _ => rfl) (fun _ => by simp [hk, hn]) hm t1 a3
  obtain ⟨t3, c1, c2, c3, c4⟩ := block_ok junk hj observables metrics "rigidity" (Lr.map e.rigidityAt) delta
    (.ok (e.spectralRigidity 0.5 20 50 (some Lr))) (rigidity Lr) (fun _ => rfl) (fun _ => hr) (fun _ => by simp [hr2.1, hr2.2]) hm t2 (b3.trans a3)
  obtain ⟨t4, d1, d2, d3, d4⟩ := block_ok junk hj observables metrics "levelvar" (Ll.map e.levelVarAt) sigma
    (.ok (e.levelVariance 0.5 20 50 (some Ll))) (levelvar Ll) (fun _ => rfl) (fun _ => hl) (fun _ => by simp [hl2.1, hl2.2]) hm t3 (c3.trans (b3.trans a3))
  refine ⟨t4, ?_, by rw [d2, c2, b2, a2], by rw [d3, c3, b3, a3], fun o ho m hm' => ?_⟩
  · simp only [ensembleCompare, a1, b1, c1, d1, bind, Except.bind]
  · rw [d4 o m ho hm', c4 o m ho hm', b4 o m ho hm', a4 o m ho hm']
    by_cases h0 : 1 < observables.count o
    · simp only [not_le.mpr h0, and_false, if_false, if_pos h0]
    have h0' : observables.count o ≤ 1 := not_lt.mp h0
    simp only [h0', and_true, if_neg h0]
    by_cases h1 : o = "levelvar"
    · subst h1; simp
    by_cases h2 : o = "rigidity"
    · subst h2; simp
    by_cases h3 : o = "nnnsd"
    · subst h3; simp
    by_cases h4 : o = "nnsd"
    · subst h4; simp
    · simp [h1, h2, h3, h4]

/-- **C89 is false for an observable given twice.** Asking for the level variances twice gives a table of NaN. -/
theorem C89_twice_refuted : ∃ t, ensembleCompare (fun _ g => g.map fun _ => 1) (fun L => .ok L) (fun L => .ok L) (fun _ _ => [7]) .poisson [0, 1, 3]
    ["levelvar", "levelvar"] ["mad"] (0, 1) 3 [1, 2] [1, 2] = .ok t ∧ t.cell "levelvar" "mad" = none := by
  obtain ⟨t, h1, -, -, h2⟩ := C89_table_partial (fun _ g => g.map fun _ => 1) (fun _ _ => by simp) (fun L => .ok L) (fun L => .ok L) (fun _ _ => [7])
    (fun _ _ => rfl) .poisson [0, 1, 3] ["levelvar", "levelvar"] ["mad"] (by simp [ValidMetric]) 0 1 3 (by norm_num) [1, 2] [1, 2] [1, 2] [1, 2]
    (by simp) rfl (by simp) rfl (by simp)
  refine ⟨t, h1, ?_⟩
  rw [h2 "levelvar" (by simp) "mad" (by simp)]
  simp

/-- **C89 is false for GUE and GSE spacings, and for the next-nearest-neighbour curve of the GOE.** With the default grid size (or any other than 10000) comparing spacings with GUE or
GSE raises ValueError; comparing next-nearest-neighbour spacings raises NotImplementedError; and the GOE curve that next-nearest-neighbour spacings are compared with has total mass 2,
so it is not a density. -/
theorem C89_refuted (kde : List ℝ → List ℝ → List ℝ) (hk : ∀ d g, (kde d g).length = g.length) (rigidity levelvar : List ℝ → Py (List ℝ))
    (junk : String → String → List ℝ) (e : Ens) (he : e = .gue ∨ e = .gse) (vals : List ℝ) (observables metrics : List String)
    (range : ℝ × ℝ) (n : Nat) (Lr Ll : List ℝ) :
    ("nnsd" ∈ observables → metrics ≠ [] → n ≠ 10000 →
      ensembleCompare kde rigidity levelvar junk e vals observables metrics range n Lr Ll = .error .valueError) ∧
    ("nnsd" ∉ observables → "nnnsd" ∈ observables →
      ensembleCompare kde rigidity levelvar junk e vals observables metrics range n Lr Ll = .error .notImplementedError) ∧
    (∫ s in Set.Ioi (0 : ℝ), goeNextDensity (s / 2)) = 2 := by
  refine ⟨fun h1 h2 h3 => ?_, fun h1 h2 => ?_, ?_⟩
  · obtain ⟨m, ms, rfl⟩ := List.exists_cons_of_ne_nil h2
    have := C65_ensemble_compare_raises e he range n h3 (kdeValues kde vals range false n) (by simp [kdeValues, hk]) (junk "nnsd" m) m
    simp only [ensembleCompare, block, if_pos h1, fillMetrics, bind, Except.bind, this]
  · have : e.nnnsd range n none = .error .notImplementedError := by
      rcases he with rfl | rfl <;> rfl
    simp only [ensembleCompare, block, if_neg h1, if_pos h2, bind, Except.bind, this]
  · have := C81_refuted.1
    unfold goeNextOnRange at this
    exact this

/-- **C89 (invalid metric).** A metric that is not one of the documented ones raises ValueError as soon as an observable is compared (here the nearest-neighbour spacings). -/
theorem C89_invalid_metric (kde : List ℝ → List ℝ → List ℝ) (hk : ∀ d g, (kde d g).length = g.length) (rigidity levelvar : List ℝ → Py (List ℝ))
    (junk : String → String → List ℝ) (hj : ∀ a b, (junk a b).length = 1) (e : Ens) (vals : List ℝ)
    (observables : List String) (h1 : "nnsd" ∈ observables) (pre post : List String) (hpre : ∀ m ∈ pre, ValidMetric m) (m : String) (hm : ¬ValidMetric m)
    (lo hi : ℝ) (n : Nat) (hn : 2 ≤ n) (Lr Ll : List ℝ) :
    ensembleCompare kde rigidity levelvar junk e vals observables (pre ++ m :: post) (lo, hi) n Lr Ll = .error .valueError := by
  have key : ∀ (pre : List String) (t : Table), fillMetrics junk (e.nnsd (lo, hi) n none) (kdeValues kde vals (lo, hi) false n) "nnsd" (pre ++ m :: post) t
      = .error .valueError ∨ ∃ m' ∈ pre, ∃ err, ensembleMetric (e.nnsd (lo, hi) n none) (kdeValues kde vals (lo, hi) false n) (junk "nnsd" m') "nnsd" m' = .error err := by
    intro pre
    induction pre with
    | nil =>
      intro t
      left
      have : ensembleMetric (e.nnsd (lo, hi) n none) (kdeValues kde vals (lo, hi) false n) (junk "nnsd" m) "nnsd" m = .error .valueError := by
        by_cases hl : (e.nnsd (lo, hi) n none).length = (kdeValues kde vals (lo, hi) false n).length
        · rw [C80_metric _ _ _ _ _ hl (by simp [kdeValues, hk, hn]) (hj _ _)]
          unfold ValidMetric at hm
          push Not at hm
          rw [if_neg hm.1, if_neg hm.2.1, if_neg hm.2.2]
        · exact C80_metric_lengths _ _ _ _ _ hl
      simp only [List.nil_append, fillMetrics, this, bind, Except.bind]
    | cons a pre ih =>
      intro t
      cases hv : ensembleMetric (e.nnsd (lo, hi) n none) (kdeValues kde vals (lo, hi) false n) (junk "nnsd" a) "nnsd" a with
      | error err => exact Or.inr ⟨a, by simp, err, hv⟩
      | ok v =>
        rcases ih (t.assign "nnsd" a v) with h | ⟨m', hm', err, h⟩
        · left; simp only [List.cons_append, fillMetrics, hv, bind, Except.bind, h]
        · exact Or.inr ⟨m', by simp [hm'], err, h⟩
  have fm : ∀ t, fillMetrics junk (e.nnsd (lo, hi) n none) (kdeValues kde vals (lo, hi) false n) "nnsd" (pre ++ m :: post) t = .error .valueError := by
    intro t
    by_cases hl : (e.nnsd (lo, hi) n none).length = (kdeValues kde vals (lo, hi) false n).length
    · rcases key pre t with h | ⟨m', hm', err, h⟩
      · exact h
      · exfalso
        rw [C80_metric _ _ _ _ _ hl (by simp [kdeValues, hk, hn]) (hj _ _)] at h
        rcases hpre m' hm' with rfl | rfl | rfl
        · rw [if_pos rfl] at h; cases h
        · rw [if_neg (by decide), if_pos rfl] at h; cases h
        · rw [if_neg (by decide), if_neg (by decide), if_pos rfl] at h; cases h
    · cases pre with
      | nil => simp only [List.nil_append, fillMetrics, C80_metric_lengths _ _ _ _ _ hl, bind, Except.bind]
      | cons a pre => simp only [List.cons_append, fillMetrics, C80_metric_lengths _ _ _ _ _ hl, bind, Except.bind]
  simp only [ensembleCompare, block, if_pos h1, fm, bind, Except.bind]

/-- A concrete call: two metrics, a known and an unknown observable, a constant density estimate. -/
example : ∃ t, ensembleCompare (fun _ g => g.map fun _ => 1) (fun L => .ok L) (fun L => .ok L) (fun _ _ => [7]) .poisson [0, 1, 3]
    ["levelvar", "other"] ["mad", "msqd"] (0, 1) 3 [1, 2] [1, 2] = .ok t ∧ t.cell "levelvar" "mad" = some 0 ∧ t.cell "other" "mad" = none := by
  obtain ⟨t, h1, -, -, h2⟩ := C89_table_partial (fun _ g => g.map fun _ => 1) (fun _ _ => by simp) (fun L => .ok L) (fun L => .ok L) (fun _ _ => [7])
    (fun _ _ => rfl) .poisson [0, 1, 3] ["levelvar", "other"] ["mad", "msqd"] (by simp [ValidMetric]) 0 1 3 (by norm_num) [1, 2] [1, 2] [1, 2] [1, 2]
    (by simp) rfl (by simp) rfl (by simp)
  refine ⟨t, h1, ?_, ?_⟩
  · rw [h2 "levelvar" (by simp) "mad" (by simp)]
    simp [metricOf, mad, Ens.levelVarAt, poissonLevelVar]
  · rw [h2 "other" (by simp) "mad" (by simp)]
    simp

end Props
end RMT
