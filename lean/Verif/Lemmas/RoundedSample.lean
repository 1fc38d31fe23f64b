import Verif.Model.RoundedSample
import Verif.Lemmas.RoundedLoop
import Verif.Lemmas.Numeric
import Verif.Props.Step
import Verif.Spec.Float
import Mathlib.Analysis.SpecificLimits.Basic
import Mathlib.Data.List.GetD

/-! # Limits of rounded computations as the precision grows -/

namespace RMT
namespace Rounded
open Utils Rigidity Step Filter Topology Spec

variable {ι : Type} {F : Filter ι}

/-- A family of lists of one length, converging entry by entry. -/
structure TL (F : Filter ι) (f : ι → List ℝ) (l : List ℝ) : Prop where
  len : ∀ i, (f i).length = l.length
  lim : ∀ k, Tendsto (fun i => (f i).getD k 0) F (𝓝 (l.getD k 0))

/-- A family of roundings with precision tending to exactness. -/
structure Precise (F : Filter ι) (fl : ι → ℝ → ℝ) (ε : ι → ℝ) : Prop where
  nonneg : ∀ i, 0 ≤ ε i
  lim : Tendsto ε F (𝓝 0)
  rel : ∀ i, RelRounding (fl i) (ε i)

variable {fl : ι → ℝ → ℝ} {ε : ι → ℝ}

theorem Precise.rnd (h : Precise F fl ε) {x : ι → ℝ} {a : ℝ} (hx : Tendsto x F (𝓝 a)) : Tendsto (fun i => fl i (x i)) F (𝓝 a) := by
  have h1 : Tendsto (fun i => ε i * |x i|) F (𝓝 0) := by simpa using h.lim.mul hx.abs
  have h2 : Tendsto (fun i => fl i (x i) - x i) F (𝓝 0) := by
    rw [tendsto_zero_iff_abs_tendsto_zero]
    exact squeeze_zero (fun _ => abs_nonneg _) (fun i => h.rel i (x i)) h1
  simpa using h2.add hx

theorem TL.nth {f : ι → List ℝ} {l : List ℝ} (h : TL F f l) (z : Int) : Tendsto (fun i => nth (f i) z) F (𝓝 (nth l z)) := by
  simp only [RMT.nth, h.len]
  cases hz : pyIdx l.length z with
  | none => exact tendsto_const_nhds
  | some k => exact h.lim k

theorem TL.const (l : List ℝ) : TL F (fun _ => l) l := ⟨fun _ => rfl, fun _ => tendsto_const_nhds⟩

theorem TL.map {f : ι → List ℝ} {l : List ℝ} (h : TL F f l) (g : ι → ℝ → ℝ) (g0 : ℝ → ℝ)
    (hg : ∀ (x : ι → ℝ) (a : ℝ), a ∈ l → Tendsto x F (𝓝 a) → Tendsto (fun i => g i (x i)) F (𝓝 (g0 a))) : TL F (fun i => (f i).map (g i)) (l.map g0) := by
  refine ⟨fun i => by simp [h.len], fun k => ?_⟩
  by_cases hk : k < l.length
  · have e : ∀ i, ((f i).map (g i)).getD k 0 = g i ((f i).getD k 0) := by
      intro i
      have : k < (f i).length := by rw [h.len]; exact hk
      simp [this]
    simp only [e]
    have e0 : (l.map g0).getD k 0 = g0 (l.getD k 0) := by simp [hk]
    rw [e0]
    refine hg _ _ ?_ (h.lim k)
    rw [List.getD_eq_getElem _ _ hk]
    exact List.getElem_mem hk
  · have e : ∀ i, ((f i).map (g i)).getD k 0 = 0 := by
      intro i
      rw [List.getD_eq_default]
      simp [h.len]; omega
    simp only [e]
    rw [List.getD_eq_default _ _ (by simp; omega)]
    exact tendsto_const_nhds

theorem TL.zipWith {f f' : ι → List ℝ} {l l' : List ℝ} (h : TL F f l) (h' : TL F f' l') (hl : l.length = l'.length) (g : ι → ℝ → ℝ → ℝ) (g0 : ℝ → ℝ → ℝ)
    (hg : ∀ (x y : ι → ℝ) (a b : ℝ), Tendsto x F (𝓝 a) → Tendsto y F (𝓝 b) → Tendsto (fun i => g i (x i) (y i)) F (𝓝 (g0 a b))) :
    TL F (fun i => List.zipWith (g i) (f i) (f' i)) (List.zipWith g0 l l') := by
  refine ⟨fun i => by simp [h.len, h'.len], fun k => ?_⟩
  by_cases hk : k < l.length
  · have e : ∀ i, (List.zipWith (g i) (f i) (f' i)).getD k 0 = g i ((f i).getD k 0) ((f' i).getD k 0) := by
      intro i
      have h1 : k < (f i).length := by rw [h.len]; exact hk
      have h2 : k < (f' i).length := by rw [h'.len]; omega
      simp [List.getD_eq_getElem?_getD, h1, h2]
    simp only [e]
    have hk' : k < l'.length := by omega
    have e0 : (List.zipWith g0 l l').getD k 0 = g0 (l.getD k 0) (l'.getD k 0) := by simp [List.getD_eq_getElem?_getD, hk, hk']
    rw [e0]
    exact hg _ _ _ _ (h.lim k) (h'.lim k)
  · have e : ∀ i, (List.zipWith (g i) (f i) (f' i)).getD k 0 = 0 := by
      intro i
      rw [List.getD_eq_default]
      simp [h.len, h'.len]; omega
    simp only [e]
    rw [List.getD_eq_default _ _ (by simp; omega)]
    exact tendsto_const_nhds

theorem TL.diff {f : ι → List ℝ} {l : List ℝ} (h : TL F f l) : TL F (fun i => diff (f i)) (diff l) := by
  refine ⟨fun i => by simp [length_diff, h.len], fun k => ?_⟩
  by_cases hk : k + 1 < l.length
  · have e : ∀ m : List ℝ, k + 1 < m.length → (RMT.diff m).getD k 0 = m.getD (k + 1) 0 - m.getD k 0 := by
      intro m hm
      rw [List.getD_eq_getElem _ _ (by rw [length_diff]; omega), getElem_diff, List.getD_eq_getElem _ _ hm, List.getD_eq_getElem _ _ (by omega)]
    rw [e l hk]
    have e' : ∀ i, (RMT.diff (f i)).getD k 0 = (f i).getD (k + 1) 0 - (f i).getD k 0 := fun i => e _ (by rw [h.len]; exact hk)
    simp only [e']
    exact (h.lim _).sub (h.lim _)
  · have e : ∀ m : List ℝ, ¬ k + 1 < m.length → (RMT.diff m).getD k 0 = 0 := by
      intro m hm
      rw [List.getD_eq_default _ _ (by rw [length_diff]; omega)]
    rw [e l hk]
    have e' : ∀ i, (RMT.diff (f i)).getD k 0 = 0 := fun i => e _ (by rw [h.len]; exact hk)
    simp only [e']
    exact tendsto_const_nhds

theorem sum_range_getD (l : List ℝ) : l.sum = ∑ k ∈ Finset.range l.length, l.getD k 0 :=
  sum_eq_sum_range l _ fun i h => (List.getD_eq_getElem _ _ h).symm

theorem TL.sum {f : ι → List ℝ} {l : List ℝ} (h : TL F f l) : Tendsto (fun i => (f i).sum) F (𝓝 l.sum) := by
  simp only [sum_range_getD, h.len]
  exact tendsto_finsetSum _ fun k _ => h.lim k

theorem TL.sumFl (hp : Precise F fl ε) {assoc : ι → List ℝ → SumTree ℝ} (ha : ∀ i b, b ≠ [] → (assoc i b).leaves.Perm b) {f : ι → List ℝ} {l : List ℝ} (h : TL F f l) :
    Tendsto (fun i => sumFl (fl i) (assoc i) (f i)) F (𝓝 l.sum) := by
  by_cases hl : l = []
  · subst hl
    have : ∀ i, f i = [] := fun i => List.length_eq_zero_iff.mp (h.len i)
    simp only [Rounded.sumFl, this, if_true, List.sum_nil]
    exact tendsto_const_nhds
  have hne : ∀ i, f i ≠ [] := fun i he => hl (List.length_eq_zero_iff.mp (by rw [← h.len i, he]; rfl))
  have habs : TL F (fun i => (f i).map fun x => |x|) (l.map fun x => |x|) := h.map (fun _ x => |x|) _ fun x a _ hx => hx.abs
  have h1 : Tendsto (fun i => ((1 + ε i) ^ l.length - 1) * ((f i).map fun x => |x|).sum) F (𝓝 0) := by
    have := (((tendsto_const_nhds (x := (1 : ℝ))).add hp.lim).pow l.length |>.sub_const 1).mul habs.sum
    simpa using this
  have h2 : Tendsto (fun i => Rounded.sumFl (fl i) (assoc i) (f i) - (f i).sum) F (𝓝 0) := by
    rw [tendsto_zero_iff_abs_tendsto_zero]
    refine squeeze_zero (fun _ => abs_nonneg _) (fun i => ?_) h1
    simp only [Function.comp, Rounded.sumFl, if_neg (hne i)]
    have hp' := ha i (f i) (hne i)
    have := evalFl_err (hp.nonneg i) (hp.rel i) (assoc i (f i))
    rwa [hp'.sum_eq, hp'.length_eq, (hp'.map _).sum_eq, h.len] at this
  simpa using h2.add h.sum

theorem TL.meanFl (hp : Precise F fl ε) {assoc : ι → List ℝ → SumTree ℝ} (ha : ∀ i b, b ≠ [] → (assoc i b).leaves.Perm b) {f : ι → List ℝ} {l : List ℝ} (h : TL F f l) :
    Tendsto (fun i => meanFl (fl i) (assoc i) (f i)) F (𝓝 (mean l)) := by
  simp only [Rounded.meanFl, mean, h.len]
  exact hp.rnd ((h.sumFl hp ha).div_const _)

theorem slopeFl_lim (hp : Precise F fl ε) {assoc : ι → List ℝ → SumTree ℝ} (ha : ∀ i b, b ≠ [] → (assoc i b).leaves.Perm b) {x y : ι → List ℝ} {x0 y0 : List ℝ} (hx : TL F x x0) (hy : TL F y y0)
    (hl : x0.length = y0.length) (hv : (List.zipWith (· * ·) (x0.map (· - mean x0)) (x0.map (· - mean x0))).sum ≠ 0) :
    Tendsto (fun i => slopeFl (fl i) (assoc i) (x i) (y i)) F (𝓝 (Rigidity.slope x0 y0)) := by
  have hdx : TL F (fun i => (x i).map fun v => fl i (v - meanFl (fl i) (assoc i) (x i))) (x0.map (· - mean x0)) :=
    hx.map _ _ fun z a _ hz => hp.rnd (hz.sub (hx.meanFl hp ha))
  have hdy : TL F (fun i => (y i).map fun v => fl i (v - meanFl (fl i) (assoc i) (y i))) (y0.map (· - mean y0)) :=
    hy.map _ _ fun z a _ hz => hp.rnd (hz.sub (hy.meanFl hp ha))
  have hc := (hdx.zipWith hdy (by simpa using hl) (fun i a b => fl i (a * b)) (· * ·) fun _ _ _ _ h1 h2 => hp.rnd (h1.mul h2)).sumFl hp ha
  have hvv := (hdx.zipWith hdx rfl (fun i a b => fl i (a * b)) (· * ·) fun _ _ _ _ h1 h2 => hp.rnd (h1.mul h2)).sumFl hp ha
  simp only [Rigidity.slope, if_neg hv]
  refine (hp.rnd (hc.div hvv hv)).congr' ?_
  filter_upwards [hvv.eventually_ne hv] with i hi
  simp only [slopeFl, if_neg hi]
  rfl

theorem trapz_lim (hp : Precise F fl ε) {g v : ι → List ℝ} {g0 v0 : List ℝ} (hg : TL F g g0) (hv : TL F v v0) (k : Nat) {r : ι → ℝ} {r0 : ℝ} (hr : Tendsto r F (𝓝 r0)) :
    Tendsto (fun i => trapzFromFl (fl i) (g i) (v i) k (r i)) F (𝓝 (trapzFrom g0 v0 k r0)) := by
  induction hk : g0.length - k using Nat.strong_induction_on generalizing k r r0 with
  | _ n ih =>
    rw [trapzFrom]
    have e : ∀ i, trapzFromFl (fl i) (g i) (v i) k (r i) = if k + 1 < g0.length then trapzFromFl (fl i) (g i) (v i) (k + 1)
        (fl i (r i + fl i (fl i (fl i (nth (g i) (k + 1) - nth (g i) k) * fl i (nth (v i) k + nth (v i) (k + 1))) / 2))) else r i := by
      intro i
      rw [trapzFromFl, hg.len]
    simp only [e]
    split_ifs with hlt
    · refine ih (g0.length - (k + 1)) (by omega) (k + 1) ?_ rfl
      exact hp.rnd (hr.add (hp.rnd ((hp.rnd ((hp.rnd ((hg.nth _).sub (hg.nth _))).mul (hp.rnd ((hv.nth _).add (hv.nth _))))).div_const 2)))
    · exact hr

theorem cube_lim (hp : Precise F fl ε) {x : ι → ℝ} {a : ℝ} (hx : Tendsto x F (𝓝 a)) : Tendsto (fun i => cubeFl (fl i) (x i)) F (𝓝 (a ^ 3)) := by
  have := hp.rnd ((hp.rnd (hx.mul hx)).mul hx)
  rwa [show a * a * a = a ^ 3 by ring] at this

theorem square_lim (hp : Precise F fl ε) {x : ι → ℝ} {a : ℝ} (hx : Tendsto x F (𝓝 a)) : Tendsto (fun i => squareFl (fl i) (x i)) F (𝓝 (a ^ 2)) := by
  have := hp.rnd (hx.mul hx)
  rwa [show a * a = a ^ 2 by ring] at this

theorem simps_lim (hp : Precise F fl ε) {h v : ι → List ℝ} {h0 v0 : List ℝ} (hh : TL F h h0) (hv : TL F v v0) (N k : Nat) (hk1 : 1 ≤ k)
    (hpos : ∀ j : Nat, j < N → 0 < nth h0 (j : Int)) {r : ι → ℝ} {r0 : ℝ} (hr : Tendsto r F (𝓝 r0)) :
    Tendsto (fun i => simpsFromFl (fl i) (h i) (v i) N k (r i)) F (𝓝 (simpsFrom h0 v0 N k r0)) := by
  induction hk : N - k using Nat.strong_induction_on generalizing k r r0 with
  | _ n ih =>
    rw [simpsFrom]
    have e : ∀ i, simpsFromFl (fl i) (h i) (v i) N k (r i) = _ := fun i => by rw [simpsFromFl]
    simp only [e]
    split_ifs with hlt
    · refine ih (N - (k + 2)) (by omega) (k + 2) (by omega) ?_ rfl
      have hc : ∀ c : ℝ, Tendsto (fun _ : ι => c) F (𝓝 c) := fun _ => tendsto_const_nhds
      have p1 : 0 < nth h0 (k : Int) := hpos k hlt
      have p0 : 0 < nth h0 ((k : Int) - 1) := by
        have := hpos (k - 1) (by omega)
        rwa [show (((k - 1 : Nat)) : Int) = (k : Int) - 1 by omega] at this
      have t1 := hh.nth (k : Int)
      have t0 := hh.nth ((k : Int) - 1)
      have ts := hp.rnd (t1.add t0)
      have d1 := hp.rnd ((hp.rnd ((hc 6).mul t1)).mul t0)
      have d2 := hp.rnd ((hp.rnd ((hc 6).mul t0)).mul ts)
      have d3 := hp.rnd ((hp.rnd ((hc 6).mul t1)).mul ts)
      have n1 := hp.rnd ((hv.nth (k : Int)).mul (hp.rnd ((hp.rnd ((cube_lim hp t1).add (cube_lim hp t0))).add (hp.rnd ((hp.rnd ((hp.rnd ((hc 3).mul t1)).mul t0)).mul ts)))))
      have n2 := hp.rnd ((hv.nth ((k : Int) - 1)).mul (hp.rnd ((hp.rnd ((hp.rnd ((hc 2).mul (cube_lim hp t0))).sub (cube_lim hp t1))).add (hp.rnd ((hp.rnd ((hc 3).mul t1)).mul (square_lim hp t0))))))
      have n3 := hp.rnd ((hv.nth ((k : Int) + 1)).mul (hp.rnd ((hp.rnd ((hp.rnd ((hc 2).mul (cube_lim hp t1))).sub (cube_lim hp t0))).add (hp.rnd ((hp.rnd ((hc 3).mul t0)).mul (square_lim hp t1))))))
      exact hp.rnd ((hp.rnd ((hp.rnd (hr.add (hp.rnd (n1.div d1 (by positivity))))).add (hp.rnd (n2.div d2 (by positivity))))).add (hp.rnd (n3.div d3 (by positivity))))
    · exact hr

theorem intSimps_lim (hp : Precise F fl ε) {g v : ι → List ℝ} {g0 v0 : List ℝ} (hg : TL F g g0) (hv : TL F v v0) (hg3 : 3 ≤ g0.length)
    (hpos : ∀ j : Nat, j < g0.length - 1 → 0 < nth (diff g0) (j : Int)) :
    Tendsto (fun i => intSimpsNonunifFl (fl i) (g i) (v i)) F (𝓝 (intSimpsNonunif g0 v0)) := by
  have hh : TL F (fun i => (diff (g i)).map (fl i)) (diff g0) := by
    have := hg.diff.map (fun i x => fl i x) (fun x => x) fun x a _ hx => hp.rnd hx
    simpa using this
  have hr := simps_lim hp hh hv (g0.length - 1) 1 le_rfl hpos (r := fun _ => 0) (r0 := 0) tendsto_const_nhds
  have hc : ∀ c : ℝ, Tendsto (fun _ : ι => c) F (𝓝 c) := fun _ => tendsto_const_nhds
  simp only [intSimpsNonunifFl, intSimpsNonunif, hg.len]
  split_ifs with hpar
  · have q1 : 0 < nth (diff g0) (((g0.length - 1 : Nat) : Int) - 1) := by
      have := hpos (g0.length - 2) (by omega)
      rwa [show ((g0.length - 2 : Nat) : Int) = ((g0.length - 1 : Nat) : Int) - 1 by omega] at this
    have q2 : 0 < nth (diff g0) (((g0.length - 1 : Nat) : Int) - 2) := by
      have := hpos (g0.length - 3) (by omega)
      rwa [show ((g0.length - 3 : Nat) : Int) = ((g0.length - 1 : Nat) : Int) - 2 by omega] at this
    have tl := hh.nth (((g0.length - 1 : Nat) : Int) - 1)
    have tp := hh.nth (((g0.length - 1 : Nat) : Int) - 2)
    have ts := hp.rnd (tp.add tl)
    have n1 := hp.rnd ((hv.nth ((g0.length - 1 : Nat) : Int)).mul (hp.rnd ((hp.rnd ((hc 2).mul (square_lim hp tl))).add (hp.rnd ((hp.rnd ((hc 3).mul tp)).mul tl)))))
    have n2 := hp.rnd ((hv.nth (((g0.length - 1 : Nat) : Int) - 1)).mul (hp.rnd ((square_lim hp tl).add (hp.rnd ((hp.rnd ((hc 3).mul tl)).mul tp)))))
    have n3 := hp.rnd ((hv.nth (((g0.length - 1 : Nat) : Int) - 2)).mul (cube_lim hp tl))
    have d1 := hp.rnd ((hc 6).mul ts)
    have d2 := hp.rnd ((hc 6).mul tp)
    have d3 := hp.rnd ((hp.rnd ((hc 6).mul tp)).mul ts)
    exact hp.rnd ((hp.rnd ((hp.rnd (hr.add (hp.rnd (n1.div d1 (by positivity))))).add (hp.rnd (n2.div d2 (by positivity))))).sub (hp.rnd (n3.div d3 (by positivity))))
  · exact hr

theorem linspaceFl_lim (hp : Precise F fl ε) {a b : ι → ℝ} {a0 b0 : ℝ} (ha : Tendsto a F (𝓝 a0)) (hb : Tendsto b F (𝓝 b0)) (n : Nat) (hn : 2 ≤ n) :
    TL F (fun i => linspaceFl (fl i) (a i) (b i) n) (linspace a0 b0 n) := by
  refine ⟨fun i => by simp [linspaceFl], fun k => ?_⟩
  by_cases hk : k < n
  · have e : ∀ i, (linspaceFl (fl i) (a i) (b i) n).getD k 0 = if k + 1 = n ∧ 1 < n then b i else fl i (a i + fl i ((k : ℝ) * fl i (fl i (b i - a i) / ((n : ℝ) - 1)))) := by
      intro i
      rw [List.getD_eq_getElem _ _ (by simpa [linspaceFl] using hk)]
      simp [linspaceFl]
    simp only [e]
    rw [List.getD_eq_getElem _ _ (by simpa using hk), getElem_linspace]
    have hn1 : (n : ℝ) - 1 ≠ 0 := by
      have : (2 : ℝ) ≤ n := by exact_mod_cast hn
      linarith
    split_ifs with hlast
    · have : a0 + (k : ℝ) * ((b0 - a0) / ((n : ℝ) - 1)) = b0 := by
        have hkn : (n : ℝ) = k + 1 := by rw [← hlast.1]; push_cast; ring
        rw [hkn] at hn1 ⊢
        field_simp
        ring
      rwa [this]
    · exact hp.rnd (ha.add (hp.rnd (tendsto_const_nhds.mul (hp.rnd ((hp.rnd (hb.sub ha)).div_const _)))))
  · have e : ∀ i, (linspaceFl (fl i) (a i) (b i) n).getD k 0 = 0 := by
      intro i
      rw [List.getD_eq_default]
      simp [linspaceFl]; omega
    simp only [e]
    rw [List.getD_eq_default _ _ (by simp; omega)]
    exact tendsto_const_nhds

theorem TL.elem {f : ι → List ℝ} {l : List ℝ} (h : TL F f l) (k : Nat) (hk : k < l.length) :
    Tendsto (fun i => (f i)[k]'(by rw [h.len]; exact hk)) F (𝓝 l[k]) := by
  have := h.lim k
  rw [List.getD_eq_getElem _ _ hk] at this
  refine this.congr fun i => ?_
  rw [List.getD_eq_getElem]

/-- Counts at the points of a converging grid are eventually those of the limit, if no level is on the limiting grid. -/
theorem counts_eventually {g : ι → List ℝ} {g0 : List ℝ} (hg : TL F g g0) (levels : List ℝ) (h : ∀ x ∈ g0, ∀ e ∈ levels, e ≠ x) :
    ∀ᶠ i in F, (g i).map (countLE levels) = g0.map (countLE levels) := by
  have h1 : ∀ k (hk : k < g0.length), ∀ e ∈ levels, ∀ᶠ i in F, (e ≤ (g i)[k]'(by rw [hg.len]; exact hk) ↔ e ≤ g0[k]) := by
    intro k hk e he
    rcases lt_or_gt_of_ne (h _ (List.getElem_mem hk) e he) with hlt | hlt
    · filter_upwards [(hg.elem k hk).eventually_const_lt hlt] with i hi
      exact ⟨fun _ => hlt.le, fun _ => hi.le⟩
    · filter_upwards [(hg.elem k hk).eventually_lt_const hlt] with i hi
      exact ⟨fun hc => absurd hc (not_le.mpr hi), fun hc => absurd hc (not_le.mpr hlt)⟩
  have h2 : ∀ k (hk : k < g0.length), ∀ᶠ i in F, ∀ e ∈ levels, (e ≤ (g i)[k]'(by rw [hg.len]; exact hk) ↔ e ≤ g0[k]) := by
    intro k hk
    have := (eventually_all_finset levels.toFinset (l := F) (p := fun e i => (e ≤ (g i)[k]'(by rw [hg.len]; exact hk) ↔ e ≤ g0[k]))).mpr
      fun e he => h1 k hk e (List.mem_toFinset.mp he)
    filter_upwards [this] with i hi e he
    exact hi e (List.mem_toFinset.mpr he)
  have h3 : ∀ᶠ i in F, ∀ k : Fin g0.length, ∀ e ∈ levels, (e ≤ (g i)[(k : Nat)]'(by rw [hg.len]; exact k.2) ↔ e ≤ g0[(k : Nat)]) :=
    eventually_all.mpr fun k => h2 k k.2
  filter_upwards [h3] with i hi
  apply List.ext_getElem
  · simp [hg.len]
  intro k hk hk'
  simp only [List.length_map] at hk'
  simp only [List.getElem_map]
  have := hi ⟨k, hk'⟩
  simp only [countLE]
  first
  | (rw [List.filter_congr]; intro e he; simpa using this e he)
  | (apply List.countP_congr; intro e he; simpa using this e he)

end Rounded
end RMT
