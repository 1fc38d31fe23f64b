import Verif.Lemmas.Imports

/-!
# Property C137: importing the package
-/

namespace RMT
namespace Props
open Imports

/-- A rank witnessing that the imports of the package are acyclic. -/
def importRank : Mod → Nat
  | .constants | .types | .utils => 0
  | .validate | .brody | .correlater | .detrend | .ensemble | .exponentials | .step | .clean | .levelvariance => 1
  | .compare | .plot | .smoother | .spDetrend | .rigidity => 2
  | .eigvals => 3
  | .unfold => 4
  | .construct | .trim => 5
  | .eigenvalues => 6

/-- The specification: the modules that cannot be imported on Windows. -/
def failsOnWindows : Mod → Bool
  | .levelvariance | .rigidity | .unfold | .construct | .trim | .eigenvalues => true
  | _ => false

/-- The modules that cannot be imported on the given platform. -/
def fails (windows : Bool) (m : Mod) : Bool := windows && failsOnWindows m

/-- The specification: `x` is defined at the top level of `m`. -/
def Defines (windows : Bool) (m : Mod) (x : String) : Prop := ∃ st ∈ body windows m, x ∈ st.names

theorem mem_exports (windows : Bool) (m : Mod) (x : String) : x ∈ exports (body windows) m ↔ Defines windows m x := by
  simp [exports, Defines, List.mem_flatMap]

theorem importTable (windows : Bool) : Table (body windows) importRank (fails windows) := by
  constructor
  · intro m st hst d hd
    have key : ∀ w m, ∀ st ∈ body w m, match Stmt.target st with | some d => importRank d < importRank m | none => True := by
      intro w m
      cases w <;> cases m <;> simp [body, Stmt.target, importRank]
    have := key windows m st hst
    rw [hd] at this
    exact this
  · intro m
    cases windows <;> cases m <;> decide +kernel

theorem importRank_lt (m : Mod) : importRank m < 7 := by cases m <;> decide

/-- Every loaded module is completely loaded and its imports are loaded. -/
structure Fine (windows : Bool) (s : State Mod) : Prop where
  good : ∀ k, s.ns k = none ∨ (s.ns k = some (exports (body windows) k) ∧ fails windows k = false)
  closed : ∀ k d, s.ns k ≠ none → Dep (body windows) k d → s.ns d ≠ none

theorem fine_fresh (windows : Bool) : Fine windows State.fresh := ⟨fun _ => Or.inl rfl, fun _ _ h => absurd rfl h⟩

theorem importPost (windows : Bool) (fuel : Nat) (hf : 7 ≤ fuel) (m : Mod) (s : State Mod) (h : Fine windows s) :
    Post (body windows) importRank (fails windows) m s (importMod (body windows) fuel m s).1 (importMod (body windows) fuel m s).2 :=
  importMod_post (importTable windows) fuel m s (by have := importRank_lt m; omega) (fun k _ => h.good k)

theorem userImport_state (windows : Bool) (fuel : Nat) (s : State Mod) (u : Mod × List String) :
    (userImport (body windows) fuel s u).1 = (importMod (body windows) fuel u.1 s).1 := by
  unfold userImport
  rcases importMod (body windows) fuel u.1 s with ⟨s', _ | _⟩ <;> rfl

theorem fine_import (windows : Bool) (fuel : Nat) (hf : 7 ≤ fuel) (u : Mod × List String) (s : State Mod) (h : Fine windows s) :
    Fine windows (userImport (body windows) fuel s u).1 := by
  rw [userImport_state]
  have hp := importPost windows fuel hf u.1 s h
  constructor
  · intro k
    rcases hp.change k with e | ⟨-, -, e⟩
    · rw [e]; exact h.good k
    · exact Or.inr ⟨e.2.1, e.2.2.1⟩
  · intro k d hk hd
    rcases hp.change k with e | ⟨-, -, e⟩
    · rw [e] at hk
      exact hp.mono d (h.closed k d hk hd)
    · exact e.2.2.2 d hd

theorem fine_imports (windows : Bool) (fuel : Nat) (hf : 7 ≤ fuel) : ∀ (us : List (Mod × List String)) (s : State Mod), Fine windows s →
    Fine windows (userImports (body windows) fuel s us).1 := by
  intro us
  induction us with
  | nil => intro s h; exact h
  | cons u us ih => intro s h; exact ih _ (fine_import windows fuel hf u s h)

theorem userImport_ok (windows : Bool) (fuel : Nat) (hf : 7 ≤ fuel) (s : State Mod) (h : Fine windows s) (m : Mod) (names : List String) :
    (userImport (body windows) fuel s (m, names)).2 = true ↔ fails windows m = false ∧ ∀ x ∈ names, Defines windows m x := by
  have hp := importPost windows fuel hf m s h
  unfold userImport
  rcases hr : importMod (body windows) fuel m s with ⟨s', ok⟩
  rw [hr] at hp
  simp only at hp
  have hok := hp.ok_eq
  cases ok with
  | false =>
    have : fails windows m = true := by simpa using hok.symm
    simp [this]
  | true =>
    have hb : fails windows m = false := by simpa using hok.symm
    simp only [hp.loaded rfl, hb, Option.getD_some, List.all_eq_true, List.contains_iff_mem, true_and, mem_exports]

/-- **C137 (other platforms).** Not on Windows: after any earlier imports of the package's modules, in any order and whether or not they succeeded, `from m import names` succeeds exactly if `m` defines
these names at its top level. No nesting of imports exceeds 7. -/
theorem C137_imports (fuel : Nat) (hf : 7 ≤ fuel) (us : List (Mod × List String)) (m : Mod) (names : List String) :
    (userImport (body false) fuel (userImports (body false) fuel State.fresh us).1 (m, names)).2 = true ↔ ∀ x ∈ names, Defines false m x := by
  rw [userImport_ok false fuel hf _ (fine_imports false fuel hf us _ (fine_fresh _))]
  simp [fails]

/-- The full characterisation on Windows: the modules that need `ITER_COUNT`, directly or indirectly, cannot be imported after any history of imports; all others can. -/
theorem C137_windows_partial (fuel : Nat) (hf : 7 ≤ fuel) (us : List (Mod × List String)) (m : Mod) (names : List String) :
    (userImport (body true) fuel (userImports (body true) fuel State.fresh us).1 (m, names)).2 = true ↔
      m ∉ [Mod.levelvariance, .rigidity, .unfold, .construct, .trim, .eigenvalues] ∧ ∀ x ∈ names, Defines true m x := by
  rw [userImport_ok true fuel hf _ (fine_imports true fuel hf us _ (fine_fresh _))]
  have : fails true m = false ↔ m ∉ [Mod.levelvariance, .rigidity, .unfold, .construct, .trim, .eigenvalues] := by
    cases m <;> decide
  rw [this]

/-- **C137 refuted on Windows.** `from empyricalRMT.eigenvalues import Eigenvalues` raises `ImportError` on Windows after every history of imports, and so do `Unfolded`, `TrimReport` and
`spectral_rigidity`; on other platforms it always succeeds. -/
theorem C137_windows_refuted (fuel : Nat) (hf : 7 ≤ fuel) (us : List (Mod × List String)) :
    (userImport (body true) fuel (userImports (body true) fuel State.fresh us).1 (.eigenvalues, ["Eigenvalues"])).2 = false ∧
    (userImport (body true) fuel (userImports (body true) fuel State.fresh us).1 (.unfold, ["Unfolded"])).2 = false ∧
    (userImport (body true) fuel (userImports (body true) fuel State.fresh us).1 (.trim, ["TrimReport"])).2 = false ∧
    (userImport (body true) fuel (userImports (body true) fuel State.fresh us).1 (.rigidity, ["spectral_rigidity"])).2 = false ∧
    (userImport (body false) fuel (userImports (body false) fuel State.fresh us).1 (.eigenvalues, ["Eigenvalues"])).2 = true := by
  refine ⟨?_, ?_, ?_, ?_, (C137_imports fuel hf us _ _).mpr ?_⟩
  · rw [Bool.eq_false_iff]; exact fun h => ((C137_windows_partial fuel hf us _ _).mp h).1 (by decide)
  · rw [Bool.eq_false_iff]; exact fun h => ((C137_windows_partial fuel hf us _ _).mp h).1 (by decide)
  · rw [Bool.eq_false_iff]; exact fun h => ((C137_windows_partial fuel hf us _ _).mp h).1 (by decide)
  · rw [Bool.eq_false_iff]; exact fun h => ((C137_windows_partial fuel hf us _ _).mp h).1 (by decide)
  · intro x hx
    rw [List.mem_singleton] at hx
    subst hx
    exact ⟨.bind ["Eigenvalues", "_eigs_via_transpose"], by simp [body], by simp [Stmt.names]⟩

/-- `k` is imported by one of the user's imports, directly or indirectly. -/
def Needed (windows : Bool) (us : List (Mod × List String)) (k : Mod) : Prop := ∃ u ∈ us, Reach (body windows) u.1 k

theorem imports_state (fuel : Nat) (hf : 7 ≤ fuel) : ∀ (us : List (Mod × List String)) (s : State Mod), Fine false s →
    (∀ k, (userImports (body false) fuel s us).1.ns k ≠ none ↔ s.ns k ≠ none ∨ Needed false us k) ∧ StartedOnce s (userImports (body false) fuel s us).1 := by
  intro us
  induction us with
  | nil => intro s _; exact ⟨fun k => by simp [userImports, Needed], StartedOnce.refl s⟩
  | cons u us ih =>
    intro s h
    have hp := importPost false fuel hf u.1 s h
    have hf1 := fine_import false fuel hf u s h
    obtain ⟨i1, i2⟩ := ih _ hf1
    rw [userImport_state] at i1 i2 hf1
    have hst : (userImports (body false) fuel s (u :: us)).1 = (userImports (body false) fuel (importMod (body false) fuel u.1 s).1 us).1 := by
      simp only [userImports, userImport_state]
    have hok : (importMod (body false) fuel u.1 s).2 = true := hp.ok_eq
    have hreach : ∀ m k, Reach (body false) m k → (importMod (body false) fuel u.1 s).1.ns m ≠ none → (importMod (body false) fuel u.1 s).1.ns k ≠ none := by
      intro m k hr
      induction hr with
      | refl => exact id
      | step hd _ ih' => exact fun hm => ih' (hf1.closed _ _ hm hd)
    rw [hst]
    refine ⟨fun k => ?_, (hp.once (fun _ => rfl)).trans i2 (fun k hk => hp.mono k hk) (fun k hk => (i1 k).mpr (Or.inl hk))⟩
    rw [i1]
    constructor
    · rintro (h1 | ⟨v, hv, hr⟩)
      · rcases hp.change k with e | ⟨-, hr, -⟩
        · rw [e] at h1; exact Or.inl h1
        · exact Or.inr ⟨u, List.mem_cons_self, hr⟩
      · exact Or.inr ⟨v, List.mem_cons_of_mem _ hv, hr⟩
    · rintro (h1 | ⟨v, hv, hr⟩)
      · exact Or.inl (hp.mono k h1)
      · rcases List.mem_cons.mp hv with rfl | hv
        · exact Or.inl (hreach _ _ hr (by rw [hp.loaded hok]; simp))
        · exact Or.inr ⟨v, hv, hr⟩

/-- **C137 (order).** Not on Windows: after any imports, exactly the modules they need are loaded, each with all its names; every one of them was executed exactly once. So the result does not depend on the order or
repetition of the imports. -/
theorem C137_order (fuel : Nat) (hf : 7 ≤ fuel) (us : List (Mod × List String)) :
    (∀ k, Needed false us k → (userImports (body false) fuel State.fresh us).1.ns k = some (exports (body false) k)) ∧
    (∀ k, ¬ Needed false us k → (userImports (body false) fuel State.fresh us).1.ns k = none) ∧
    (userImports (body false) fuel State.fresh us).1.started.Nodup ∧
    (∀ k, k ∈ (userImports (body false) fuel State.fresh us).1.started ↔ Needed false us k) ∧
    ∀ us', (∀ m, (∃ u ∈ us, u.1 = m) ↔ ∃ u ∈ us', u.1 = m) →
      (userImports (body false) fuel State.fresh us').1.ns = (userImports (body false) fuel State.fresh us).1.ns := by
  have gen : ∀ us, (∀ k, Needed false us k → (userImports (body false) fuel State.fresh us).1.ns k = some (exports (body false) k)) ∧
      (∀ k, ¬ Needed false us k → (userImports (body false) fuel State.fresh us).1.ns k = none) := by
    intro us
    obtain ⟨h1, -⟩ := imports_state fuel hf us _ (fine_fresh false)
    constructor
    · intro k hk
      rcases (fine_imports false fuel hf us _ (fine_fresh _)).good k with e | e
      · exact absurd e ((h1 k).mpr (Or.inr hk))
      · exact e.1
    · intro k hk
      by_contra hc
      rcases (h1 k).mp hc with e | e
      · exact e rfl
      · exact hk e
  obtain ⟨h1, new, e, hnd, hi⟩ := imports_state fuel hf us _ (fine_fresh false)
  have e' : (userImports (body false) fuel State.fresh us).1.started = new := by rw [e]; simp [State.fresh]
  refine ⟨(gen us).1, (gen us).2, by rw [e']; exact hnd, fun k => ?_, fun us' hu => ?_⟩
  · rw [e', hi, h1]
    simp [State.fresh]
  · funext k
    have hN : Needed false us' k ↔ Needed false us k := by
      constructor
      · rintro ⟨u, hu', hr⟩
        obtain ⟨v, hv, e⟩ := (hu u.1).mpr ⟨u, hu', rfl⟩
        exact ⟨v, hv, e ▸ hr⟩
      · rintro ⟨u, hu', hr⟩
        obtain ⟨v, hv, e⟩ := (hu u.1).mp ⟨u, hu', rfl⟩
        exact ⟨v, hv, e ▸ hr⟩
    by_cases hk : Needed false us k
    · rw [(gen us).1 k hk, (gen us').1 k (hN.mpr hk)]
    · rw [(gen us).2 k hk, (gen us').2 k (fun h => hk (hN.mp h))]

-- a name that is defined and one that is not; a module needed indirectly
example : Defines false .plot "PlotMode" := ⟨_, List.mem_of_mem_getLast? (by rfl), by simp [Stmt.names]⟩
example : ¬ Defines true .constants "ITER_COUNT" := by simp [Defines, body, Stmt.names]
example : Needed false [(.construct, [])] .unfold :=
  ⟨_, List.mem_cons_self, .step ⟨.fromImport .unfold [("Unfolded", "Unfolded")], by simp [body], rfl⟩ (.refl _)⟩

end Props
end RMT
