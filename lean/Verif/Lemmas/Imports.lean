import Verif.Model.Imports
import Mathlib.Data.List.Basic
import Mathlib.Data.List.Nodup

/-! # Lemmas: importing modules whose imports are acyclic -/

namespace RMT
namespace Imports

set_option linter.unusedSectionVars false
variable {M : Type} [DecidableEq M]

/-- The names a statement binds. -/
def Stmt.names : Stmt M → List String
  | .fromImport _ ns => ns.map Prod.snd
  | .importAs _ a => [a]
  | .bind ns => ns

/-- The module a statement imports. -/
def Stmt.target : Stmt M → Option M
  | .fromImport d _ => some d
  | .importAs d _ => some d
  | .bind _ => none

/-- The names a module defines when executed to the end, in order. -/
def exports (body : M → List (Stmt M)) (m : M) : List String := (body m).flatMap Stmt.names

/-- `m` imports `d` directly. -/
def Dep (body : M → List (Stmt M)) (m d : M) : Prop := ∃ st ∈ body m, st.target = some d

/-- `m` imports `k` directly or indirectly, or is `k`. -/
inductive Reach (body : M → List (Stmt M)) : M → M → Prop
  | refl (m) : Reach body m m
  | step {m d k} : Dep body m d → Reach body d k → Reach body m k

/-- A statement that cannot succeed, given which modules cannot be imported. -/
def stBad (body : M → List (Stmt M)) (bad : M → Bool) : Stmt M → Bool
  | .fromImport d ns => bad d || !(ns.all fun x => (exports body d).contains x.1)
  | .importAs d _ => bad d
  | .bind _ => false

/-- What the theorems need of a table of modules: imports are acyclic, witnessed by `rank`, and `bad` says which modules have a statement that cannot succeed. -/
structure Table (body : M → List (Stmt M)) (rank : M → Nat) (bad : M → Bool) : Prop where
  acyclic : ∀ m, ∀ st ∈ body m, ∀ d, st.target = some d → rank d < rank m
  bad_iff : ∀ m, bad m = (body m).any (stBad body bad)

/-- Every module of rank below `r` is not loaded, or completely loaded and importable. -/
def Good (body : M → List (Stmt M)) (rank : M → Nat) (bad : M → Bool) (r : Nat) (s : State M) : Prop :=
  ∀ k, rank k < r → s.ns k = none ∨ (s.ns k = some (exports body k) ∧ bad k = false)

/-- Module `k` was loaded between `s` and `s'`. -/
def NewlyLoaded (body : M → List (Stmt M)) (bad : M → Bool) (s s' : State M) (k : M) : Prop :=
  s.ns k = none ∧ s'.ns k = some (exports body k) ∧ bad k = false ∧ ∀ d, Dep body k d → s'.ns d ≠ none

/-- Executions started between `s` and `s'`: each loaded module exactly once. -/
def StartedOnce (s s' : State M) : Prop :=
  ∃ new, s'.started = new ++ s.started ∧ new.Nodup ∧ ∀ k, k ∈ new ↔ (s.ns k = none ∧ s'.ns k ≠ none)

/-- What importing `m` does. -/
structure Post (body : M → List (Stmt M)) (rank : M → Nat) (bad : M → Bool) (m : M) (s s' : State M) (ok : Bool) : Prop where
  ok_eq : ok = !bad m
  change : ∀ k, s'.ns k = s.ns k ∨ (rank k ≤ rank m ∧ Reach body m k ∧ NewlyLoaded body bad s s' k)
  loaded : ok = true → s'.ns m = some (exports body m)
  once : (∀ k, bad k = false) → StartedOnce s s'

/-- What executing statements of `m` does. -/
structure PostBody (body : M → List (Stmt M)) (rank : M → Nat) (bad : M → Bool) (m : M) (sts : List (Stmt M)) (P : List String) (s s' : State M) (ok : Bool) : Prop where
  ok_eq : ok = !(sts.any (stBad body bad))
  change : ∀ k, k ≠ m → s'.ns k = s.ns k ∨ (rank k < rank m ∧ Reach body m k ∧ NewlyLoaded body bad s s' k)
  self : s'.ns m ≠ none
  loaded : ok = true → s'.ns m = some (P ++ sts.flatMap Stmt.names)
  deps : ok = true → ∀ st ∈ sts, ∀ d, st.target = some d → s'.ns d ≠ none
  once : (∀ k, bad k = false) → StartedOnce s s'

theorem StartedOnce.refl (s : State M) : StartedOnce s s :=
  ⟨[], rfl, List.nodup_nil, fun k => by simp⟩

theorem StartedOnce.trans {s s1 s' : State M} (h1 : StartedOnce s s1) (h2 : StartedOnce s1 s') (hm1 : ∀ k, s.ns k ≠ none → s1.ns k ≠ none)
    (hm : ∀ k, s1.ns k ≠ none → s'.ns k ≠ none) :
    StartedOnce s s' := by
  obtain ⟨n1, e1, d1, i1⟩ := h1
  obtain ⟨n2, e2, d2, i2⟩ := h2
  refine ⟨n2 ++ n1, by rw [e2, e1, List.append_assoc], ?_, ?_⟩
  · rw [List.nodup_append']
    exact ⟨d2, d1, fun k h2 h1 => ((i1 k).mp h1).2 ((i2 k).mp h2).1⟩
  · intro k
    rw [List.mem_append, i1, i2]
    constructor
    · rintro (⟨h, h'⟩ | ⟨h, h'⟩)
      · refine ⟨?_, h'⟩
        by_contra hc
        exact hm1 k hc h
      · exact ⟨h, hm k h'⟩
    · rintro ⟨h, h'⟩
      by_cases hc : s1.ns k = none
      · exact Or.inl ⟨hc, h'⟩
      · exact Or.inr ⟨h, hc⟩

theorem addNames_ns (s : State M) (m : M) (names : List String) (k : M) :
    (s.addNames m names).ns k = if k = m then some ((s.ns m).getD [] ++ names) else s.ns k := rfl

theorem Post.mono {body : M → List (Stmt M)} {rank : M → Nat} {bad : M → Bool} {m : M} {s s' : State M} {ok : Bool}
    (h : Post body rank bad m s s' ok) (k : M) (hk : s.ns k ≠ none) : s'.ns k ≠ none := by
  rcases h.change k with e | ⟨-, -, e⟩
  · rwa [e]
  · exact absurd e.1 hk

theorem startedOnce_addNames (s : State M) (m : M) (names : List String) (hm : s.ns m ≠ none) : StartedOnce s (s.addNames m names) := by
  refine ⟨[], rfl, List.nodup_nil, fun k => ?_⟩
  simp only [List.not_mem_nil, false_iff, not_and, addNames_ns]
  intro h
  have : k ≠ m := fun e => hm (e ▸ h)
  simp [this, h]

/-- Executing one more statement: the state before it is `s`, after it (with the names added) `t`. -/
theorem PostBody.step {body : M → List (Stmt M)} {rank : M → Nat} {bad : M → Bool} {m d : M} {st : Stmt M} {rest : List (Stmt M)} {P : List String}
    {s s1 s' : State M} {ok : Bool} (hdep : Dep body m d) (hst : st.target = some d) (hrank : ∀ k j, Dep body k j → rank j < rank k) (hbad : stBad body bad st = false)
    (hs : s.ns m = some P) (h1 : Post body rank bad d s s1 true)
    (h2 : PostBody body rank bad m rest (P ++ st.names) (s1.addNames m st.names) s' ok) :
    PostBody body rank bad m (st :: rest) P s s' ok := by
  have hdm : rank d < rank m := hrank _ _ hdep
  have hne : d ≠ m := by rintro rfl; exact Nat.lt_irrefl _ hdm
  have hm1 : s1.ns m ≠ none := h1.mono m (by simp [hs])
  have mono2 : ∀ k, (s1.addNames m st.names).ns k ≠ none → s'.ns k ≠ none := by
    intro k hk
    by_cases hkm : k = m
    · rw [hkm]; exact h2.self
    · rcases h2.change k hkm with e | ⟨-, -, e⟩
      · rwa [e]
      · exact absurd e.1 hk
  have hadd : ∀ k, s1.ns k ≠ none → (s1.addNames m st.names).ns k ≠ none := by
    intro k hk
    rw [addNames_ns]; split_ifs
    · simp
    · exact hk
  refine ⟨?_, ?_, h2.self, ?_, ?_, ?_⟩
  · rw [h2.ok_eq, List.any_cons, hbad, Bool.false_or]
  · intro k hk
    rcases h2.change k hk with e | ⟨a, b, c⟩
    · rw [addNames_ns, if_neg hk] at e
      rcases h1.change k with e1 | ⟨a1, b1, c1⟩
      · exact Or.inl (e.trans e1)
      · refine Or.inr ⟨Nat.lt_of_le_of_lt a1 hdm, .step hdep b1, c1.1, ?_, c1.2.2.1, ?_⟩
        · rw [e]; exact c1.2.1
        · intro j hj
          exact mono2 j (hadd j (c1.2.2.2 j hj))
    · have c1 := c.1
      rw [addNames_ns, if_neg hk] at c1
      rcases h1.change k with e1 | ⟨-, -, e1⟩
      · exact Or.inr ⟨a, b, by rw [← e1]; exact c1, c.2⟩
      · rw [e1.2.1] at c1; cases c1
  · intro h
    rw [h2.loaded h, List.flatMap_cons, List.append_assoc]
  · intro h st' hst' d' hd'
    rcases List.mem_cons.mp hst' with rfl | hin
    · rw [hst] at hd'
      cases hd'
      apply mono2
      apply hadd
      rw [h1.loaded rfl]; simp
    · exact h2.deps h st' hin d' hd'
  · intro hb
    refine StartedOnce.trans ((h1.once hb).trans (startedOnce_addNames s1 m st.names hm1) ?_ hadd) (h2.once hb) ?_ mono2
    · exact fun k hk => h1.mono k hk
    · exact fun k hk => hadd k (h1.mono k hk)

/-- A statement that fails ends the execution. -/
theorem PostBody.fail {body : M → List (Stmt M)} {rank : M → Nat} {bad : M → Bool} {m d : M} {st : Stmt M} {rest : List (Stmt M)} {P : List String}
    {s s1 : State M} {ok1 : Bool} (hdep : Dep body m d) (hrank : ∀ k j, Dep body k j → rank j < rank k) (hbad : stBad body bad st = true)
    (hs : s.ns m = some P) (h1 : Post body rank bad d s s1 ok1) :
    PostBody body rank bad m (st :: rest) P s s1 false := by
  have hdm : rank d < rank m := hrank _ _ hdep
  refine ⟨by rw [List.any_cons, hbad]; rfl, ?_, h1.mono m (by simp [hs]), fun h => Bool.noConfusion h, fun h => Bool.noConfusion h, h1.once⟩
  intro k _
  rcases h1.change k with e1 | ⟨a1, b1, c1⟩
  · exact Or.inl e1
  · exact Or.inr ⟨Nat.lt_of_le_of_lt a1 hdm, .step hdep b1, c1⟩

theorem Good.after {body : M → List (Stmt M)} {rank : M → Nat} {bad : M → Bool} {r : Nat} {m : M} {s s' : State M} {ok : Bool}
    (hg : Good body rank bad r s) (h : Post body rank bad m s s' ok) : Good body rank bad r s' := by
  intro k hk
  rcases h.change k with e | ⟨-, -, e⟩
  · rw [e]; exact hg k hk
  · exact Or.inr ⟨e.2.1, e.2.2.1⟩

theorem runBody_post {body : M → List (Stmt M)} {rank : M → Nat} {bad : M → Bool} (T : Table body rank bad) (imp : M → State M → State M × Bool) (m : M)
    (hi : ∀ d s, rank d < rank m → Good body rank bad (rank d + 1) s → Post body rank bad d s (imp d s).1 (imp d s).2) :
    ∀ sts P (s : State M), (∀ st ∈ sts, st ∈ body m) → s.ns m = some P → Good body rank bad (rank m) s →
      PostBody body rank bad m sts P s (runBody imp m sts s).1 (runBody imp m sts s).2 := by
  have hrank : ∀ k j, Dep body k j → rank j < rank k := fun k j ⟨st, h1, h2⟩ => T.acyclic k st h1 j h2
  intro sts
  induction sts with
  | nil =>
    intro P s _ hs _
    refine ⟨rfl, fun k _ => Or.inl rfl, by simp [runBody, hs], fun _ => by simp [runBody, hs], fun _ st h => by simp at h, fun _ => StartedOnce.refl s⟩
  | cons st rest ih =>
    intro P s hin hs hg
    have hrest : ∀ st ∈ rest, st ∈ body m := fun x hx => hin x (List.mem_cons_of_mem _ hx)
    -- the state after a successful import and binding
    have next : ∀ (d : M) (s1 : State M) (ok1 : Bool), Post body rank bad d s s1 ok1 → rank d < rank m →
        PostBody body rank bad m rest (P ++ st.names) (s1.addNames m st.names) (runBody imp m rest (s1.addNames m st.names)).1 (runBody imp m rest (s1.addNames m st.names)).2 := by
      intro d s1 ok1 h1 hd
      have hm1 : s1.ns m = some P := by
        rcases h1.change m with e | ⟨e, -⟩
        · rw [e, hs]
        · omega
      apply ih _ _ hrest
      · rw [addNames_ns, if_pos rfl, hm1]; rfl
      · intro k hk
        rw [addNames_ns, if_neg (by rintro rfl; omega)]
        exact hg.after h1 k hk
    cases st with
    | bind names =>
      have hb : PostBody body rank bad m rest (P ++ names) (s.addNames m names) (runBody imp m rest (s.addNames m names)).1 (runBody imp m rest (s.addNames m names)).2 := by
        apply ih _ _ hrest
        · rw [addNames_ns, if_pos rfl, hs]; rfl
        · intro k hk
          rw [addNames_ns, if_neg (by rintro rfl; omega)]
          exact hg k hk
      have hadd : ∀ k, s.ns k ≠ none → (s.addNames m names).ns k ≠ none := by
        intro k hk
        rw [addNames_ns]; split_ifs
        · simp
        · exact hk
      simp only [runBody]
      refine ⟨?_, ?_, hb.self, ?_, ?_, ?_⟩
      · rw [hb.ok_eq]; simp [stBad]
      · intro k hk
        rcases hb.change k hk with e | ⟨a, b, c⟩
        · rw [addNames_ns, if_neg hk] at e; exact Or.inl e
        · refine Or.inr ⟨a, b, ?_, c.2⟩
          have := c.1
          rwa [addNames_ns, if_neg hk] at this
      · intro h; rw [hb.loaded h]; simp [Stmt.names]
      · intro h st' hst' d' hd'
        rcases List.mem_cons.mp hst' with rfl | hin'
        · simp [Stmt.target] at hd'
        · exact hb.deps h st' hin' d' hd'
      · intro hbad
        refine StartedOnce.trans (startedOnce_addNames s m names (by simp [hs])) (hb.once hbad) hadd ?_
        intro k hk
        by_cases hkm : k = m
        · rw [hkm]; exact hb.self
        · rcases hb.change k hkm with e | ⟨-, -, e⟩
          · rwa [e]
          · exact absurd e.1 hk
    | importAs d as =>
      have hdep : Dep body m d := ⟨_, hin _ List.mem_cons_self, rfl⟩
      have hd := hrank _ _ hdep
      have h1 := hi d s hd (fun k hk => hg k (by omega))
      have hn := next d _ _ h1 hd
      simp only [runBody]
      rcases hr : imp d s with ⟨s1, ok1⟩
      rw [hr] at h1 hn
      simp only at h1 hn
      cases ok1 with
      | false =>
        have : bad d = true := by have := h1.ok_eq; simpa using this.symm
        exact PostBody.fail hdep hrank (by simp [stBad, this]) hs h1
      | true =>
        have : bad d = false := by have := h1.ok_eq; simpa using this.symm
        exact PostBody.step hdep rfl hrank (by simp [stBad, this]) hs h1 hn
    | fromImport d names =>
      have hdep : Dep body m d := ⟨_, hin _ List.mem_cons_self, rfl⟩
      have hd := hrank _ _ hdep
      have h1 := hi d s hd (fun k hk => hg k (by omega))
      have hn := next d _ _ h1 hd
      simp only [runBody]
      rcases hr : imp d s with ⟨s1, ok1⟩
      rw [hr] at h1 hn
      simp only at h1 hn
      cases ok1 with
      | false =>
        have : bad d = true := by have := h1.ok_eq; simpa using this.symm
        exact PostBody.fail hdep hrank (by simp [stBad, this]) hs h1
      | true =>
        have hbd : bad d = false := by have := h1.ok_eq; simpa using this.symm
        have hl := h1.loaded rfl
        simp only [hl, Option.getD_some]
        split_ifs with hc
        · exact PostBody.step hdep rfl hrank (by simp only [stBad, hbd, hc]; rfl) hs h1 hn
        · exact PostBody.fail hdep hrank (by simp only [stBad, hbd, Bool.false_or]; simp only [Bool.not_eq_true] at hc; rw [hc]; rfl) hs h1

theorem importMod_post {body : M → List (Stmt M)} {rank : M → Nat} {bad : M → Bool} (T : Table body rank bad) :
    ∀ fuel m (s : State M), rank m < fuel → Good body rank bad (rank m + 1) s →
      Post body rank bad m s (importMod body fuel m s).1 (importMod body fuel m s).2 := by
  intro fuel
  have hrank : ∀ k j, Dep body k j → rank j < rank k := fun k j ⟨st, h1, h2⟩ => T.acyclic k st h1 j h2
  induction fuel with
  | zero => intro m s h; omega
  | succ fuel ih =>
    intro m s hf hg
    simp only [importMod]
    rcases hm : s.ns m with _ | P
    · simp only
      set s0 : State M := ⟨(s.set m (some [])).ns, m :: s.started⟩ with hs0
      have ns0 : ∀ k, s0.ns k = if k = m then some [] else s.ns k := fun k => rfl
      have hb := runBody_post T (importMod body fuel) m (fun d s hd hg => ih d s (by omega) hg) (body m) [] s0 (fun _ h => h) (by rw [ns0, if_pos rfl]) (by
        intro k hk
        rw [ns0, if_neg (by rintro rfl; omega)]
        exact hg k (by omega))
      have mono : ∀ k, s0.ns k ≠ none → (runBody (importMod body fuel) m (body m) s0).1.ns k ≠ none := by
        intro k hk
        by_cases hkm : k = m
        · rw [hkm]; exact hb.self
        · rcases hb.change k hkm with e | ⟨-, -, e⟩
          · rwa [e]
          · exact absurd e.1 hk
      rcases hr : runBody (importMod body fuel) m (body m) s0 with ⟨s', ok⟩
      rw [hr] at hb mono
      simp only at hb mono
      have hok : ok = !bad m := by rw [hb.ok_eq, T.bad_iff m]
      cases ok with
      | true =>
        have hbm : bad m = false := by simpa using hok.symm
        have hl : s'.ns m = some (exports body m) := by rw [hb.loaded rfl]; rfl
        refine ⟨hok, ?_, fun _ => hl, ?_⟩
        · intro k
          by_cases hkm : k = m
          · subst hkm
            exact Or.inr ⟨Nat.le_refl _, .refl _, hm, hl, hbm, fun d ⟨st, h1, h2⟩ => hb.deps rfl st h1 d h2⟩
          · rcases hb.change k hkm with e | ⟨a, b, c⟩
            · rw [ns0, if_neg hkm] at e; exact Or.inl e
            · have := c.1
              rw [ns0, if_neg hkm] at this
              exact Or.inr ⟨Nat.le_of_lt a, b, this, c.2⟩
        · intro hbad
          obtain ⟨new, e, hnd, hi⟩ := hb.once hbad
          refine ⟨new ++ [m], by rw [e, hs0]; simp, ?_, ?_⟩
          · rw [List.nodup_append']
            refine ⟨hnd, List.nodup_singleton m, fun k h1 h2 => ?_⟩
            rw [List.mem_singleton] at h2
            have := ((hi k).mp h1).1
            rw [ns0, if_pos h2] at this
            cases this
          · intro k
            rw [List.mem_append, List.mem_singleton, hi, ns0]
            by_cases hkm : k = m
            · subst hkm
              simp [hm, hl]
            · simp [hkm]
      | false =>
        have hbm : bad m = true := by simpa using hok.symm
        refine ⟨hok, ?_, fun h => Bool.noConfusion h, fun h => absurd (h m) (by simp [hbm])⟩
        intro k
        have set_ns : ∀ k, (s'.set m none).ns k = if k = m then none else s'.ns k := fun k => rfl
        by_cases hkm : k = m
        · left; rw [set_ns, if_pos hkm, hkm, hm]
        · rw [set_ns, if_neg hkm]
          rcases hb.change k hkm with e | ⟨a, b, c⟩
          · rw [ns0, if_neg hkm] at e; exact Or.inl e
          · have h1 := c.1
            rw [ns0, if_neg hkm] at h1
            refine Or.inr ⟨Nat.le_of_lt a, b, h1, by rw [set_ns, if_neg hkm]; exact c.2.1, c.2.2.1, fun d hd => ?_⟩
            rw [set_ns, if_neg]
            · exact c.2.2.2 d hd
            · rintro rfl
              have := hrank _ _ hd
              omega
    · simp only
      have := hg m (by omega)
      rw [hm] at this
      rcases this with h | ⟨h, hb⟩
      · cases h
      · refine ⟨by rw [hb]; rfl, fun k => Or.inl rfl, fun _ => by rw [hm, h], fun _ => StartedOnce.refl s⟩

end Imports
end RMT
