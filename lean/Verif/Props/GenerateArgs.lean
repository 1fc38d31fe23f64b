import Verif.Model.GenerateArgs
import Verif.Lemmas.Sort

/-!
# C190: which calls of `generate` fail, and what a failing call leaves behind
-/

namespace RMT
namespace Props
open Gen EigM EigValsM Unfold

variable {σ : Type}

/-- A seed which NumPy accepts. -/
def ValidSeed : Option Int → Prop
  | none => True
  | some k => 0 ≤ k ∧ k < 2 ^ 32

theorem seed_ok (R : Rng σ) (k : MatrixKind) (e s : σ) (seed : Option Int) (h : ValidSeed seed) :
    seedArg R k e s seed = .ok (match seed with | some j => R.seed j.toNat | none => if k = .poisson then e else s) := by
  cases seed with
  | none => rfl
  | some j =>
    have : ¬ (j < 0 ∨ 2 ^ 32 ≤ j) := by
      have := h.1
      have := h.2
      omega
    simp only [seedArg, npSeedInt, if_neg this]

theorem seed_bad (R : Rng σ) (k : MatrixKind) (e s : σ) (seed : Option Int) (h : ¬ ValidSeed seed) : seedArg R k e s seed = .error .valueError := by
  cases seed with
  | none => exact absurd trivial h
  | some j =>
    have : j < 0 ∨ 2 ^ 32 ≤ j := by
      by_contra hc
      refine h ⟨?_, ?_⟩ <;> omega
    simp only [seedArg, npSeedInt, if_pos this]

theorem generate_kind_ok (R : Rng σ) (eh : EigSolver) (ehC : (n : Nat) → Matrix (Fin n) (Fin n) ℂ → List ℝ) (n : Nat) (k : MatrixKind) (hk : k ≠ .uniform) (seed : Option Nat) (tri : Bool) (e s : σ) :
    ∃ o, (generate R eh ehC n (.kind k) seed tri e s).1 = .ok (o, k) := by
  cases k with
  | uniform => exact absurd rfl hk
  | poisson => simp only [generate, KindArg.validate, mkGenerated, initEigVals1d_ok, bind, Except.bind]; exact ⟨_, rfl⟩
  | goe => simp only [generate, KindArg.validate, mkGenerated, initEigVals1d_ok, bind, Except.bind]; exact ⟨_, rfl⟩
  | gue => simp only [generate, KindArg.validate, mkGenerated, initEigVals1d_ok, bind, Except.bind]; exact ⟨_, rfl⟩

theorem validate_kind (k : MatrixKind) : (KindArg.kind k).validate = .ok k := rfl

/-- **C190.** For a size `n >= 0` and an accepted seed the call is that of the other theorems on `generate`. -/
theorem C190_agrees (R : Rng σ) (eh : EigSolver) (ehC : (n : Nat) → Matrix (Fin n) (Fin n) ℂ → List ℝ) (n : Nat) (kind : KindArg) (seed : Option Nat) (hs : ∀ k ∈ seed, k < 2 ^ 32) (tri : Bool) (e s : σ) :
    generateInt R eh ehC n kind (seed.map Int.ofNat) tri e s = generate R eh ehC n kind seed tri e s := by
  have hv : ValidSeed (seed.map Int.ofNat) := by
    cases seed with
    | none => trivial
    | some k =>
      refine ⟨Int.natCast_nonneg k, ?_⟩
      have h := hs k rfl
      change (k : Int) < 2 ^ 32
      exact_mod_cast h
  have hn : ¬ ((n : Int) < 0) := by omega
  unfold generateInt
  rcases hk : kind.validate with err | k
  · simp [generate, hk]
  · cases k <;> cases seed <;> simp only [seed_ok R _ e s _ hv] <;>
      simp [generate, hk, validate_kind, generateGUE, goeMatrix, generateGOEMatrix, generateGOETridiagonal, seedIfGiven, hn]

/-- **C190.** Which calls raise, and with what: an unknown kind and `'uniform'` first, then a seed NumPy rejects, then a negative size. Every other call returns an object of the requested kind. -/
theorem C190_raises (R : Rng σ) (eh : EigSolver) (ehC : (n : Nat) → Matrix (Fin n) (Fin n) ℂ → List ℝ) (size : Int) (kind : KindArg) (seed : Option Int) (tri : Bool) (e s : σ) :
    (∀ err, kind.validate = .error err → (generateInt R eh ehC size kind seed tri e s).1 = .error err) ∧
    (kind.validate = .ok .uniform → (generateInt R eh ehC size kind seed tri e s).1 = .error .notImplementedError) ∧
    (∀ k, kind.validate = .ok k → k ≠ .uniform →
      (¬ ValidSeed seed ∨ size < 0 → (generateInt R eh ehC size kind seed tri e s).1 = .error .valueError) ∧
      (ValidSeed seed → 0 ≤ size → ∃ o, (generateInt R eh ehC size kind seed tri e s).1 = .ok (o, k))) := by
  refine ⟨fun err h => by simp [generateInt, h], fun h => by simp [generateInt, h], fun k h hk => ⟨fun hb => ?_, fun hv hn => ?_⟩⟩
  · by_cases hv : ValidSeed seed
    · have hn := hb.resolve_left (not_not.2 hv)
      cases k with
      | uniform => exact absurd rfl hk
      | _ => simp [generateInt, h, seed_ok R _ e s _ hv, hn]
    · cases k with
      | uniform => exact absurd rfl hk
      | _ => simp [generateInt, h, seed_bad R _ e s _ hv]
  · have hn' : ¬ size < 0 := by omega
    cases k with
    | uniform => exact absurd rfl hk
    | _ =>
      simp only [generateInt, h, seed_ok R _ e s _ hv, if_neg hn']
      exact generate_kind_ok _ _ _ _ _ (by simp) _ _ _ _

/-- **C190.** A failing call draws no random number. It leaves the random state as it was, unless the only fault is a negative size: then the seeding has happened, with the given seed, or from entropy for an unseeded `'poisson'` call. -/
theorem C190_state (R : Rng σ) (eh : EigSolver) (ehC : (n : Nat) → Matrix (Fin n) (Fin n) ℂ → List ℝ) (size : Int) (kind : KindArg) (seed : Option Int) (tri : Bool) (e s : σ) (err : PyErr)
    (h : (generateInt R eh ehC size kind seed tri e s).1 = .error err) :
    (generateInt R eh ehC size kind seed tri e s).2 = s ∨
      (size < 0 ∧ ((∃ k : Int, seed = some k ∧ (generateInt R eh ehC size kind seed tri e s).2 = R.seed k.toNat) ∨
        (seed = none ∧ kind.validate = .ok .poisson ∧ (generateInt R eh ehC size kind seed tri e s).2 = e))) := by
  rcases hk : kind.validate with er | k
  · exact Or.inl (by simp [generateInt, hk])
  by_cases hu : k = .uniform
  · subst hu
    exact Or.inl (by simp [generateInt, hk])
  by_cases hv : ValidSeed seed
  · by_cases hn : size < 0
    · cases seed with
      | none =>
        by_cases hp : k = .poisson
        · subst hp
          exact Or.inr ⟨hn, Or.inr ⟨rfl, rfl, by simp [generateInt, hk, seedArg, hn]⟩⟩
        · left
          cases k with
          | uniform => exact absurd rfl hu
          | poisson => exact absurd rfl hp
          | _ => simp [generateInt, hk, seedArg, hn]
      | some j =>
        refine Or.inr ⟨hn, Or.inl ⟨j, rfl, ?_⟩⟩
        cases k with
        | uniform => exact absurd rfl hu
        | _ => simp [generateInt, hk, seed_ok R _ e s _ hv, hn]
    · obtain ⟨o, ho⟩ := ((C190_raises R eh ehC size kind seed tri e s).2.2 k hk hu).2 hv (by omega)
      rw [ho] at h
      cases h
  · left
    cases k with
    | uniform => exact absurd rfl hu
    | _ => simp [generateInt, hk, seed_bad R _ e s _ hv]

/-- **C190.** So an unseeded failing call of `'goe'` or `'gue'` can be caught and ignored: the next calls return what they would have returned without it. -/
theorem C190_retry (R : Rng σ) (eh : EigSolver) (ehC : (n : Nat) → Matrix (Fin n) (Fin n) ℂ → List ℝ) (size : Int) (kind : KindArg) (hk : kind.validate ≠ .ok .poisson) (tri : Bool) (e s : σ) (err : PyErr)
    (h : (generateInt R eh ehC size kind none tri e s).1 = .error err) : (generateInt R eh ehC size kind none tri e s).2 = s := by
  rcases C190_state R eh ehC size kind none tri e s err h with h1 | ⟨-, ⟨k, hk', -⟩ | ⟨-, h3, -⟩⟩
  · exact h1
  · cases hk'
  · exact absurd h3 hk

/-- The cases occur: a negative seed fails and changes nothing, a negative size with seed 7 fails after the seeding. -/
example (eh : EigSolver) (ehC : (n : Nat) → Matrix (Fin n) (Fin n) ℂ → List ℝ) :
    generateInt (⟨fun k => k, fun s => (0, s + 1), fun _ s => (0, s + 1)⟩ : Rng Nat) eh ehC 5 (.str "goe") (some (-1)) true 0 3 = (.error .valueError, 3) ∧
    generateInt (⟨fun k => k, fun s => (0, s + 1), fun _ s => (0, s + 1)⟩ : Rng Nat) eh ehC (-5) (.str "goe") (some 7) true 0 3 = (.error .valueError, 7) := by
  have hv : (KindArg.str "goe").validate = .ok .goe := by decide
  constructor <;> simp [generateInt, hv, seedArg, npSeedInt]

end Props
end RMT
