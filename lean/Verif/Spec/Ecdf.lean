import Mathlib.Data.Real.Basic

/-! # Specification: empirical distribution function and letter case -/

namespace RMT.Spec

/-- The empirical distribution function of the sample `s` at `x`: the fraction of the sample that is at most `x`. -/
noncomputable def ecdfAt (s : List ℝ) (x : ℝ) : ℝ := ((s.filter fun v => v ≤ x).length : ℝ) / s.length

/-- Upper case of the letters a-z. -/
def upperOf (c : Char) : Char := if 'a' ≤ c ∧ c ≤ 'z' then Char.ofNat (c.toNat - 32) else c

/-- `s` is spelled like `t` up to the case of the letters; `t` is in lower case. -/
def SameUpToCase (s t : String) : Prop := List.Forall₂ (fun a b => a = b ∨ a = upperOf b) s.toList t.toList

end RMT.Spec
