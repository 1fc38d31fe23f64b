import Verif.Model.Brody
import Verif.Spec.Ecdf
import Verif.Spec.Counting
import Verif.Lemmas.Sort
import Verif.Lemmas.Ensemble
import Mathlib.Analysis.SpecialFunctions.Gamma.BohrMollerup
import Mathlib.Analysis.Complex.ExponentialBounds
import Mathlib.Data.List.Count

/-! # Lemmas on the Brody fits -/

namespace RMT
namespace Brody
open Real Ensembles EigValsM Spec

/-! ## The Gamma function on [1, 2] -/

theorem Gamma_le_one {x : ℝ} (h1 : 1 ≤ x) (h2 : x ≤ 2) : Gamma x ≤ 1 := by
  have h := convexOn_Gamma.2 (show (1 : ℝ) ∈ Set.Ioi 0 by simp) (show (2 : ℝ) ∈ Set.Ioi 0 by simp)
    (show 0 ≤ 2 - x by linarith) (show 0 ≤ x - 1 by linarith) (by ring)
  rw [Gamma_one, Gamma_two'] at h
  simp only [smul_eq_mul] at h
  rw [show (2 - x) * 1 + (x - 1) * 2 = x by ring] at h
  linarith

/-- Lower bound from convexity through the point 3/2. -/
theorem Gamma_ge {x : ℝ} (h1 : 1 ≤ x) (h2 : x ≤ 2) : √π - 1 ≤ Gamma x := by
  have hg := Gamma_three_half
  have hp : √π < 2 := by
    rw [sqrt_lt' (by norm_num)]; linarith [pi_lt_d2]
  -- 3/2 lies between x and its mirror image 3 - x, both in [1, 2]
  have h := convexOn_Gamma.2 (show x ∈ Set.Ioi 0 by simp; linarith) (show 3 - x ∈ Set.Ioi (0 : ℝ) by simp; linarith)
    (show (0 : ℝ) ≤ 1 / 2 by norm_num) (show (0 : ℝ) ≤ 1 / 2 by norm_num) (by norm_num)
  simp only [smul_eq_mul] at h
  rw [show 1 / 2 * x + 1 / 2 * (3 - x) = 3 / 2 by ring, hg] at h
  have := Gamma_le_one (x := 3 - x) (by linarith) (by linarith)
  linarith

theorem sqrt_pi_gt : (1.77 : ℝ) < √π := by
  rw [lt_sqrt (by norm_num)]; have := pi_gt_d2; norm_num at this ⊢; linarith

theorem arg_mem {beta : ℝ} (h0 : 0 ≤ beta) : 1 ≤ (beta + 2) / (beta + 1) ∧ (beta + 2) / (beta + 1) ≤ 2 := by
  have : 0 < beta + 1 := by linarith
  constructor
  · rw [le_div_iff₀ this]; linarith
  · rw [div_le_iff₀ this]; linarith

theorem alpha_le_one {beta : ℝ} (h0 : 0 ≤ beta) : brodyAlpha beta ≤ 1 := by
  obtain ⟨h1, h2⟩ := arg_mem h0
  exact rpow_le_one (Gamma_pos_of_pos (by linarith)).le (Gamma_le_one h1 h2) (by linarith)

theorem alpha_ge {beta : ℝ} (h0 : 0 ≤ beta) (hb : beta ≤ 1) : (0.59 : ℝ) ≤ brodyAlpha beta := by
  obtain ⟨h1, h2⟩ := arg_mem h0
  have hg := Gamma_ge h1 h2
  have hs := sqrt_pi_gt
  have h77 : (0.77 : ℝ) ≤ Gamma ((beta + 2) / (beta + 1)) := by norm_num at hs ⊢; linarith
  have hG : 0 < Gamma ((beta + 2) / (beta + 1)) := Gamma_pos_of_pos (by linarith)
  have : Gamma ((beta + 2) / (beta + 1)) ^ (2 : ℝ) ≤ brodyAlpha beta :=
    rpow_le_rpow_of_exponent_ge hG (Gamma_le_one h1 h2) (by linarith)
  rw [rpow_two] at this
  nlinarith

/-! ## Values of the density -/

theorem dist_one (beta : ℝ) : brodyDist 1 beta = (beta + 1) * (brodyAlpha beta * exp (-brodyAlpha beta)) := by
  simp [brodyDist]; ring

theorem mul_exp_neg_le (x : ℝ) : x * exp (-x) ≤ exp (-1) := by
  have h := add_one_le_exp (x - 1)
  have h2 : x ≤ exp (x - 1) := by linarith
  calc x * exp (-x) ≤ exp (x - 1) * exp (-x) := mul_le_mul_of_nonneg_right h2 (exp_pos _).le
    _ = exp (-1) := by rw [← exp_add]; congr 1; ring

theorem dist_one_le {beta : ℝ} (h0 : 0 ≤ beta) : brodyDist 1 beta ≤ (beta + 1) * exp (-1) := by
  rw [dist_one]
  exact mul_le_mul_of_nonneg_left (mul_exp_neg_le _) (by linarith)

theorem dist_one_ge {beta : ℝ} (h0 : 0 ≤ beta) (hb : beta ≤ 1) : (beta + 1) * (0.59 * exp (-1)) ≤ brodyDist 1 beta := by
  rw [dist_one]
  apply mul_le_mul_of_nonneg_left _ (by linarith)
  apply mul_le_mul (alpha_ge h0 hb) _ (exp_pos _).le (by linarith [alpha_ge h0 hb])
  exact exp_le_exp.mpr (by linarith [alpha_le_one h0])

theorem dist_pos {s beta : ℝ} (hs : 0 < s) (h0 : 0 ≤ beta) : 0 < brodyDist s beta := by
  have h1 := brodyAlpha_pos beta (by linarith)
  have h2 := rpow_pos_of_pos hs beta
  have h3 := exp_pos (-brodyAlpha beta * s ^ (beta + 1))
  simp only [brodyDist]; positivity

/-- The density at a spacing `s ≤ 1` is at most `(beta + 1) s ^ beta`. -/
theorem dist_le {s beta : ℝ} (hs : 0 < s) (h0 : 0 ≤ beta) : brodyDist s beta ≤ (beta + 1) * s ^ beta := by
  have ha := alpha_le_one h0
  have hp := brodyAlpha_pos beta (by linarith)
  have h2 := rpow_pos_of_pos hs beta
  have h4 := rpow_pos_of_pos hs (beta + 1)
  have h3 : exp (-brodyAlpha beta * s ^ (beta + 1)) ≤ 1 := exp_le_one_iff.mpr (by nlinarith)
  simp only [brodyDist]
  have e : (beta + 1) * brodyAlpha beta * s ^ beta ≤ (beta + 1) * s ^ beta := by
    have : 0 ≤ (beta + 1) * s ^ beta := by positivity
    nlinarith
  have : 0 ≤ (beta + 1) * brodyAlpha beta * s ^ beta := by positivity
  nlinarith

theorem exp_neg_one_bounds : (0.3678 : ℝ) < exp (-1) ∧ exp (-1) < (0.3679 : ℝ) := by
  have h1 := exp_one_gt_d9
  have h2 := exp_one_lt_d9
  rw [exp_neg]
  constructor
  · rw [lt_inv_comm₀ (by norm_num) (exp_pos _)]; norm_num at h2 ⊢; linarith
  · rw [inv_lt_comm₀ (exp_pos _) (by norm_num)]; norm_num at h1 ⊢; linarith

/-! ## Letter case -/

theorem upperOf_toNat (b : Char) (h : 'a' ≤ b ∧ b ≤ 'z') : (upperOf b).toNat = b.toNat - 32 ∧ 97 ≤ b.toNat ∧ b.toNat ≤ 122 := by
  have h1 : 97 ≤ b.toNat := UInt32.le_iff_toNat_le.mp h.1
  have h2 : b.toNat ≤ 122 := UInt32.le_iff_toNat_le.mp h.2
  refine ⟨?_, h1, h2⟩
  rw [upperOf, if_pos h, Char.ofNat, dif_pos (Or.inl (by omega))]
  rfl

theorem toLower_iff (c b : Char) (h : 'a' ≤ b ∧ b ≤ 'z') : c.toLower = b ↔ c = b ∨ c = upperOf b := by
  obtain ⟨hu, h1, h2⟩ := upperOf_toNat b h
  have key : ∀ x y : Char, x = y ↔ x.toNat = y.toNat := fun x y => ⟨fun e => by rw [e], fun e => Char.toNat_inj.mp e⟩
  simp only [Char.toLower]
  split
  · rename_i hc
    have c1 : 65 ≤ c.toNat := UInt32.le_iff_toNat_le.mp hc.1
    have c2 : c.toNat ≤ 90 := UInt32.le_iff_toNat_le.mp hc.2
    rw [key, key c, key c, hu]
    have e : (c.val + ('a'.val - 'A'.val)).toNat = c.toNat + 32 := by
      rw [UInt32.toNat_add]
      have : ('a'.val - 'A'.val).toNat = 32 := by decide
      rw [this]
      exact Nat.mod_eq_of_lt (by have : c.val.toNat = c.toNat := rfl; omega)
    have e' : ∀ hv, (Char.mk (c.val + ('a'.val - 'A'.val)) hv).toNat = c.toNat + 32 := fun _ => e
    rw [e']
    omega
  · rename_i hc
    constructor
    · intro e; exact Or.inl e
    · rintro (e | e)
      · exact e
      · exfalso
        apply hc
        rw [key, hu] at e
        constructor
        · exact UInt32.le_iff_toNat_le.mpr (show 65 ≤ c.toNat by omega)
        · exact UInt32.le_iff_toNat_le.mpr (show c.toNat ≤ 90 by omega)

theorem lower_eq_iff (s t : List Char) (ht : ∀ b ∈ t, 'a' ≤ b ∧ b ≤ 'z') :
    s.map Char.toLower = t ↔ List.Forall₂ (fun a b => a = b ∨ a = upperOf b) s t := by
  induction t generalizing s with
  | nil => cases s <;> simp
  | cons b t ih =>
    cases s with
    | nil => simp
    | cons c s =>
      rw [List.map_cons, List.cons.injEq, List.forall₂_cons, toLower_iff c b (ht b List.mem_cons_self),
        ih s fun b hb => ht b (List.mem_cons_of_mem _ hb)]

end Brody
end RMT
