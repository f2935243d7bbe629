import Verif.Lemmas.AWeightIeee
import Mathlib.Analysis.SpecialFunctions.Pow.Real

/-! # Lemmas for C121: mel frequencies in IEEE 754 arithmetic -/

namespace Neo

open Spec

variable {f : Fmt}

theorem ofNat_exact (hf : f.Ieee) {n : ℕ} (hn : n < 2 ^ f.p) (hE : (n : ℝ) < (2 : ℝ) ^ f.emax) : ofNat f n = .fin n := by
  refine round_mem ⟨n, 0, ?_, ?_, by norm_num⟩ ?_
  · rw [abs_of_nonneg (by positivity)]
    exact_mod_cast hn
  · have := hf.2.2; have := hf.2.1; omega
  · rw [abs_of_nonneg (by positivity)]
    exact hE

theorem u_le_twelve (h12 : 12 ≤ f.p) : f.u ≤ 1 / 4096 := by
  have : (2 : ℝ) ^ (-(f.p : ℤ)) ≤ (2 : ℝ) ^ (-12 : ℤ) := zpow_le_zpow_right₀ (by norm_num) (by omega)
  have e : (2 : ℝ) ^ (-12 : ℤ) = 1 / 4096 := by norm_num
  rw [e] at this
  exact this

theorem log_ten_bounds : 2 ≤ Real.log 10 ∧ Real.log 10 ≤ 3 := by
  have e : Real.log 8 = 3 * Real.log 2 := by
    rw [show (8 : ℝ) = 2 ^ 3 by norm_num, Real.log_pow]; norm_num
  have e2 : Real.log 16 = 4 * Real.log 2 := by
    rw [show (16 : ℝ) = 2 ^ 4 by norm_num, Real.log_pow]; norm_num
  have m : Real.log 8 ≤ Real.log 10 := Real.log_le_log (by norm_num) (by norm_num)
  have m2 : Real.log 10 ≤ Real.log 16 := Real.log_le_log (by norm_num) (by norm_num)
  have := Real.log_two_gt_d9
  have := Real.log_two_lt_d9
  constructor <;> linarith

/-- A power of ten with a small exponent is near one. -/
theorem pow10_near {δ D : ℝ} (h : |δ| ≤ D) (hD : D ≤ 1 / 3) : |(10 : ℝ) ^ δ - 1| ≤ 6 * D := by
  have h10 := log_ten_bounds
  rw [Real.rpow_def_of_pos (by norm_num)]
  have ha : |Real.log 10 * δ| ≤ 3 * D := by
    rw [abs_mul, abs_of_pos (by linarith)]
    exact mul_le_mul h10.2 h (abs_nonneg _) (by norm_num)
  have := Real.abs_exp_sub_one_le (x := Real.log 10 * δ) (by linarith)
  linarith

/-- The logarithm of a number near one. -/
theorem logb_near {θ d : ℝ} (h : |θ| ≤ d) (hd : d ≤ 1 / 3) : |Real.logb 10 (1 + θ)| ≤ d := by
  have h10 := log_ten_bounds
  rw [abs_le] at h
  have hp : 0 < 1 + θ := by linarith
  have a := Real.log_le_sub_one_of_pos hp
  have b := Real.one_sub_inv_le_log_of_pos hp
  have hd0 : 0 ≤ d := by linarith
  have c : -(2 * d) ≤ 1 - (1 + θ)⁻¹ := by
    rw [neg_le, neg_sub, inv_eq_one_div, sub_le_iff_le_add, div_le_iff₀ hp]
    nlinarith
  unfold Real.logb
  rw [abs_div, abs_of_pos (by linarith : (0 : ℝ) < Real.log 10), div_le_iff₀ (by linarith), abs_le]
  have := mul_le_mul_of_nonneg_left h10.1 hd0
  constructor <;> linarith

end Neo
