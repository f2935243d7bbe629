import Verif.Lemmas.UnitsIeee
import Verif.Model.AWeightIeee
import Verif.Spec.Sparse
import Verif.Lemmas.IeeeError
import Mathlib.Analysis.SpecialFunctions.Log.Base
import Mathlib.Analysis.Complex.ExponentialBounds

/-! # Lemmas for C120: the A-weighting in IEEE 754 arithmetic -/

namespace Neo

open Spec

variable {f : Fmt}

theorem Fac.mono (hf : f.Ieee) {j k : ℕ} (h : j ≤ k) {φ : ℝ} (hφ : Fac f j φ) : Fac f k φ := by
  have := hφ.mul hf (Fac.one hf (k - j))
  rwa [mul_one, Nat.add_sub_cancel' h] at this

theorem Ap.mono (hf : f.Ieee) {j k : ℕ} (h : j ≤ k) {t : ℝ} {v : FVal} (hv : Ap f j t v) : Ap f k t v := by
  obtain ⟨φ, e, hφ⟩ := hv
  exact ⟨φ, e, hφ.mono hf h⟩

/-- The sum of two positive numbers is no less accurate than they are, up to its own rounding. -/
theorem Ap.add (hf : f.Ieee) {k : ℕ} {s t : ℝ} {a b : FVal} (hs : 0 < s) (ht : 0 < t) (ha : Ap f k s a) (hb : Ap f k t b)
    (hk : k * f.u ≤ 1 / 8) (h1 : 2 * f.minNormal ≤ s + t) (h2 : 2 * (s + t) ≤ (2 : ℝ) ^ f.emax) :
    Ap f (k + 1) (s + t) (f.round (a.add b)) := by
  obtain ⟨φ, rfl, hφ⟩ := ha
  obtain ⟨ψ, rfl, hψ⟩ := hb
  have hst : 0 < s + t := by linarith
  have hχ : Fac f k ((s * φ + t * ψ) / (s + t)) := by
    constructor
    · rw [le_div_iff₀ hst]
      have a := mul_le_mul_of_nonneg_left hφ.1 hs.le
      have b := mul_le_mul_of_nonneg_left hψ.1 ht.le
      linarith
    · rw [div_mul_eq_mul_div, div_le_one hst]
      have a := mul_le_mul_of_nonneg_left hφ.2 hs.le
      have b := mul_le_mul_of_nonneg_left hψ.2 ht.le
      linarith
  have := Ap.round hf hχ hk h1 h2
  rw [mul_div_cancel₀ _ hst.ne'] at this
  exact this

/-- Constants of type `double` of moderate size: two roundings. -/
theorem ofDouble_ap_large (hf : f.Ieee) (h53 : f.p ≤ 53) {x : ℝ} (h1 : 1 ≤ x) (h1' : 2 * f.minNormal ≤ x) (h2 : 2 * x ≤ (2 : ℝ) ^ f.emax)
    (h3 : x ≤ 2 ^ 20) : Ap f 2 x (ofDouble f x) := by
  have hb := binary64_ieee
  obtain ⟨φ, e, hφ⟩ := rndInf_fac hb (t := x) ((minNormal_le_one hb).trans h1)
  have hφ' := hφ.coarser hb (u_coarser h53)
  have e2 : binary64.round (.fin x) = .fin (x * φ) := by
    rw [← e]
    refine round_fin_of_lt ?_
    have hφ2 := (hφ.near_one hb (by rw [Nat.cast_one, one_mul]; exact u_le hb)).2
    have hφ0 := hφ.pos hb
    rw [e, abs_of_pos (mul_pos (by linarith) hφ0)]
    have h8 : (2 : ℝ) ^ (21 : ℤ) ≤ (2 : ℝ) ^ binary64.emax := zpow_le_zpow_right₀ (by norm_num) (by norm_num [binary64])
    have e8 : (2 : ℝ) ^ (21 : ℤ) = 2097152 := by norm_num
    have : x * φ ≤ 2 ^ 20 * (8 / 7) := mul_le_mul h3 hφ2 hφ0.le (by norm_num)
    rw [e8] at h8
    norm_num at this
    linarith
  unfold ofDouble
  rw [e2]
  exact Ap.round hf hφ' (by rw [Nat.cast_one, one_mul]; exact u_le hf) h1' h2

/-- The logarithm of a factor near one. -/
theorem Fac.logb (hf : f.Ieee) {k : ℕ} (hk : k ≤ 6) {φ : ℝ} (h : Fac f k φ) : |Real.logb 10 φ| ≤ 4 * f.u := by
  have hu := u_pos f
  have h8 := u_le hf
  have hφ := h.pos hf
  have hv : 0 < 1 - f.u := by linarith
  have h' := h.mono hf hk
  have hl : Real.log (1 - f.u) ≥ -(8 / 7 * f.u) := by
    have := Real.one_sub_inv_le_log_of_pos hv
    refine le_trans ?_ this
    rw [neg_le, neg_sub, inv_eq_one_div, sub_le_iff_le_add, div_le_iff₀ hv]
    nlinarith
  have h10 : 2 ≤ Real.log 10 := by
    have e : Real.log 8 = 3 * Real.log 2 := by
      rw [show (8 : ℝ) = 2 ^ 3 by norm_num, Real.log_pow]; norm_num
    have m : Real.log 8 ≤ Real.log 10 := Real.log_le_log (by norm_num) (by norm_num)
    have := Real.log_two_gt_d9
    linarith
  have a : 6 * Real.log (1 - f.u) ≤ Real.log φ := by
    have := Real.log_le_log (pow_pos hv 6) h'.1
    rw [Real.log_pow] at this
    exact_mod_cast this
  have b : Real.log φ + 6 * Real.log (1 - f.u) ≤ 0 := by
    have := Real.log_le_log (mul_pos hφ (pow_pos hv 6)) h'.2
    rw [Real.log_mul hφ.ne' (pow_pos hv 6).ne', Real.log_pow, Real.log_one] at this
    exact_mod_cast this
  unfold Real.logb
  rw [abs_div, abs_of_pos (by linarith : (0 : ℝ) < Real.log 10), div_le_iff₀ (by linarith), abs_le]
  have := mul_le_mul_of_nonneg_left h10 (by linarith : 0 ≤ 4 * f.u)
  constructor <;> linarith

/-- The weighting as a sum of logarithms. -/
theorem aWeight_logs {g : ℝ} (hg : g ≠ 0) : Spec.aWeight g = 2 + 20 * (Real.logb 10 (12194.217 * 12194.217)
    + 2 * Real.logb 10 (g * g) - Real.logb 10 (g * g + 12194.217 * 12194.217) - Real.logb 10 (g * g + 20.598997 * 20.598997)
    - 0.5 * Real.logb 10 (g * g + 107.65265 * 107.65265) - 0.5 * Real.logb 10 (g * g + 737.86223 * 737.86223)) := by
  have hsq : 0 < g * g := mul_self_pos.2 hg
  have hc0 : (0 : ℝ) < 12194.217 * 12194.217 := by norm_num
  have hc1 : (0 : ℝ) < 20.598997 * 20.598997 := by norm_num
  have hc2 : (0 : ℝ) < 107.65265 * 107.65265 := by norm_num
  have hc3 : (0 : ℝ) < 737.86223 * 737.86223 := by norm_num
  unfold Spec.aWeight
  rw [show (12194.217 : ℝ) ^ 2 = 12194.217 * 12194.217 by ring, show g ^ 4 = (g * g) ^ 2 by ring,
    show g ^ 2 = g * g by ring,
    show (20.598997 : ℝ) ^ 2 = 20.598997 * 20.598997 by ring,
    show (107.65265 : ℝ) ^ 2 = 107.65265 * 107.65265 by ring,
    show (737.86223 : ℝ) ^ 2 = 737.86223 * 737.86223 by ring]
  generalize (12194.217 : ℝ) * 12194.217 = c0 at *
  generalize (20.598997 : ℝ) * 20.598997 = c1 at *
  generalize (107.65265 : ℝ) * 107.65265 = c2 at *
  generalize (737.86223 : ℝ) * 737.86223 = c3 at *
  generalize g * g = q at *
  rw [Real.logb_div (by positivity) (by positivity), Real.logb_mul hc0.ne' (by positivity),
    Real.logb_mul (by positivity) (by positivity), Real.logb_mul (by positivity) (by positivity),
    Real.sqrt_eq_rpow, Real.logb_rpow_eq_mul_logb_of_pos (by positivity),
    Real.logb_mul (by positivity) (by positivity), Real.logb_pow]
  push_cast
  ring

/-- The rounded logarithms of the sum, given as numbers. -/
theorem aWeight_sum (hf : f.Ieee) (h5 : 5 ≤ f.p) (hE : (2 : ℝ) ^ (12 : ℕ) ≤ (2 : ℝ) ^ f.emax)
    {l0 l1 l2 l3 l4 l5 : ℝ} (b0 : |l0| ≤ 13) (b1 : |l1| ≤ 13) (b2 : |l2| ≤ 13) (b3 : |l3| ≤ 13) (b4 : |l4| ≤ 13) (b5 : |l5| ≤ 13) :
    ∃ y, f.round ((FVal.fin 2).add (f.round ((ofNat f 20).mul (f.round ((f.round ((f.round ((f.round ((f.round
      ((FVal.fin l0).add (f.round ((FVal.fin 2).mul (.fin l1))))).sub (.fin l2))).sub (.fin l3))).sub
        (f.round ((FVal.fin 0.5).mul (.fin l4))))).sub (f.round ((FVal.fin 0.5).mul (.fin l5)))))))) = .fin y ∧
      |y - (2 + 20 * (l0 + 2 * l1 - l2 - l3 - 0.5 * l4 - 0.5 * l5))| ≤ 11300 * f.u := by
  have hu := u_pos f
  have h8 : f.u ≤ 1 / 32 := by
    have : (2 : ℝ) ^ (-(f.p : ℤ)) ≤ (2 : ℝ) ^ (-5 : ℤ) := zpow_le_zpow_right₀ (by norm_num) (by omega)
    have e : (2 : ℝ) ^ (-5 : ℤ) = 1 / 32 := by norm_num
    rw [e] at this
    exact this
  have hν := minNormal_le_one hf
  have hE' : (4096 : ℝ) ≤ (2 : ℝ) ^ f.emax := by
    rw [show (2 : ℝ) ^ (12 : ℕ) = 4096 by norm_num] at hE
    exact hE
  have R : ∀ (t T : ℝ), |t| ≤ T → 1 ≤ T → T ≤ 1900 → ∃ r, f.round (.fin t) = .fin r ∧ |r - t| ≤ f.u * T := by
    intro t T h1 h2 h3
    exact round_ok hf h1 (by linarith) (by nlinarith)
  have h20 : ofNat f 20 = .fin 20 := by
    refine round_mem ⟨20, 0, ?_, ?_, by norm_num⟩ ?_
    · have : (2 : ℤ) ^ 5 ≤ 2 ^ f.p := pow_le_pow_right₀ (by norm_num) h5
      rw [abs_of_pos (by norm_num)]
      linarith
    · have := hf.2.2; have := hf.2.1; omega
    · norm_num
      linarith
  rw [abs_le] at b0 b1 b2 b3 b4 b5
  obtain ⟨t1, e1, d1⟩ := R (2 * l1) 26 (by rw [abs_le]; constructor <;> linarith) (by norm_num) (by norm_num)
  rw [abs_le] at d1
  obtain ⟨s1, e2, d2⟩ := R (l0 + t1) 40 (by rw [abs_le]; constructor <;> linarith) (by norm_num) (by norm_num)
  rw [abs_le] at d2
  obtain ⟨s2, e3, d3⟩ := R (s1 + -l2) 56 (by rw [abs_le]; constructor <;> linarith) (by norm_num) (by norm_num)
  rw [abs_le] at d3
  obtain ⟨s3, e4, d4⟩ := R (s2 + -l3) 71 (by rw [abs_le]; constructor <;> linarith) (by norm_num) (by norm_num)
  rw [abs_le] at d4
  obtain ⟨t4, e5, d5⟩ := R (0.5 * l4) 7 (by rw [abs_le]; constructor <;> linarith) (by norm_num) (by norm_num)
  rw [abs_le] at d5
  obtain ⟨s4, e6, d6⟩ := R (s3 + -t4) 80 (by rw [abs_le]; constructor <;> linarith) (by norm_num) (by norm_num)
  rw [abs_le] at d6
  obtain ⟨t5, e7, d7⟩ := R (0.5 * l5) 7 (by rw [abs_le]; constructor <;> linarith) (by norm_num) (by norm_num)
  rw [abs_le] at d7
  obtain ⟨s5, e8, d8⟩ := R (s4 + -t5) 90 (by rw [abs_le]; constructor <;> linarith) (by norm_num) (by norm_num)
  rw [abs_le] at d8
  obtain ⟨m, e9, d9⟩ := R (20 * s5) 1860 (by rw [abs_le]; constructor <;> linarith) (by norm_num) (by norm_num)
  rw [abs_le] at d9
  obtain ⟨y, e10, d10⟩ := R (2 + m) 1900 (by rw [abs_le]; constructor <;> linarith) (by norm_num) (by norm_num)
  rw [abs_le] at d10
  refine ⟨y, ?_, ?_⟩
  · rw [h20]
    simp only [FVal.mul, FVal.add, FVal.sub, FVal.neg, e1, e2, e3, e4, e5, e6, e7, e8, e9, e10]
  · rw [abs_le]; constructor <;> linarith

end Neo
