import Verif.Lemmas.MelIeee
import Verif.Model.SparseIeee

/-! # Lemmas for C122: the weights of the sparse renderer in single precision -/

namespace Neo

open Spec

/-- Scaling the frequency changes the logarithm of its square plus a constant by no more than that of its square. -/
theorem logb_shift {q c ψ e : ℝ} (hq : 0 < q) (hc : 0 ≤ c) (hψ : 0 < ψ) (h : |Real.logb 10 ψ| ≤ e) :
    |Real.logb 10 (q * ψ + c) - Real.logb 10 (q + c)| ≤ e := by
  have hqψ : 0 < q * ψ := mul_pos hq hψ
  have h1 : 0 < q * ψ + c := by linarith
  have h2 : 0 < q + c := by linarith
  rw [← Real.logb_div h1.ne' h2.ne']
  rw [abs_le] at h ⊢
  have he : 0 ≤ e := by linarith
  have hr : 0 < (q * ψ + c) / (q + c) := div_pos h1 h2
  rcases le_total ψ 1 with hle | hle
  · constructor
    · refine h.1.trans ((Real.logb_le_logb (by norm_num) hψ hr).2 ?_)
      rw [le_div_iff₀ h2]
      nlinarith
    · refine le_trans ?_ he
      refine Real.logb_nonpos (by norm_num) hr.le ?_
      rw [div_le_one h2]
      nlinarith
  · constructor
    · have : 0 ≤ Real.logb 10 ((q * ψ + c) / (q + c)) := by
        refine Real.logb_nonneg (by norm_num) ?_
        rw [le_div_iff₀ h2]
        nlinarith
      linarith
    · refine le_trans ((Real.logb_le_logb (by norm_num) hr hψ).2 ?_) h.2
      rw [div_le_iff₀ h2]
      nlinarith

/-- The A-weighting changes little with the frequency. -/
theorem aWeight_shift {g φ e : ℝ} (hg : 0 < g) (hφ : 0 < φ) (h : |Real.logb 10 φ| ≤ e) : |aWeight (g * φ) - aWeight g| ≤ 200 * e := by
  have hgφ := mul_pos hg hφ
  have hq : 0 < g * g := mul_pos hg hg
  have hψ : 0 < φ * φ := mul_pos hφ hφ
  have h2 : |Real.logb 10 (φ * φ)| ≤ 2 * e := by
    rw [Real.logb_mul hφ.ne' hφ.ne', show Real.logb 10 φ + Real.logb 10 φ = 2 * Real.logb 10 φ by ring, abs_mul]
    norm_num
    linarith
  have e1 : g * φ * (g * φ) = g * g * (φ * φ) := by ring
  have S := fun c (hc : 0 ≤ c) => logb_shift hq hc hψ h2
  have s0 := S 0 le_rfl
  have s1 := S (12194.217 * 12194.217) (by norm_num)
  have s2 := S (20.598997 * 20.598997) (by norm_num)
  have s3 := S (107.65265 * 107.65265) (by norm_num)
  have s4 := S (737.86223 * 737.86223) (by norm_num)
  rw [add_zero, add_zero] at s0
  rw [aWeight_logs hgφ.ne', aWeight_logs hg.ne', e1]
  rw [abs_le] at *
  constructor <;> linarith

end Neo
