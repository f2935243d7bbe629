import Verif.Lemmas.AnyArithMem
import Verif.Lemmas.NormIeee
import Verif.Lemmas.UpcRun
import Verif.Lemmas.Rounding
import Mathlib.Analysis.Complex.Norm

/-! # Error and range of IEEE 754 computations

A computed value is compared with an exact one relative to a bound of the latter, so that neither cancellation nor
underflow needs special treatment. -/

namespace Neo

open Spec Finset

variable {f : Fmt}

/-- Unit roundoff. -/
noncomputable def Spec.Fmt.u (f : Fmt) : ℝ := (2 : ℝ) ^ (-(f.p : ℤ))

/-- The smallest normal number. -/
noncomputable def Spec.Fmt.minNormal (f : Fmt) : ℝ := (2 : ℝ) ^ (f.emin + f.p - 1)

theorem u_pos (f : Fmt) : 0 < f.u := two_zpow_pos _

theorem minNormal_pos (f : Fmt) : 0 < f.minNormal := two_zpow_pos _

theorem u_le (hf : f.Ieee) : f.u ≤ 1 / 8 := by
  have h : (2 : ℝ) ^ (-(f.p : ℤ)) ≤ (2 : ℝ) ^ (-3 : ℤ) := zpow_le_zpow_right₀ (by norm_num) (by have := hf.1; omega)
  refine h.trans ?_
  norm_num

/-- Absolute error of rounding a number of magnitude at most `T`. -/
theorem rndInf_abs_err (hf : f.Ieee) {t T : ℝ} (ht : |t| ≤ T) (hT : f.minNormal ≤ T) : |f.rndInf t - t| ≤ f.u * T := by
  have hp : 1 ≤ f.p := by have := hf.1; omega
  rcases le_total f.minNormal |t| with h | h
  · exact (rndInf_rel hp h).trans (mul_le_mul_of_nonneg_left ht (u_pos f).le)
  · have h2 : |f.rndInf t - t| ≤ f.u * f.minNormal := by
      rcases h.eq_or_lt with e | hlt
      · rw [← e]
        exact rndInf_rel hp e.ge
      · by_cases h0 : t = 0
        · subst h0
          rw [rndInf_zero, sub_self, abs_zero]
          exact mul_nonneg (u_pos f).le (minNormal_pos f).le
        · refine (rndInf_err f t).trans ?_
          have hu : f.ulpExp t ≤ f.emin := ulpExp_le le_rfl (hlt.trans_le (zpow_le_zpow_right₀ (by norm_num) (by omega))) h0
          have h3 : (2 : ℝ) ^ f.ulpExp t ≤ (2 : ℝ) ^ f.emin := zpow_le_zpow_right₀ (by norm_num) hu
          have h4 : f.u * f.minNormal = (2 : ℝ) ^ f.emin / 2 := by
            unfold Spec.Fmt.u Spec.Fmt.minNormal
            rw [← zpow_add₀ (by norm_num), show -(f.p : ℤ) + (f.emin + f.p - 1) = f.emin + -1 by ring,
              zpow_add₀ (by norm_num)]
            norm_num
            ring
          rw [h4]
          linarith
    exact h2.trans (mul_le_mul_of_nonneg_left hT (u_pos f).le)

/-- A rounded number of magnitude at most `T` is finite if `(1 + u) T` is below the overflow threshold. -/
theorem round_ok (hf : f.Ieee) {t T : ℝ} (ht : |t| ≤ T) (hT : f.minNormal ≤ T) (ho : (1 + f.u) * T < (2 : ℝ) ^ f.emax) :
    ∃ r, f.round (.fin t) = .fin r ∧ |r - t| ≤ f.u * T := by
  have h := rndInf_abs_err hf ht hT
  refine ⟨f.rndInf t, round_fin_of_lt ?_, h⟩
  have := abs_sub_abs_le_abs_sub (f.rndInf t) t
  linarith

/-- The complex number of a computed value `z` is finite, and differs from `ζ` by at most `(γ - 1) M`, where `M` bounds
`ζ`. -/
def NearC (z : IC f) (ζ : ℂ) (M γ : ℝ) : Prop :=
  ∃ a b : ℝ, z = ⟨.fin a, .fin b⟩ ∧ ‖ζ‖ ≤ M ∧ ‖(⟨a, b⟩ : ℂ) - ζ‖ ≤ (γ - 1) * M

/-- The same for real numbers. -/
def NearR (z : IR f) (ζ : ℝ) (M γ : ℝ) : Prop :=
  ∃ a : ℝ, z = ⟨.fin a⟩ ∧ |ζ| ≤ M ∧ |a - ζ| ≤ (γ - 1) * M

theorem NearC.mono {z : IC f} {ζ : ℂ} {M γ γ' : ℝ} (h : NearC z ζ M γ) (hγ : γ ≤ γ') : NearC z ζ M γ' := by
  obtain ⟨a, b, e, h1, h2⟩ := h
  have hM : 0 ≤ M := (norm_nonneg _).trans h1
  exact ⟨a, b, e, h1, h2.trans (mul_le_mul_of_nonneg_right (by linarith) hM)⟩

theorem NearC.zero {M γ : ℝ} (hM : 0 ≤ M) (hγ : 1 ≤ γ) : NearC (0 : IC f) 0 M γ :=
  ⟨0, 0, rfl, by rwa [norm_zero], by
    rw [sub_zero, show (⟨0, 0⟩ : ℂ) = 0 from rfl, norm_zero]
    exact mul_nonneg (by linarith) hM⟩

theorem norm_le_of_parts_abs {z : ℂ} {e : ℝ} (h1 : |z.re| ≤ e) (h2 : |z.im| ≤ e) : ‖z‖ ≤ 3 / 2 * e := by
  have he : 0 ≤ e := (abs_nonneg _).trans h1
  rw [Complex.norm_eq_sqrt_sq_add_sq]
  apply Real.sqrt_le_iff.2
  refine ⟨by positivity, ?_⟩
  have a1 : z.re ^ 2 ≤ e ^ 2 := by rw [← sq_abs]; exact pow_le_pow_left₀ (abs_nonneg _) h1 2
  have a2 : z.im ^ 2 ≤ e ^ 2 := by rw [← sq_abs]; exact pow_le_pow_left₀ (abs_nonneg _) h2 2
  nlinarith

theorem NearC.norm_le {z : IC f} {ζ : ℂ} {M γ a b : ℝ} (h1 : ‖ζ‖ ≤ M) (h2 : ‖(⟨a, b⟩ : ℂ) - ζ‖ ≤ (γ - 1) * M) :
    ‖(⟨a, b⟩ : ℂ)‖ ≤ γ * M := by
  have := norm_le_norm_add_norm_sub' (⟨a, b⟩ : ℂ) ζ
  linarith

/-- Rounding both parts of a sum. -/
theorem NearC.add {z w : IC f} {ζ ξ : ℂ} {M K γ : ℝ} (hf : f.Ieee) (hz : NearC z ζ M γ) (hw : NearC w ξ K γ) (hγ : 1 ≤ γ)
    (hn : f.minNormal ≤ M + K) (ho : γ * (1 + 2 * f.u) * (M + K) < (2 : ℝ) ^ f.emax) :
    NearC (z + w) (ζ + ξ) (M + K) (γ * (1 + 2 * f.u)) := by
  obtain ⟨a, b, rfl, z1, z2⟩ := hz
  obtain ⟨c, d, rfl, w1, w2⟩ := hw
  have hu := u_pos f
  have hS : ‖(⟨a, b⟩ : ℂ) + ⟨c, d⟩‖ ≤ γ * (M + K) := by
    refine (norm_add_le _ _).trans ?_
    have := NearC.norm_le (z := (0 : IC f)) z1 z2
    have := NearC.norm_le (z := (0 : IC f)) w1 w2
    linarith
  have hMK : 0 < M + K := (minNormal_pos f).trans_le hn
  have hT : f.minNormal ≤ γ * (M + K) := hn.trans (le_mul_of_one_le_left hMK.le hγ)
  have hT0 : 0 < γ * (M + K) := (minNormal_pos f).trans_le hT
  have hov : (1 + f.u) * (γ * (M + K)) < (2 : ℝ) ^ f.emax := by
    refine lt_of_le_of_lt ?_ ho
    nlinarith [mul_pos hu hT0]
  obtain ⟨r, er, hr⟩ := round_ok hf ((Complex.abs_re_le_norm _).trans hS) hT hov
  obtain ⟨s, es, hs⟩ := round_ok hf ((Complex.abs_im_le_norm _).trans hS) hT hov
  refine ⟨r, s, ?_, (norm_add_le _ _).trans (add_le_add z1 w1), ?_⟩
  · show (⟨f.round (.fin (a + c)), f.round (.fin (b + d))⟩ : IC f) = _
    exact congrArg₂ IC.mk er es
  · have e : (⟨r, s⟩ : ℂ) - (ζ + ξ) = ((⟨r, s⟩ : ℂ) - (⟨a, b⟩ + ⟨c, d⟩)) + ((⟨a, b⟩ - ζ) + (⟨c, d⟩ - ξ)) := by ring
    rw [e]
    have h1 : ‖(⟨r, s⟩ : ℂ) - (⟨a, b⟩ + ⟨c, d⟩)‖ ≤ 3 / 2 * (f.u * (γ * (M + K))) := norm_le_of_parts_abs hr hs
    have h2 := norm_add_le ((⟨a, b⟩ : ℂ) - ζ) (⟨c, d⟩ - ξ)
    refine (norm_add_le _ _).trans ?_
    nlinarith [mul_pos hu hT0]

theorem NearC.neg {z : IC f} {ζ : ℂ} {M γ : ℝ} (h : NearC z ζ M γ) : NearC (⟨z.re.neg, z.im.neg⟩ : IC f) (-ζ) M γ := by
  obtain ⟨a, b, rfl, h1, h2⟩ := h
  refine ⟨-a, -b, rfl, by rwa [norm_neg], ?_⟩
  have : (⟨-a, -b⟩ : ℂ) - -ζ = -((⟨a, b⟩ : ℂ) - ζ) := by
    apply Complex.ext <;> simp <;> ring
  rwa [this, norm_neg]

theorem NearC.sub {z w : IC f} {ζ ξ : ℂ} {M K γ : ℝ} (hf : f.Ieee) (hz : NearC z ζ M γ) (hw : NearC w ξ K γ) (hγ : 1 ≤ γ)
    (hn : f.minNormal ≤ M + K) (ho : γ * (1 + 2 * f.u) * (M + K) < (2 : ℝ) ^ f.emax) :
    NearC (z - w) (ζ - ξ) (M + K) (γ * (1 + 2 * f.u)) := by
  rw [sub_eq_add_neg]
  exact NearC.add hf hz hw.neg hγ hn ho

/-- Four rounded products, a rounded difference and a rounded sum. -/
theorem NearC.mul {z w : IC f} {ζ ξ : ℂ} {M K γ κ : ℝ} (hf : f.Ieee) (hz : NearC z ζ M γ) (hw : NearC w ξ K κ)
    (hγ : 1 ≤ γ) (hκ : 1 ≤ κ) (hn : f.minNormal ≤ M * K) (ho : γ * κ * (1 + 5 * f.u) * (M * K) < (2 : ℝ) ^ f.emax) :
    NearC (z * w) (ζ * ξ) (M * K) (γ * κ * (1 + 5 * f.u)) := by
  obtain ⟨a, b, rfl, z1, z2⟩ := hz
  obtain ⟨c, d, rfl, w1, w2⟩ := hw
  have hu := u_pos f
  have hu8 := u_le hf
  have hM : 0 ≤ M := (norm_nonneg _).trans z1
  have hK : 0 ≤ K := (norm_nonneg _).trans w1
  have nz := NearC.norm_le (z := (0 : IC f)) z1 z2
  have nw := NearC.norm_le (z := (0 : IC f)) w1 w2
  set T := γ * κ * (M * K) with hTd
  have hMK : 0 < M * K := (minNormal_pos f).trans_le hn
  have hg : 1 ≤ γ * κ := one_le_mul_of_one_le_of_one_le hγ hκ
  have hT : f.minNormal ≤ T := hn.trans (le_mul_of_one_le_left hMK.le hg)
  have hT0 : 0 < T := (minNormal_pos f).trans_le hT
  have hnn : ‖(⟨a, b⟩ : ℂ)‖ * ‖(⟨c, d⟩ : ℂ)‖ ≤ T := by
    have := mul_le_mul nz nw (norm_nonneg _) (by positivity)
    rw [hTd]
    linarith [this, show γ * M * (κ * K) = γ * κ * (M * K) by ring]
  have ra := Complex.abs_re_le_norm (⟨a, b⟩ : ℂ)
  have rb := Complex.abs_im_le_norm (⟨a, b⟩ : ℂ)
  have rc := Complex.abs_re_le_norm (⟨c, d⟩ : ℂ)
  have rd := Complex.abs_im_le_norm (⟨c, d⟩ : ℂ)
  simp only at ra rb rc rd
  have prod : ∀ {x y : ℝ}, |x| ≤ ‖(⟨a, b⟩ : ℂ)‖ → |y| ≤ ‖(⟨c, d⟩ : ℂ)‖ → |x * y| ≤ T := fun hx hy => by
    rw [abs_mul]
    exact (mul_le_mul hx hy (abs_nonneg _) (norm_nonneg _)).trans hnn
  have ho' : (1 + 5 * f.u) * T < (2 : ℝ) ^ f.emax := by
    rw [hTd]
    linarith [ho, show γ * κ * (1 + 5 * f.u) * (M * K) = (1 + 5 * f.u) * (γ * κ * (M * K)) by ring]
  have hov : (1 + f.u) * T < (2 : ℝ) ^ f.emax := lt_of_le_of_lt (by nlinarith [mul_pos hu hT0]) ho'
  obtain ⟨ac, e1, h1⟩ := round_ok hf (prod ra rc) hT hov
  obtain ⟨bd, e2, h2⟩ := round_ok hf (prod rb rd) hT hov
  obtain ⟨ad, e3, h3⟩ := round_ok hf (prod ra rd) hT hov
  obtain ⟨bc, e4, h4⟩ := round_ok hf (prod rb rc) hT hov
  have hP : ‖(⟨a, b⟩ : ℂ) * ⟨c, d⟩‖ ≤ T := by rw [norm_mul]; exact hnn
  have pre : |a * c - b * d| ≤ T := (Complex.abs_re_le_norm ((⟨a, b⟩ : ℂ) * ⟨c, d⟩)).trans hP
  have pim : |a * d + b * c| ≤ T := (Complex.abs_im_le_norm ((⟨a, b⟩ : ℂ) * ⟨c, d⟩)).trans hP
  have hT2 : f.minNormal ≤ (1 + 2 * f.u) * T := by nlinarith [mul_pos hu hT0]
  have hov2 : (1 + f.u) * ((1 + 2 * f.u) * T) < (2 : ℝ) ^ f.emax :=
    lt_of_le_of_lt (by
      have := mul_le_mul_of_nonneg_right hu8 (mul_pos hu hT0).le
      have : 0 ≤ f.u * T := (mul_pos hu hT0).le
      linarith [show (1 + f.u) * ((1 + 2 * f.u) * T) = T + 3 * (f.u * T) + 2 * (f.u * (f.u * T)) by ring,
        show (1 + 5 * f.u) * T = T + 5 * (f.u * T) by ring]) ho'
  have d1 : |ac - bd| ≤ (1 + 2 * f.u) * T := by
    have e : ac - bd = (a * c - b * d) + (ac - a * c) - (bd - b * d) := by ring
    rw [e]
    have := abs_sub ((a * c - b * d) + (ac - a * c)) (bd - b * d)
    have := abs_add_le (a * c - b * d) (ac - a * c)
    linarith
  have d2 : |ad + bc| ≤ (1 + 2 * f.u) * T := by
    have e : ad + bc = (a * d + b * c) + (ad - a * d) + (bc - b * c) := by ring
    rw [e]
    have := abs_add_three (a * d + b * c) (ad - a * d) (bc - b * c)
    linarith
  obtain ⟨r, er, hr⟩ := round_ok hf d1 hT2 hov2
  obtain ⟨s, es, hs⟩ := round_ok hf d2 hT2 hov2
  refine ⟨r, s, ?_, by rw [norm_mul]; exact mul_le_mul z1 w1 (norm_nonneg _) hM, ?_⟩
  · show (⟨f.round ((f.round (.fin (a * c))).sub (f.round (.fin (b * d)))),
      f.round ((f.round (.fin (a * d))).add (f.round (.fin (b * c))))⟩ : IC f) = _
    rw [e1, e2, e3, e4]
    show (⟨f.round (.fin (ac + -bd)), f.round (.fin (ad + bc))⟩ : IC f) = _
    rw [← sub_eq_add_neg, er, es]
  · have k1 : |r - (a * c - b * d)| ≤ (3 * f.u + 2 * f.u ^ 2) * T := by
      have e : r - (a * c - b * d) = (r - (ac - bd)) + (ac - a * c) - (bd - b * d) := by ring
      rw [e]
      have := abs_sub ((r - (ac - bd)) + (ac - a * c)) (bd - b * d)
      have := abs_add_le (r - (ac - bd)) (ac - a * c)
      linarith [show f.u * ((1 + 2 * f.u) * T) + f.u * T + f.u * T = (3 * f.u + 2 * f.u ^ 2) * T by ring]
    have k2 : |s - (a * d + b * c)| ≤ (3 * f.u + 2 * f.u ^ 2) * T := by
      have e : s - (a * d + b * c) = (s - (ad + bc)) + (ad - a * d) + (bc - b * c) := by ring
      rw [e]
      have := abs_add_three (s - (ad + bc)) (ad - a * d) (bc - b * c)
      linarith [show f.u * ((1 + 2 * f.u) * T) + f.u * T + f.u * T = (3 * f.u + 2 * f.u ^ 2) * T by ring]
    have k3 : ‖(⟨r, s⟩ : ℂ) - ⟨a, b⟩ * ⟨c, d⟩‖ ≤ 3 / 2 * ((3 * f.u + 2 * f.u ^ 2) * T) := by
      apply norm_le_of_parts_abs
      · show |r - (a * c - b * d)| ≤ _
        exact k1
      · show |s - (a * d + b * c)| ≤ _
        exact k2
    have k4 : ‖(⟨a, b⟩ : ℂ) * ⟨c, d⟩ - ζ * ξ‖ ≤ (γ * κ - 1) * (M * K) := by
      have e : (⟨a, b⟩ : ℂ) * ⟨c, d⟩ - ζ * ξ = (⟨a, b⟩ - ζ) * (⟨c, d⟩ - ξ) + ζ * (⟨c, d⟩ - ξ) + (⟨a, b⟩ - ζ) * ξ := by ring
      rw [e]
      refine norm_add₃_le.trans ?_
      rw [norm_mul, norm_mul, norm_mul]
      have m1 := mul_le_mul z2 w2 (norm_nonneg _) ((norm_nonneg _).trans z2)
      have m2 := mul_le_mul z1 w2 (norm_nonneg _) hM
      have m3 := mul_le_mul z2 w1 (norm_nonneg _) ((norm_nonneg _).trans z2)
      linarith [show (γ - 1) * M * ((κ - 1) * K) + M * ((κ - 1) * K) + (γ - 1) * M * K = (γ * κ - 1) * (M * K) by ring]
    have e : (⟨r, s⟩ : ℂ) - ζ * ξ = ((⟨r, s⟩ : ℂ) - ⟨a, b⟩ * ⟨c, d⟩) + (⟨a, b⟩ * ⟨c, d⟩ - ζ * ξ) := by ring
    rw [e]
    refine (norm_add_le _ _).trans ?_
    have : 3 / 2 * ((3 * f.u + 2 * f.u ^ 2) * T) ≤ 5 * f.u * T := by
      have := mul_le_mul_of_nonneg_right hu8 (mul_pos hu hT0).le
      have : 0 ≤ f.u * T := (mul_pos hu hT0).le
      linarith [show 3 / 2 * ((3 * f.u + 2 * f.u ^ 2) * T) = 9 / 2 * (f.u * T) + 3 * (f.u * (f.u * T)) by ring,
        show 5 * f.u * T = 5 * (f.u * T) by ring]
    have e2 : (γ * κ * (1 + 5 * f.u) - 1) * (M * K) = 5 * f.u * T + (γ * κ - 1) * (M * K) := by rw [hTd]; ring
    rw [e2]
    linarith

end Neo
