import Verif.Model.NormIeee
import Verif.Lemmas.Ieee
import Verif.Lemmas.Stats

/-! # Correct rounding is monotone; reciprocals in IEEE arithmetic -/

namespace Neo

open Spec

theorem onGrid_zero (f : Fmt) : f.OnGrid 0 := ⟨0, f.emin, by simp, le_rfl, by simp⟩

theorem rndInf_zero (f : Fmt) : f.rndInf 0 = 0 := rndInf_exact (onGrid_zero f)

theorem rndInf_mono (f : Fmt) (hp : 1 ≤ f.p) {s t : ℝ} (h : s ≤ t) : f.rndInf s ≤ f.rndInf t := by
  rcases h.eq_or_lt with rfl | hlt
  · exact le_rfl
  by_contra hc
  rw [not_le] at hc
  have h1 := ((rndInf_nearest f hp s).2 _ (rndInf_nearest f hp t).1).1
  have h2 := ((rndInf_nearest f hp t).2 _ (rndInf_nearest f hp s).1).1
  have k1 := sq_le_sq.2 h1
  have k2 := sq_le_sq.2 h2
  nlinarith

theorem rndInf_le_grid {f : Fmt} (hp : 1 ≤ f.p) {t g : ℝ} (hg : f.OnGrid g) (h : t ≤ g) : f.rndInf t ≤ g := by
  have := rndInf_mono f hp h
  rwa [rndInf_exact hg] at this

theorem grid_le_rndInf {f : Fmt} (hp : 1 ≤ f.p) {t g : ℝ} (hg : f.OnGrid g) (h : g ≤ t) : g ≤ f.rndInf t := by
  have := rndInf_mono f hp h
  rwa [rndInf_exact hg] at this

theorem rndInf_abs (f : Fmt) (hp : 1 ≤ f.p) (t : ℝ) : |f.rndInf t| = f.rndInf |t| := by
  rcases le_total 0 t with h | h
  · rw [abs_of_nonneg h, abs_of_nonneg (grid_le_rndInf hp (onGrid_zero f) h)]
  · rw [abs_of_nonpos h, rndInf_neg, abs_of_nonpos (rndInf_le_grid hp (onGrid_zero f) h)]

variable {f : Fmt}

theorem two_zpow_onGrid (hp : 1 ≤ f.p) {k : ℤ} (hk : f.emin ≤ k) : f.OnGrid ((2 : ℝ) ^ k) :=
  ⟨1, k, by rw [abs_one]; exact one_lt_pow₀ (by norm_num) (by omega), hk, by simp⟩

/-- Relative error of rounding away from the subnormal numbers. -/
theorem rndInf_rel (hp : 1 ≤ f.p) {t : ℝ} (ht : (2 : ℝ) ^ (f.emin + f.p - 1) ≤ |t|) :
    |f.rndInf t - t| ≤ (2 : ℝ) ^ (-(f.p : ℤ)) * |t| := by
  have h0 : 0 < |t| := lt_of_lt_of_le (two_zpow_pos _) ht
  have hlog : f.emin + f.p - 1 ≤ Int.log 2 |t| := by
    rw [← Int.zpow_le_iff_le_log (by norm_num) h0]; exact_mod_cast ht
  have hu : f.ulpExp t = Int.log 2 |t| - (f.p - 1) := by
    unfold Fmt.ulpExp; exact max_eq_right (by omega)
  refine (rndInf_err f t).trans ?_
  rw [hu]
  have hl : (2 : ℝ) ^ (Int.log 2 |t|) ≤ |t| := by
    have := Int.zpow_log_le_self (b := 2) (by norm_num) h0
    exact_mod_cast this
  calc _ = (2 : ℝ) ^ (-(f.p : ℤ)) * (2 : ℝ) ^ (Int.log 2 |t|) := by
        rw [← zpow_add₀ (by norm_num), show Int.log 2 |t| - (f.p - 1) = -(f.p : ℤ) + Int.log 2 |t| + 1 by ring,
          zpow_add_one₀ (by norm_num)]
        ring
    _ ≤ _ := mul_le_mul_of_nonneg_left hl (two_zpow_pos _).le

theorem one_onGrid (hf : f.Ieee) : f.OnGrid 1 := by
  have := two_zpow_onGrid (f := f) (by have := hf.1; omega) (k := 0) (by obtain ⟨h1, h2, h3⟩ := hf; omega)
  simpa using this

/-- Anything below the middle between `1` and its successor is rounded to at most `1`. -/
theorem rndInf_le_one (hf : f.Ieee) {t : ℝ} (h : t < 1 + (2 : ℝ) ^ (-(f.p : ℤ))) : f.rndInf t ≤ 1 := by
  obtain ⟨h1, h2, h3⟩ := hf
  rcases le_or_gt t 1 with ht | ht
  · exact rndInf_le_grid (by omega) (one_onGrid ⟨h1, h2, h3⟩) ht
  · have hlt2 : t < 2 := by
      have : (2 : ℝ) ^ (-(f.p : ℤ)) ≤ 1 := zpow_le_one_of_nonpos₀ (by norm_num) (by omega)
      linarith
    have hlog : Int.log 2 |t| = 0 := by
      rw [abs_of_pos (by linarith)]
      apply le_antisymm
      · have := (Int.lt_zpow_iff_log_lt (b := 2) (r := t) (x := 1) (by norm_num) (by linarith)).1 (by norm_num; exact hlt2)
        omega
      · exact (Int.zpow_le_iff_le_log (b := 2) (r := t) (x := 0) (by norm_num) (by linarith)).1 (by norm_num; exact ht.le)
    have hu : f.ulpExp t = 1 - f.p := by
      unfold Fmt.ulpExp; rw [hlog, max_eq_right (by omega)]; ring
    have e1 : (((2 : ℤ) ^ (f.p - 1) : ℤ) : ℝ) * (2 : ℝ) ^ (1 - (f.p : ℤ)) = 1 := by
      push_cast
      rw [← zpow_natCast, ← zpow_add₀ (by norm_num), show ((f.p - 1 : ℕ) : ℤ) + (1 - f.p) = 0 by omega, zpow_zero]
    have := rndInf_of_near (f := f) (x := t) (n := 2 ^ (f.p - 1)) (by
      rw [hu, e1, abs_of_pos (by linarith), show (1 - (f.p : ℤ)) = -(f.p : ℤ) + 1 by ring, zpow_add_one₀ (by norm_num)]
      linarith)
    rw [this, hu, e1]

theorem one_sub_onGrid (hf : f.Ieee) : f.OnGrid (1 - (2 : ℝ) ^ (-(f.p : ℤ))) := by
  obtain ⟨h1, h2, h3⟩ := hf
  have hp1 : (1 : ℤ) ≤ 2 ^ f.p := one_le_pow₀ (by norm_num)
  refine ⟨2 ^ f.p - 1, -(f.p : ℤ), by rw [abs_of_nonneg (by omega)]; omega, by omega, ?_⟩
  push_cast
  rw [sub_mul, one_mul, ← zpow_natCast, ← zpow_add₀ (by norm_num)]
  simp

/-- The largest finite number. -/
theorem max_onGrid (hf : f.Ieee) : f.OnGrid ((1 - (2 : ℝ) ^ (-(f.p : ℤ))) * (2 : ℝ) ^ f.emax) := by
  obtain ⟨h1, h2, h3⟩ := hf
  have hp1 : (1 : ℤ) ≤ 2 ^ f.p := one_le_pow₀ (by norm_num)
  refine ⟨2 ^ f.p - 1, f.emax - f.p, by rw [abs_of_nonneg (by omega)]; omega, by omega, ?_⟩
  push_cast
  rw [sub_mul, sub_mul, one_mul, one_mul, ← zpow_natCast, ← zpow_add₀ (by norm_num), ← zpow_add₀ (by norm_num)]
  congr 2
  · ring
  · ring

/-- A grid number above `2 ^ -emax` has a finite reciprocal. -/
theorem recip_finite (hf : f.Ieee) {p : ℝ} (hg : f.OnGrid p) (h : (2 : ℝ) ^ (-f.emax) < p) :
    0 ≤ f.rndInf (1 / p) ∧ f.rndInf (1 / p) < (2 : ℝ) ^ f.emax := by
  have hf' := hf
  obtain ⟨h1, h2, h3⟩ := hf'
  have hp0 : 0 < p := (two_zpow_pos _).trans h
  refine ⟨grid_le_rndInf (by omega) (onGrid_zero f) (by positivity), ?_⟩
  -- the next grid point
  have hnext : (2 : ℝ) ^ (-f.emax) + (2 : ℝ) ^ f.emin ≤ p := by
    obtain ⟨m, k, hm, hk, rfl⟩ := hg
    obtain ⟨d, hd⟩ := Int.le.dest hk
    obtain ⟨e, he⟩ := Int.le.dest (show f.emin ≤ -f.emax by omega)
    have ek : (2 : ℝ) ^ k = (2 : ℝ) ^ d * (2 : ℝ) ^ f.emin := by
      rw [← hd, zpow_add₀ (by norm_num), zpow_natCast, mul_comm]
    have ee : (2 : ℝ) ^ (-f.emax) = (2 : ℝ) ^ e * (2 : ℝ) ^ f.emin := by
      rw [← he, zpow_add₀ (by norm_num), zpow_natCast, mul_comm]
    have hpos := two_zpow_pos f.emin
    rw [ek, ee, ← mul_assoc] at h
    have hlt := lt_of_mul_lt_mul_right h hpos.le
    have hlt' : (2 : ℤ) ^ e < m * 2 ^ d := by exact_mod_cast hlt
    have hle : (2 : ℤ) ^ e + 1 ≤ m * 2 ^ d := hlt'
    have hle' : (2 : ℝ) ^ e + 1 ≤ m * 2 ^ d := by exact_mod_cast hle
    rw [ek, ee, ← mul_assoc]
    nlinarith
  have hM : 1 / p ≤ (1 - (2 : ℝ) ^ (-(f.p : ℤ))) * (2 : ℝ) ^ f.emax := by
    rw [div_le_iff₀ hp0]
    set t := (2 : ℝ) ^ (-(f.p : ℤ)) with ht
    have ht0 : 0 < t := two_zpow_pos _
    have ht1 : t ≤ 1 / 8 := by
      have : t ≤ (2 : ℝ) ^ (-3 : ℤ) := zpow_le_zpow_right₀ (by norm_num) (by omega)
      norm_num at this ⊢
      linarith
    have hE := two_zpow_pos f.emax
    have e1 : (2 : ℝ) ^ f.emax * ((2 : ℝ) ^ (-f.emax) + (2 : ℝ) ^ f.emin) = 1 + 8 * t := by
      rw [mul_add, ← zpow_add₀ (by norm_num), ← zpow_add₀ (by norm_num), add_neg_cancel, zpow_zero,
        show f.emax + f.emin = -(f.p : ℤ) + 3 by omega, zpow_add₀ (by norm_num), ht]
      norm_num
      ring
    have h1t : 0 ≤ 1 - t := by linarith
    calc (1 : ℝ) ≤ (1 - t) * (1 + 8 * t) := by nlinarith
      _ = (1 - t) * (2 : ℝ) ^ f.emax * ((2 : ℝ) ^ (-f.emax) + (2 : ℝ) ^ f.emin) := by rw [← e1]; ring
      _ ≤ _ := mul_le_mul_of_nonneg_left hnext (by positivity)
  have := rndInf_le_grid (by omega) (max_onGrid hf) hM
  refine lt_of_le_of_lt this ?_
  have := two_zpow_pos f.emax
  have := two_zpow_pos (-(f.p : ℤ))
  nlinarith

/-- A number at most `2 ^ -emax` has no finite reciprocal. -/
theorem recip_infinite (hf : f.Ieee) {p : ℝ} (h0 : 0 < p) (h : p ≤ (2 : ℝ) ^ (-f.emax)) :
    (2 : ℝ) ^ f.emax ≤ f.rndInf (1 / p) := by
  obtain ⟨h1, h2, h3⟩ := hf
  refine grid_le_rndInf (by omega) (two_zpow_onGrid (by omega) (by omega)) ?_
  rw [le_div_iff₀ h0]
  calc (2 : ℝ) ^ f.emax * p ≤ (2 : ℝ) ^ f.emax * (2 : ℝ) ^ (-f.emax) := mul_le_mul_of_nonneg_left h (two_zpow_pos _).le
    _ = 1 := by rw [← zpow_add₀ (by norm_num), add_neg_cancel, zpow_zero]

/-- A normal reciprocal, multiplied back, misses `1` by less than half a unit in the last place above `1`. -/
theorem recip_mul (hf : f.Ieee) {p : ℝ} (h0 : 0 < p) (h : p ≤ (2 : ℝ) ^ (f.emax - 2)) :
    |p * f.rndInf (1 / p) - 1| < (2 : ℝ) ^ (-(f.p : ℤ)) := by
  obtain ⟨h1, h2, h3⟩ := hf
  have hr : 0 < 1 / p := by positivity
  have hlog : f.emin + f.p - 1 ≤ Int.log 2 (1 / p) := by
    rw [← Int.zpow_le_iff_le_log (by norm_num) hr, show f.emin + f.p - 1 = -(f.emax - 2) by omega]
    push_cast
    rw [zpow_neg, ← one_div]
    exact one_div_le_one_div_of_le h0 h
  set L := Int.log 2 (1 / p)
  have hL : (2 : ℝ) ^ L ≤ 1 / p := by
    have := Int.zpow_log_le_self (b := 2) (by norm_num) hr
    exact_mod_cast this
  have hu : f.ulpExp (1 / p) = L - (f.p - 1) := by
    unfold Fmt.ulpExp; rw [abs_of_pos hr]; exact max_eq_right (by omega)
  have he := rndInf_err f (1 / p)
  have hhalf : (2 : ℝ) ^ f.ulpExp (1 / p) / 2 = (2 : ℝ) ^ (-(f.p : ℤ)) * (2 : ℝ) ^ L := by
    rw [hu, ← zpow_add₀ (by norm_num), show L - ((f.p : ℤ) - 1) = -(f.p : ℤ) + L + 1 by ring, zpow_add_one₀ (by norm_num)]
    ring
  rw [hhalf] at he
  have e : p * f.rndInf (1 / p) - 1 = p * (f.rndInf (1 / p) - 1 / p) := by field_simp
  rw [e, abs_mul, abs_of_pos h0]
  have ht := two_zpow_pos (-(f.p : ℤ))
  rcases hL.eq_or_lt with heq | hlt
  · have : f.rndInf (1 / p) = 1 / p := by
      rw [← heq]; exact rndInf_exact (two_zpow_onGrid (by omega) (by omega))
    rw [this, sub_self, abs_zero, mul_zero]; exact ht
  · calc _ ≤ p * ((2 : ℝ) ^ (-(f.p : ℤ)) * (2 : ℝ) ^ L) := mul_le_mul_of_nonneg_left he h0.le
      _ < p * ((2 : ℝ) ^ (-(f.p : ℤ)) * (1 / p)) := by gcongr
      _ = _ := by field_simp

/-- A subnormal reciprocal, multiplied back. -/
theorem recip_mul_sub (hf : f.Ieee) {p : ℝ} (h : (2 : ℝ) ^ (f.emax - 2) < p) (hlt : p < (2 : ℝ) ^ f.emax) :
    |p * f.rndInf (1 / p) - 1| ≤ (2 : ℝ) ^ (2 - (f.p : ℤ)) := by
  obtain ⟨h1, h2, h3⟩ := hf
  have h0 : 0 < p := (two_zpow_pos _).trans h
  have hr : 0 < 1 / p := by positivity
  have hlog : Int.log 2 (1 / p) < f.emin + f.p - 1 := by
    rw [← Int.lt_zpow_iff_log_lt (by norm_num) hr, show f.emin + f.p - 1 = -(f.emax - 2) by omega]
    push_cast
    rw [zpow_neg, ← one_div]
    exact one_div_lt_one_div_of_lt (two_zpow_pos _) h
  have hu : f.ulpExp (1 / p) = f.emin := by
    unfold Fmt.ulpExp; rw [abs_of_pos hr]; exact max_eq_left (by omega)
  have he := rndInf_err f (1 / p)
  rw [hu] at he
  have e : p * f.rndInf (1 / p) - 1 = p * (f.rndInf (1 / p) - 1 / p) := by field_simp
  rw [e, abs_mul, abs_of_pos h0]
  have hm := two_zpow_pos f.emin
  have hM := (two_zpow_pos f.emax).le
  calc _ ≤ (2 : ℝ) ^ f.emax * ((2 : ℝ) ^ f.emin / 2) := by gcongr
    _ = _ := by
      rw [← mul_div_assoc, ← zpow_add₀ (by norm_num), show f.emax + f.emin = (2 - (f.p : ℤ)) + 1 by omega,
        zpow_add_one₀ (by norm_num)]
      ring

/-- Rounding numbers below `2`. -/
theorem rndInf_err_lt_two (hf : f.Ieee) {t : ℝ} (h : |t| < 2) : |f.rndInf t - t| ≤ (2 : ℝ) ^ (-(f.p : ℤ)) := by
  obtain ⟨h1, h2, h3⟩ := hf
  by_cases h0 : t = 0
  · subst h0; rw [rndInf_zero, sub_self, abs_zero]; exact (two_zpow_pos _).le
  have hu := ulpExp_le (f := f) (x := t) (k := 1 - f.p) (by omega) (by
    rw [show (1 : ℤ) - f.p + f.p = 1 by ring, zpow_one]; exact h) h0
  refine (rndInf_err f t).trans ?_
  calc _ ≤ (2 : ℝ) ^ (1 - (f.p : ℤ)) / 2 := by
        have := zpow_le_zpow_right₀ (a := (2 : ℝ)) (by norm_num) hu
        linarith
    _ = _ := by rw [show 1 - (f.p : ℤ) = -(f.p : ℤ) + 1 by ring, zpow_add_one₀ (by norm_num)]; ring

theorem one_add_onGrid (hf : f.Ieee) : f.OnGrid (1 + (2 : ℝ) ^ (2 - (f.p : ℤ))) ∧ f.OnGrid (1 - (2 : ℝ) ^ (2 - (f.p : ℤ))) := by
  obtain ⟨h1, h2, h3⟩ := hf
  have e : (1 : ℝ) = ((2 ^ (f.p - 2) : ℤ) : ℝ) * (2 : ℝ) ^ (2 - (f.p : ℤ)) := by
    push_cast
    rw [← zpow_natCast, ← zpow_add₀ (by norm_num), show ((f.p - 2 : ℕ) : ℤ) + (2 - f.p) = 0 by omega, zpow_zero]
  have hp : (2 : ℤ) ^ f.p = 4 * 2 ^ (f.p - 2) := by
    rw [show f.p = (f.p - 2) + 2 by omega, pow_add]; norm_num; ring
  have h2p : (2 : ℤ) ≤ 2 ^ (f.p - 2) := by
    calc (2 : ℤ) = 2 ^ 1 := by norm_num
      _ ≤ _ := pow_le_pow_right₀ (by norm_num) (by omega)
  constructor
  · refine ⟨2 ^ (f.p - 2) + 1, 2 - f.p, by rw [abs_of_nonneg (by omega)]; omega, by omega, ?_⟩
    push_cast at e ⊢
    rw [add_mul, ← e, one_mul]
  · refine ⟨2 ^ (f.p - 2) - 1, 2 - f.p, by rw [abs_of_nonneg (by omega)]; omega, by omega, ?_⟩
    push_cast at e ⊢
    rw [sub_mul, ← e, one_mul]

theorem round_fin_of_lt {x : ℝ} (h : |f.rndInf x| < (2 : ℝ) ^ f.emax) : f.round (.fin x) = .fin (f.rndInf x) := by
  unfold Fmt.round; dsimp only; rw [if_pos h]

theorem round_fin_of_le {x : ℝ} (h : (2 : ℝ) ^ f.emax ≤ f.rndInf x) : f.round (.fin x) = .inf false := by
  unfold Fmt.round; dsimp only
  have h0 : 0 < f.rndInf x := lt_of_lt_of_le (two_zpow_pos _) h
  rw [if_neg (by rw [abs_of_pos h0]; exact not_lt.2 h), decide_eq_false (not_lt.2 h0.le)]

theorem round_inf (s : Bool) : f.round (.inf s) = .inf s := rfl
theorem round_nan : f.round .nan = .nan := rfl

theorem round_mem {x : ℝ} (h : f.OnGrid x) (hx : |x| < (2 : ℝ) ^ f.emax) : f.round (.fin x) = .fin x := by
  rw [round_fin_of_lt (by rw [rndInf_exact h]; exact hx), rndInf_exact h]

end Neo
