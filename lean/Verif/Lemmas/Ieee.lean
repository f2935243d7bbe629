import Verif.Spec.Ieee
import Mathlib.Tactic.Linarith
import Mathlib.Tactic.Ring
import Mathlib.Tactic.Positivity
import Mathlib.Tactic.NormNum
import Mathlib.Tactic.FieldSimp

/-!
# Lemmas: rounding to nearest even, and innocuous double rounding
-/

namespace Neo
open Neo.Spec

theorem rne_near {t : ℝ} {n : ℤ} (h : |t - n| < 1 / 2) : rne t = n := by
  rw [abs_lt] at h
  have hf := Int.floor_add_fract t
  have h0 := Int.fract_nonneg t
  have h1 := Int.fract_lt_one t
  unfold rne
  split_ifs with a b c
  · have hl : ((⌊t⌋ : ℤ) : ℝ) < n + 1 := by linarith [h.2]
    have hr : (n : ℝ) < ⌊t⌋ + 1 := by linarith [h.1]
    have hl' : ⌊t⌋ < n + 1 := by exact_mod_cast hl
    have hr' : n < ⌊t⌋ + 1 := by exact_mod_cast hr
    omega
  · have hl : ((⌊t⌋ : ℤ) : ℝ) < n := by linarith [h.2]
    have hr : (n : ℝ) < ⌊t⌋ + 2 := by linarith [h.1]
    have hl' : ⌊t⌋ < n := by exact_mod_cast hl
    have hr' : n < ⌊t⌋ + 2 := by exact_mod_cast hr
    omega
  all_goals
    exfalso
    have e : Int.fract t = 1 / 2 := le_antisymm (not_lt.mp b) (not_lt.mp a)
    have hl : ((⌊t⌋ : ℤ) : ℝ) < n := by linarith [h.2]
    have hr : (n : ℝ) < ⌊t⌋ + 1 := by linarith [h.1]
    have hl' : ⌊t⌋ < n := by exact_mod_cast hl
    have hr' : n < ⌊t⌋ + 1 := by exact_mod_cast hr
    omega

theorem rne_int (n : ℤ) : rne n = n := rne_near (by simp)

theorem rne_err (t : ℝ) : |(rne t : ℝ) - t| ≤ 1 / 2 := by
  have hf := Int.floor_add_fract t
  have h0 := Int.fract_nonneg t
  have h1 := Int.fract_lt_one t
  unfold rne
  split_ifs with a b c <;> rw [abs_le] <;> push_cast <;> constructor <;> linarith

theorem rne_neg (t : ℝ) : rne (-t) = -rne t := by
  have hf := Int.floor_add_fract t
  have h0 := Int.fract_nonneg t
  have h1 := Int.fract_lt_one t
  by_cases a : Int.fract t = 1 / 2
  · have e : t = ⌊t⌋ + 1 / 2 := by linarith
    have fl : ⌊-t⌋ = -⌊t⌋ - 1 := by
      rw [Int.floor_eq_iff]; push_cast; constructor <;> linarith
    have fr : Int.fract (-t) = 1 / 2 := by
      have := Int.floor_add_fract (-t)
      rw [fl] at this
      push_cast at this
      linarith
    unfold rne
    rw [fr, a, fl, if_neg (lt_irrefl _), if_neg (lt_irrefl _), if_neg (lt_irrefl _), if_neg (lt_irrefl _)]
    by_cases c : Even ⌊t⌋
    · rw [if_pos c, if_neg (by rw [Int.not_even_iff_odd]; exact c.neg.sub_odd odd_one)]
      ring
    · rw [if_neg c, if_pos (by
        rw [Int.not_even_iff_odd] at c
        exact c.neg.sub_odd odd_one)]
      ring
  · apply rne_near
    have : |t - rne t| < 1 / 2 := by
      unfold rne
      split_ifs with b c
      · rw [abs_lt]; constructor <;> linarith
      · push_cast; rw [abs_lt]; constructor <;> linarith
      · exact absurd (le_antisymm (not_lt.mp c) (not_lt.mp b)) a
      · exact absurd (le_antisymm (not_lt.mp c) (not_lt.mp b)) a
    push_cast
    rw [← abs_neg]
    convert this using 2
    ring

theorem two_zpow_pos (k : ℤ) : (0 : ℝ) < 2 ^ k := zpow_pos (by norm_num) k

theorem rndInf_neg (f : Fmt) (x : ℝ) : f.rndInf (-x) = -f.rndInf x := by
  unfold Fmt.rndInf
  rw [show f.ulpExp (-x) = f.ulpExp x from by unfold Fmt.ulpExp; rw [abs_neg], neg_mul, rne_neg]
  push_cast
  ring

/-- `x` scaled to units in the last place. -/
theorem rndInf_of_near {f : Fmt} {x : ℝ} {n : ℤ} (h : |x - n * (2 : ℝ) ^ f.ulpExp x| < (2 : ℝ) ^ f.ulpExp x / 2) :
    f.rndInf x = n * (2 : ℝ) ^ f.ulpExp x := by
  unfold Fmt.rndInf
  have hp := two_zpow_pos (f.ulpExp x)
  rw [rne_near (n := n)]
  rw [zpow_neg, ← div_eq_mul_inv, div_sub' hp.ne', abs_div, abs_of_pos hp, div_lt_iff₀ hp, mul_comm _ (n : ℝ)]
  linarith

theorem rndInf_err (f : Fmt) (x : ℝ) : |f.rndInf x - x| ≤ (2 : ℝ) ^ f.ulpExp x / 2 := by
  have hp := two_zpow_pos (f.ulpExp x)
  have h := rne_err (x * (2 : ℝ) ^ (-f.ulpExp x))
  unfold Fmt.rndInf
  have e : (rne (x * (2 : ℝ) ^ (-f.ulpExp x)) : ℝ) * (2 : ℝ) ^ f.ulpExp x - x
      = ((rne (x * (2 : ℝ) ^ (-f.ulpExp x)) : ℝ) - x * (2 : ℝ) ^ (-f.ulpExp x)) * (2 : ℝ) ^ f.ulpExp x := by
    rw [sub_mul, mul_assoc, ← zpow_add₀ (by norm_num : (2 : ℝ) ≠ 0), neg_add_cancel, zpow_zero, mul_one]
  rw [e, abs_mul, abs_of_pos hp]
  calc _ ≤ 1 / 2 * (2 : ℝ) ^ f.ulpExp x := mul_le_mul_of_nonneg_right h hp.le
    _ = _ := by ring

theorem ulpExp_le {f : Fmt} {x : ℝ} {k : ℤ} (hk : f.emin ≤ k) (hx : |x| < (2 : ℝ) ^ (k + f.p)) (hx0 : x ≠ 0) :
    f.ulpExp x ≤ k := by
  unfold Fmt.ulpExp
  refine max_le hk ?_
  have := (Int.lt_zpow_iff_log_lt (b := 2) (by norm_num) (abs_pos.mpr hx0)).mp (by exact_mod_cast hx)
  omega

/-- Values with few enough significant bits are not changed. -/
theorem rndInf_exact {f : Fmt} {x : ℝ} (h : f.OnGrid x) : f.rndInf x = x := by
  obtain ⟨m, k, hm, hk, rfl⟩ := h
  by_cases h0 : m = 0
  · subst h0
    unfold Fmt.rndInf
    simp only [Int.cast_zero, zero_mul]
    rw [show rne (0 : ℝ) = 0 from by exact_mod_cast rne_int 0]
    simp
  · have hx0 : (m : ℝ) * (2 : ℝ) ^ k ≠ 0 := mul_ne_zero (by exact_mod_cast h0) (two_zpow_pos k).ne'
    have hx : |(m : ℝ) * (2 : ℝ) ^ k| < (2 : ℝ) ^ (k + f.p) := by
      rw [abs_mul, abs_of_pos (two_zpow_pos k), zpow_add₀ (by norm_num), mul_comm ((2 : ℝ) ^ k)]
      apply mul_lt_mul_of_pos_right _ (two_zpow_pos k)
      rw [zpow_natCast]
      exact_mod_cast hm
    have he := ulpExp_le hk hx hx0
    set e := f.ulpExp ((m : ℝ) * (2 : ℝ) ^ k) with hed
    obtain ⟨d, hd⟩ := Int.le.dest he
    have hkd : (2 : ℝ) ^ k = (2 : ℝ) ^ d * (2 : ℝ) ^ e := by
      rw [← hd, zpow_add₀ (by norm_num), zpow_natCast, mul_comm]
    have hn : (m : ℝ) * (2 : ℝ) ^ k = ((m * 2 ^ d : ℤ) : ℝ) * (2 : ℝ) ^ e := by
      rw [hkd]; push_cast; ring
    have := rndInf_of_near (f := f) (x := (m : ℝ) * (2 : ℝ) ^ k) (n := m * 2 ^ d) (by
      rw [← hed, hn, sub_self, abs_zero]
      exact half_pos (two_zpow_pos e))
    rw [this, ← hed, hn]

/-- A number closer to a normal number `g` than a quarter of the unit in its last place is rounded to `g`. -/
theorem rndInf_near_normal {f : Fmt} (hp : 2 ≤ f.p) {s : ℝ} {G i : ℤ} (hG1 : 2 ^ (f.p - 1) ≤ G) (hG2 : G < 2 ^ f.p)
    (hi : f.emin ≤ i) (h : |s - G * (2 : ℝ) ^ i| < (2 : ℝ) ^ i / 4) : f.rndInf s = G * (2 : ℝ) ^ i := by
  have hip := two_zpow_pos i
  rw [abs_lt] at h
  have hG1' : (2 : ℝ) ^ (f.p - 1) ≤ G := by exact_mod_cast hG1
  have hG2' : (G : ℝ) + 1 ≤ 2 ^ f.p := by exact_mod_cast hG2
  have htwo : (2 : ℝ) ≤ (2 : ℝ) ^ (f.p - 1) := by
    calc (2 : ℝ) = 2 ^ 1 := by norm_num
      _ ≤ 2 ^ (f.p - 1) := pow_le_pow_right₀ (by norm_num) (by omega)
  have hpp : (2 : ℝ) ^ f.p = 2 * 2 ^ (f.p - 1) := by
    rw [← pow_succ']; congr 1; omega
  have hsu : s < (2 : ℝ) ^ (i + f.p) := by
    rw [zpow_add₀ (by norm_num), zpow_natCast]
    nlinarith
  have hpow : (2 : ℝ) ^ (i + f.p - 1) = (2 : ℝ) ^ (f.p - 1) * (2 : ℝ) ^ i := by
    rw [show i + (f.p : ℤ) - 1 = ((f.p - 1 : ℕ) : ℤ) + i from by omega, zpow_add₀ (by norm_num), zpow_natCast]
  have hspos : 0 < s := by nlinarith
  by_cases hs : (2 : ℝ) ^ (i + f.p - 1) ≤ s
  · -- the unit in the last place is `2 ^ i`
    have hlog : Int.log 2 |s| = i + f.p - 1 := by
      rw [abs_of_pos hspos]
      apply le_antisymm
      · have := (Int.lt_zpow_iff_log_lt (b := 2) (by norm_num) hspos).mp (by exact_mod_cast hsu)
        omega
      · exact (Int.zpow_le_iff_le_log (b := 2) (by norm_num) hspos).mp (by exact_mod_cast hs)
    have hu : f.ulpExp s = i := by
      unfold Fmt.ulpExp
      rw [hlog, max_eq_right (by omega)]
      omega
    have := rndInf_of_near (f := f) (x := s) (n := G) (by rw [hu, abs_lt]; constructor <;> linarith [h.1, h.2])
    rw [this, hu]
  · -- just below a power of two
    rw [not_le, hpow] at hs
    have hGe : G = 2 ^ (f.p - 1) := by
      have h1 : (G : ℝ) < 2 ^ (f.p - 1) + 1 := by
        have : ((G : ℝ) - 1 / 4) * 2 ^ i < 2 ^ (f.p - 1) * 2 ^ i := by nlinarith [h.1]
        have := lt_of_mul_lt_mul_right this hip.le
        linarith
      have h2 : G < 2 ^ (f.p - 1) + 1 := by exact_mod_cast h1
      omega
    have hGr : (G : ℝ) = 2 ^ (f.p - 1) := by rw [hGe]; push_cast; rfl
    have hlow : (2 : ℝ) ^ (i + f.p - 2) ≤ s := by
      have e : (2 : ℝ) ^ (i + f.p - 2) = (2 : ℝ) ^ (i + f.p - 1) / 2 := by
        rw [show i + (f.p : ℤ) - 2 = (i + f.p - 1) - 1 from by ring, zpow_sub_one₀ (by norm_num)]; ring
      rw [e, hpow]
      rw [hGr] at h
      nlinarith [h.1]
    have hlog : Int.log 2 |s| = i + f.p - 2 := by
      rw [abs_of_pos hspos]
      apply le_antisymm
      · have := (Int.lt_zpow_iff_log_lt (b := 2) (by norm_num) hspos).mp
          (by rw [← hpow] at hs; exact_mod_cast hs)
        omega
      · exact (Int.zpow_le_iff_le_log (b := 2) (by norm_num) hspos).mp (by exact_mod_cast hlow)
    by_cases hm : f.emin ≤ i - 1
    · have hu : f.ulpExp s = i - 1 := by
        unfold Fmt.ulpExp
        rw [hlog, max_eq_right (by omega)]
        omega
      have hh : (2 : ℝ) ^ (i - 1) = (2 : ℝ) ^ i / 2 := by rw [zpow_sub_one₀ (by norm_num)]; ring
      have := rndInf_of_near (f := f) (x := s) (n := 2 * G) (by
        rw [hu, hh]; push_cast; rw [abs_lt]; constructor <;> linarith [h.1, h.2])
      rw [this, hu, hh]
      push_cast
      ring
    · have hu : f.ulpExp s = i := by
        unfold Fmt.ulpExp
        rw [hlog, max_eq_left (by omega)]
        omega
      have := rndInf_of_near (f := f) (x := s) (n := G) (by rw [hu, abs_lt]; constructor <;> linarith [h.1, h.2])
      rw [this, hu]

theorem rne_nearest (t : ℝ) (n : ℤ) : |t - rne t| ≤ |t - n| ∧ (|t - rne t| = |t - n| → n = rne t ∨ Even (rne t)) := by
  by_cases h : |t - n| < 1 / 2
  · rw [rne_near h]
    exact ⟨le_rfl, fun _ => Or.inl rfl⟩
  · rw [not_lt] at h
    have he := rne_err t
    rw [abs_sub_comm] at he
    refine ⟨he.trans h, fun hh => Or.inr ?_⟩
    have h2 : |t - rne t| = 1 / 2 := le_antisymm he (by rw [hh]; exact h)
    have hf := Int.floor_add_fract t
    have h0 := Int.fract_nonneg t
    have h1 := Int.fract_lt_one t
    unfold rne at h2 ⊢
    split_ifs at h2 ⊢ with a b c
    · rw [abs_of_nonneg (by linarith)] at h2
      linarith
    · push_cast at h2
      rw [abs_of_nonpos (by linarith)] at h2
      linarith
    · exact c
    · rw [Int.not_even_iff_odd] at c
      exact c.add_odd odd_one

/-- The rounding function is correct rounding. -/
theorem rndInf_nearest (f : Fmt) (hp : 1 ≤ f.p) (x : ℝ) : f.Nearest x (f.rndInf x) := by
  by_cases hx : x = 0
  · subst hx
    have h0 : f.OnGrid 0 := ⟨0, f.emin, by simp, le_rfl, by simp⟩
    rw [rndInf_exact h0]
    refine ⟨h0, fun g _ => ⟨by simp, fun h => Or.inl ?_⟩⟩
    simpa using h.symm
  set e := f.ulpExp x with he
  have hep := two_zpow_pos e
  set t := x * (2 : ℝ) ^ (-e) with ht
  have hxt : x = t * (2 : ℝ) ^ e := by
    rw [ht, mul_assoc, ← zpow_add₀ (by norm_num : (2 : ℝ) ≠ 0), neg_add_cancel, zpow_zero, mul_one]
  have hr : f.rndInf x = rne t * (2 : ℝ) ^ e := rfl
  have hemin : f.emin ≤ e := le_max_left _ _
  have hpp : (2 : ℝ) ^ f.p = 2 * 2 ^ (f.p - 1) := by
    rw [← pow_succ']; congr 1; omega
  have hppz : (2 : ℤ) ^ f.p = 2 * 2 ^ (f.p - 1) := by
    rw [← pow_succ']; congr 1; omega
  -- the scaled significand is below `2 ^ p`
  have htu : |t| < 2 ^ f.p := by
    have h1 : |x| < (2 : ℝ) ^ (Int.log 2 |x| + 1) := by
      have := Int.lt_zpow_succ_log_self (b := 2) (R := ℝ) (by norm_num) |x|
      exact_mod_cast this
    have h2 : Int.log 2 |x| + 1 ≤ e + f.p := by
      have : Int.log 2 |x| - (f.p - 1) ≤ e := le_max_right _ _
      omega
    have h3 : |x| < (2 : ℝ) ^ e * 2 ^ f.p := by
      refine h1.trans_le ?_
      rw [← zpow_natCast (2 : ℝ) f.p, ← zpow_add₀ (by norm_num)]
      exact zpow_le_zpow_right₀ (by norm_num) h2
    rw [hxt, abs_mul, abs_of_pos hep, mul_comm] at h3
    exact lt_of_mul_lt_mul_left h3 hep.le
  have hnu : |rne t| ≤ 2 ^ f.p := by
    have h1 := (rne_nearest t (if 0 ≤ t then 2 ^ f.p else -2 ^ f.p)).1
    rw [abs_lt] at htu
    have : |(rne t : ℝ)| ≤ 2 ^ f.p := by
      rw [abs_le] at h1 ⊢
      split_ifs at h1 with h0
      · push_cast at h1
        rw [abs_of_nonpos (by linarith)] at h1
        have hlow : -1 < (rne t : ℝ) := by
          have := rne_err t
          rw [abs_le] at this
          linarith [this.1]
        have : (1 : ℝ) ≤ 2 ^ f.p := one_le_pow₀ (by norm_num)
        constructor <;> linarith [h1.1, h1.2]
      · push_cast at h1
        rw [abs_of_nonneg (by linarith)] at h1
        have hlow : (rne t : ℝ) < 1 := by
          have := rne_err t
          rw [abs_le] at this
          linarith [this.2]
        have : (1 : ℝ) ≤ 2 ^ f.p := one_le_pow₀ (by norm_num)
        constructor <;> linarith [h1.1, h1.2]
    exact_mod_cast this
  -- for numbers above the subnormals it is at least `2 ^ (p - 1)`
  have hbig : f.emin < e → (2 : ℝ) ^ (f.p - 1) ≤ |t| := by
    intro hlt
    have hel : e = Int.log 2 |x| - (f.p - 1) := by
      rcases max_choice f.emin (Int.log 2 |x| - (f.p - 1)) with h | h
      · exact absurd (he.trans h) (by omega)
      · exact he.trans h
    have h1 : (2 : ℝ) ^ Int.log 2 |x| ≤ |x| := by
      have := Int.zpow_log_le_self (b := 2) (R := ℝ) (by norm_num) (abs_pos.mpr hx)
      exact_mod_cast this
    rw [show Int.log 2 |x| = ((f.p - 1 : ℕ) : ℤ) + e from by omega, zpow_add₀ (by norm_num), zpow_natCast] at h1
    rw [hxt, abs_mul, abs_of_pos hep] at h1
    exact le_of_mul_le_mul_right h1 hep
  have hnbig : f.emin < e → 2 ^ (f.p - 1) ≤ |rne t| := by
    intro hlt
    have hb := hbig hlt
    by_contra hc
    rw [not_le] at hc
    have hc' : |(rne t : ℝ)| + 1 ≤ 2 ^ (f.p - 1) := by exact_mod_cast hc
    have h1 := abs_sub_abs_le_abs_sub t (rne t)
    have h2 := rne_err t
    rw [abs_sub_comm] at h2
    linarith
  have hgrid : f.OnGrid (f.rndInf x) := by
    rw [hr]
    rcases lt_or_eq_of_le hnu with h | h
    · exact ⟨rne t, e, h, hemin, rfl⟩
    · refine ⟨(rne t).sign * 2 ^ (f.p - 1), e + 1, ?_, by omega, ?_⟩
      · have hn0 : rne t ≠ 0 := by
          intro h0
          rw [h0, abs_zero] at h
          exact absurd h.symm (by positivity)
        rw [abs_mul, Int.abs_sign_of_ne_zero hn0, one_mul, abs_of_pos (by positivity), hppz]
        have : (0 : ℤ) < 2 ^ (f.p - 1) := by positivity
        omega
      · have hs : rne t = (rne t).sign * (2 * 2 ^ (f.p - 1)) := by
          rw [← hppz, ← h, Int.sign_mul_abs]
        conv_lhs => rw [hs]
        rw [zpow_add_one₀ (by norm_num)]
        push_cast
        ring
  have hscale : ∀ a b : ℝ, |a * (2 : ℝ) ^ e - b * (2 : ℝ) ^ e| = |a - b| * (2 : ℝ) ^ e := by
    intro a b
    rw [← sub_mul, abs_mul, abs_of_pos hep]
  refine ⟨hgrid, fun g hg => ?_⟩
  obtain ⟨m, k, hm, hk, rfl⟩ := hg
  rw [hr]
  by_cases hke : e ≤ k
  · -- a multiple of the unit in the last place
    obtain ⟨d, hd⟩ := Int.le.dest hke
    have hn : (m : ℝ) * (2 : ℝ) ^ k = ((m * 2 ^ d : ℤ) : ℝ) * (2 : ℝ) ^ e := by
      rw [← hd, zpow_add₀ (by norm_num), zpow_natCast]; push_cast; ring
    obtain ⟨h1, h2⟩ := rne_nearest t (m * 2 ^ d)
    rw [hn, hxt, hscale, hscale]
    refine ⟨mul_le_mul_of_nonneg_right h1 hep.le, fun h => ?_⟩
    rcases h2 (mul_right_cancel₀ hep.ne' h) with h3 | h3
    · left; rw [h3]
    · right
      refine ⟨rne t, e, h3, hnu, hemin, ?_, rfl⟩
      rcases lt_or_eq_of_le hemin with h4 | h4
      · exact Or.inr (hnbig h4)
      · exact Or.inl h4.symm
  · -- a smaller number than `x`, separated from it by a power of two
    rw [not_le] at hke
    have hb := hbig (by omega)
    have hg : |(m : ℝ) * (2 : ℝ) ^ k| < 2 ^ (f.p - 1) * (2 : ℝ) ^ e := by
      rw [abs_mul, abs_of_pos (two_zpow_pos k)]
      have h1 : |(m : ℝ)| < 2 ^ f.p := by exact_mod_cast hm
      have h2 : (2 : ℝ) ^ k ≤ (2 : ℝ) ^ e / 2 := by
        rw [show (2 : ℝ) ^ e / 2 = (2 : ℝ) ^ (e - 1) from by rw [zpow_sub_one₀ (by norm_num)]; ring]
        exact zpow_le_zpow_right₀ (by norm_num) (by omega)
      calc |(m : ℝ)| * (2 : ℝ) ^ k < 2 ^ f.p * (2 : ℝ) ^ k := mul_lt_mul_of_pos_right h1 (two_zpow_pos k)
        _ ≤ 2 ^ f.p * ((2 : ℝ) ^ e / 2) := mul_le_mul_of_nonneg_left h2 (by positivity)
        _ = _ := by rw [hpp]; ring
    have hstrict : |x - rne t * (2 : ℝ) ^ e| < |x - m * (2 : ℝ) ^ k| := by
      have h1 := (rne_nearest t (if 0 ≤ t then 2 ^ (f.p - 1) else -2 ^ (f.p - 1))).1
      rw [abs_lt] at hg
      rw [hxt, hscale]
      refine (mul_le_mul_of_nonneg_right h1 hep.le).trans_lt ?_
      split_ifs with h0
      · rw [abs_of_nonneg h0] at hb
        push_cast
        rw [abs_of_nonneg (by linarith), sub_mul]
        exact (by linarith [hg.2] : t * (2 : ℝ) ^ e - 2 ^ (f.p - 1) * (2 : ℝ) ^ e
          < t * (2 : ℝ) ^ e - m * (2 : ℝ) ^ k).trans_le (le_abs_self _)
      · rw [abs_of_neg (not_le.mp h0)] at hb
        push_cast
        rw [abs_of_nonpos (by linarith)]
        refine lt_of_lt_of_le ?_ (neg_le_abs _)
        linarith [hg.1]
    exact ⟨hstrict.le, fun h => absurd h hstrict.ne⟩

/-- Every number on the grid is subnormal or has a full significand. -/
theorem onGrid_canonical {f : Fmt} (hp : 1 ≤ f.p) {x : ℝ} (h : f.OnGrid x) :
    ∃ m k : ℤ, |m| < 2 ^ f.p ∧ f.emin ≤ k ∧ x = m * (2 : ℝ) ^ k ∧ (k = f.emin ∨ 2 ^ (f.p - 1) ≤ |m|) := by
  obtain ⟨m, k, hm, hk, rfl⟩ := h
  obtain ⟨d, hd⟩ := Int.le.dest hk
  induction d generalizing m k with
  | zero => exact ⟨m, k, hm, hk, rfl, Or.inl (by omega)⟩
  | succ d ih =>
    by_cases hb : 2 ^ (f.p - 1) ≤ |m|
    · exact ⟨m, k, hm, hk, rfl, Or.inr hb⟩
    · obtain ⟨m', k', h1, h2, h3, h4⟩ := ih (2 * m) (k - 1) (by
        rw [abs_mul, show (2 : ℤ) ^ f.p = 2 * 2 ^ (f.p - 1) from by rw [← pow_succ']; congr 1; omega]
        rw [not_le] at hb
        simpa using hb) (by omega) (by omega)
      refine ⟨m', k', h1, h2, ?_, h4⟩
      rw [← h3, zpow_sub_one₀ (by norm_num)]
      push_cast
      ring

theorem onGrid_neg {f : Fmt} {x : ℝ} (h : f.OnGrid x) : f.OnGrid (-x) := by
  obtain ⟨m, k, h1, h2, rfl⟩ := h
  exact ⟨-m, k, by rwa [abs_neg], h2, by push_cast; ring⟩

/-- Sum of two binary16 numbers whose exponents differ so much that the sum needs more than 24 bits: rounding it to 24
bits first does not matter.  Positive case. -/
theorem half_sum_far {X i j : ℤ} {y : ℝ} {Y : ℤ} (hX1 : 2 ^ 10 ≤ X) (hX2 : X < 2 ^ 11) (hi : -24 ≤ i) (hij : j + 13 ≤ i)
    (hY : |Y| < 2 ^ 11) (hy : y = Y * (2 : ℝ) ^ j) :
    |binary32.rndInf (X * (2 : ℝ) ^ i + y) - (X * (2 : ℝ) ^ i + y)| ≤ (2 : ℝ) ^ i / 2 ^ 14 ∧
    binary16.rndInf (binary32.rndInf (X * (2 : ℝ) ^ i + y)) = X * (2 : ℝ) ^ i ∧
    binary16.rndInf (X * (2 : ℝ) ^ i + y) = X * (2 : ℝ) ^ i := by
  have hip := two_zpow_pos i
  have hyb : |y| ≤ (2 : ℝ) ^ i / 4 - (2 : ℝ) ^ i / 2 ^ 13 := by
    rw [hy, abs_mul, abs_of_pos (two_zpow_pos j)]
    have h1 : |(Y : ℝ)| ≤ 2 ^ 11 - 1 := by
      have : |Y| ≤ 2 ^ 11 - 1 := by omega
      exact_mod_cast this
    have h2 : (2 : ℝ) ^ j ≤ (2 : ℝ) ^ i / 2 ^ 13 := by
      rw [show (2 : ℝ) ^ i / 2 ^ 13 = (2 : ℝ) ^ (i - 13) from by
        rw [zpow_sub₀ (by norm_num)]; norm_num]
      exact zpow_le_zpow_right₀ (by norm_num) (by omega)
    calc |(Y : ℝ)| * (2 : ℝ) ^ j ≤ (2 ^ 11 - 1) * ((2 : ℝ) ^ i / 2 ^ 13) :=
          mul_le_mul h1 h2 (two_zpow_pos j).le (by norm_num)
      _ = _ := by ring
  have hX1' : (2 : ℝ) ^ 10 ≤ X := by exact_mod_cast hX1
  have hX2' : (X : ℝ) + 1 ≤ 2 ^ 11 := by exact_mod_cast hX2
  rw [abs_le] at hyb
  set s := (X : ℝ) * (2 : ℝ) ^ i + y with hs
  have hs0 : 0 < s := by rw [hs]; nlinarith [hyb.1]
  have hsu : s < (2 : ℝ) ^ (i + 11) := by
    rw [zpow_add₀ (by norm_num), show (2 : ℝ) ^ (11 : ℤ) = 2 ^ 11 from by norm_num, hs]
    nlinarith [hyb.2]
  have hu : binary32.ulpExp s ≤ i - 13 := by
    apply ulpExp_le
    · show (-149 : ℤ) ≤ i - 13
      omega
    · rw [abs_of_pos hs0, show i - 13 + (binary32.p : ℤ) = i + 11 from by show i - 13 + (24 : ℤ) = _; ring]
      exact hsu
    · exact hs0.ne'
  have herr : |binary32.rndInf s - s| ≤ (2 : ℝ) ^ i / 2 ^ 14 := by
    refine (rndInf_err _ _).trans ?_
    have : (2 : ℝ) ^ binary32.ulpExp s ≤ (2 : ℝ) ^ (i - 13) := zpow_le_zpow_right₀ (by norm_num) hu
    rw [zpow_sub₀ (by norm_num), show (2 : ℝ) ^ (13 : ℤ) = 2 ^ 13 from by norm_num] at this
    calc _ ≤ (2 : ℝ) ^ i / 2 ^ 13 / 2 := by linarith
      _ = _ := by ring
  refine ⟨herr, ?_, ?_⟩
  · apply rndInf_near_normal (f := binary16) (by decide) hX1 hX2 hi
    rw [abs_le] at herr
    rw [abs_lt]
    constructor <;> nlinarith [herr.1, herr.2, hyb.1, hyb.2]
  · apply rndInf_near_normal (f := binary16) (by decide) hX1 hX2 hi
    rw [hs, add_sub_cancel_left, abs_lt]
    constructor <;> linarith [hyb.1, hyb.2]

/-- Double rounding of a sum of two binary16 numbers is innocuous. -/
theorem half_sum {x y : ℝ} (hx : binary16.OnGrid x) (hy : binary16.OnGrid y) :
    |binary32.rndInf (x + y) - (x + y)| ≤ |x + y| ∧
    binary16.rndInf (binary32.rndInf (x + y)) = binary16.rndInf (x + y) := by
  obtain ⟨X, i, hX, hi, hxe, hxc⟩ := onGrid_canonical (by decide) hx
  obtain ⟨Y, j, hY, hj, hye, hyc⟩ := onGrid_canonical (by decide) hy
  replace hX : |X| < 2 ^ 11 := hX
  replace hY : |Y| < 2 ^ 11 := hY
  replace hi : -24 ≤ i := hi
  replace hj : -24 ≤ j := hj
  replace hxc : i = -24 ∨ 2 ^ 10 ≤ |X| := hxc
  replace hyc : j = -24 ∨ 2 ^ 10 ≤ |Y| := hyc
  clear hx hy
  wlog hij : j ≤ i generalizing x y X Y i j
  · have h := this (x := y) (y := x) (X := Y) (i := j) (Y := X) (j := i) (hX := hY) (hY := hX) (hi := hj) (hj := hi)
      (hxe := hye) (hye := hxe) (hxc := hyc) (hyc := hxc) (by omega)
    rwa [add_comm y x] at h
  obtain ⟨d, rfl⟩ := Int.le.dest hij
  have hsum : x + y = ((X * 2 ^ d + Y : ℤ) : ℝ) * (2 : ℝ) ^ j := by
    rw [hxe, hye, zpow_add₀ (by norm_num), zpow_natCast]; push_cast; ring
  by_cases hex : |X * 2 ^ d + Y| < 2 ^ 24
  · have : binary32.rndInf (x + y) = x + y :=
      rndInf_exact ⟨_, j, hex, by show (-149 : ℤ) ≤ j; omega, hsum⟩
    rw [this]
    simp
  · -- the exponents differ by at least 13
    have hd : 13 ≤ d := by
      by_contra hc
      apply hex
      have h1 : |X * 2 ^ d + Y| ≤ |X| * 2 ^ d + |Y| := by
        refine (abs_add_le _ _).trans ?_
        rw [abs_mul, abs_of_pos (by positivity : (0 : ℤ) < 2 ^ d)]
      have h2 : (2 : ℤ) ^ d ≤ 2 ^ 12 := pow_le_pow_right₀ (by norm_num) (by omega)
      have h3 : |X| * 2 ^ d ≤ (2 ^ 11 - 1) * 2 ^ 12 :=
        mul_le_mul (by omega) h2 (by positivity) (by norm_num)
      norm_num at h3 ⊢
      omega
    have hX1 : 2 ^ 10 ≤ |X| := by
      rcases hxc with h | h
      · omega
      · exact h
    have hsmall : ∀ (X : ℤ) (y : ℝ) (Y : ℤ), 2 ^ 10 ≤ X → |Y| < 2 ^ 11 → y = Y * (2 : ℝ) ^ j →
        (2 : ℝ) ^ (j + (d : ℤ)) / 2 ^ 14 ≤ |(X : ℝ) * (2 : ℝ) ^ (j + (d : ℤ)) + y| := by
      intro X y Y hX hY hy
      have hip := two_zpow_pos (j + (d : ℤ))
      have hjd : (2 : ℝ) ^ j ≤ (2 : ℝ) ^ (j + (d : ℤ)) / 2 ^ 13 := by
        rw [show (2 : ℝ) ^ (j + (d : ℤ)) / 2 ^ 13 = (2 : ℝ) ^ (j + (d : ℤ) - 13) from by
          rw [zpow_sub₀ (by norm_num)]; norm_num]
        exact zpow_le_zpow_right₀ (by norm_num) (by omega)
      have hyb : |y| ≤ (2 : ℝ) ^ (j + (d : ℤ)) := by
        rw [hy, abs_mul, abs_of_pos (two_zpow_pos j)]
        have h1 : |(Y : ℝ)| ≤ 2 ^ 11 := by exact_mod_cast hY.le
        calc |(Y : ℝ)| * (2 : ℝ) ^ j ≤ 2 ^ 11 * ((2 : ℝ) ^ (j + (d : ℤ)) / 2 ^ 13) :=
              mul_le_mul h1 hjd (two_zpow_pos j).le (by norm_num)
          _ ≤ _ := by linarith
      have hX' : (2 : ℝ) ^ 10 ≤ X := by exact_mod_cast hX
      rw [abs_le] at hyb
      refine le_trans ?_ (le_abs_self _)
      nlinarith [hyb.1]
    rcases abs_cases X with ⟨e, _⟩ | ⟨e, _⟩
    · rw [e] at hX1 hX
      obtain ⟨h1, h2, h3⟩ := half_sum_far hX1 hX hi (by omega) hY hye
      rw [hxe]
      exact ⟨h1.trans (hsmall X y Y hX1 hY hye), by rw [h2, h3]⟩
    · rw [e] at hX1 hX
      have hye' : -y = ((-Y : ℤ) : ℝ) * (2 : ℝ) ^ j := by rw [hye]; push_cast; ring
      have hY' : |-Y| < 2 ^ 11 := by rwa [abs_neg]
      obtain ⟨h1, h2, h3⟩ := half_sum_far hX1 hX hi (by omega) hY' hye'
      have hm := hsmall (-X) (-y) (-Y) hX1 hY' hye'
      have en : x + y = -(((-X : ℤ) : ℝ) * (2 : ℝ) ^ (j + (d : ℤ)) + -y) := by rw [hxe]; push_cast; ring
      rw [en, rndInf_neg, rndInf_neg, rndInf_neg, h2, h3]
      refine ⟨?_, rfl⟩
      rw [abs_neg, ← neg_sub', abs_neg]
      exact h1.trans hm

/-- The product of two binary16 numbers is a binary32 number. -/
theorem half_mul {x y : ℝ} (hx : binary16.OnGrid x) (hy : binary16.OnGrid y) : binary32.rndInf (x * y) = x * y := by
  obtain ⟨X, i, hX, hi, rfl⟩ := hx
  obtain ⟨Y, j, hY, hj, rfl⟩ := hy
  replace hX : |X| < 2 ^ 11 := hX
  replace hY : |Y| < 2 ^ 11 := hY
  replace hi : -24 ≤ i := hi
  replace hj : -24 ≤ j := hj
  refine rndInf_exact ⟨X * Y, i + j, ?_, ?_, ?_⟩
  · show |X * Y| < 2 ^ 24
    rw [abs_mul]
    have : |X| * |Y| ≤ 2 ^ 11 * 2 ^ 11 := mul_le_mul hX.le hY.le (abs_nonneg _) (by norm_num)
    norm_num at this ⊢
    omega
  · show (-149 : ℤ) ≤ i + j
    omega
  · rw [zpow_add₀ (by norm_num)]
    push_cast
    ring

end Neo
