import Verif.Lemmas.FastMath

/-! # C68: the approximate logarithms -/

namespace Neo.Props

open Neo

/-- The masked bit pattern is the mantissa divided by two. -/
private theorem mantissa_bits (vx : ℕ) :
    f32val ((vx &&& 0x007FFFFF) ||| 0x3f000000) = ((2 ^ 23 + vx % 2 ^ 23 : ℕ) : ℝ) / 2 ^ 24 := by
  have h1 : vx &&& 0x007FFFFF = vx % 2 ^ 23 := Nat.and_two_pow_sub_one_eq_mod vx 23
  have hlt : vx % 2 ^ 23 < 2 ^ 23 := Nat.mod_lt _ (by norm_num)
  have h2 : vx % 2 ^ 23 ||| 0x3f000000 = 2 ^ 23 * 126 + vx % 2 ^ 23 := by
    rw [Nat.two_pow_add_eq_or_of_lt hlt, Nat.lor_comm]
  rw [h1, h2]
  unfold f32val
  have e1 : (2 ^ 23 * 126 + vx % 2 ^ 23) / 2 ^ 31 % 2 = 0 := by omega
  have e2 : (2 ^ 23 * 126 + vx % 2 ^ 23) / 2 ^ 23 % 2 ^ 8 = 126 := by omega
  have e3 : (2 ^ 23 * 126 + vx % 2 ^ 23) % 2 ^ 23 = vx % 2 ^ 23 := by omega
  dsimp only
  rw [e1, e2, e3, if_pos rfl, if_neg (by norm_num), one_mul]
  rw [show (((126 : ℕ) : ℤ) - 150) = -24 by norm_num, zpow_neg, div_eq_mul_inv]
  norm_cast

/-- Half the mantissa of a bit pattern. -/
private noncomputable def half (vx : ℕ) : ℝ := ((2 ^ 23 + vx % 2 ^ 23 : ℕ) : ℝ) / 2 ^ 24

private theorem half_bounds (vx : ℕ) : 1 / 2 ≤ half vx ∧ half vx ≤ 1 := by
  unfold half
  have hlt : vx % 2 ^ 23 < 2 ^ 23 := Nat.mod_lt _ (by norm_num)
  have h2 : ((vx % 2 ^ 23 : ℕ) : ℝ) < 2 ^ 23 := by exact_mod_cast hlt
  have h3 : (0 : ℝ) ≤ ((vx % 2 ^ 23 : ℕ) : ℝ) := Nat.cast_nonneg _
  rw [Nat.cast_add]
  generalize ((vx % 2 ^ 23 : ℕ) : ℝ) = f at *
  norm_num at *
  constructor <;> linarith

/-- The number scaled to units of `2^23` is exponent plus fraction. -/
private theorem scaled_bits (vx : ℕ) : (vx : ℝ) / 2 ^ 23 = ((vx / 2 ^ 23 : ℕ) : ℝ) + (2 * half vx - 1) := by
  have h : (vx : ℝ) = ((2 ^ 23 * (vx / 2 ^ 23) + vx % 2 ^ 23 : ℕ) : ℝ) := by rw [Nat.div_add_mod]
  unfold half
  rw [h]
  push_cast
  ring

/-- Value of a normal positive number. -/
private theorem value_bits {vx : ℕ} (h1 : 2 ^ 23 ≤ vx) (h2 : vx < 255 * 2 ^ 23) :
    f32val vx = 2 * half vx * 2 ^ (((vx / 2 ^ 23 : ℕ) : ℤ) - 127) := by
  unfold f32val half
  have e1 : vx / 2 ^ 31 % 2 = 0 := by omega
  have e2 : vx / 2 ^ 23 % 2 ^ 8 = vx / 2 ^ 23 := by omega
  have e3 : vx / 2 ^ 23 ≠ 0 := by omega
  dsimp only
  rw [e1, e2, if_pos rfl, if_neg e3, one_mul]
  rw [show (((vx / 2 ^ 23 : ℕ) : ℤ) - 150) = (((vx / 2 ^ 23 : ℕ) : ℤ) - 127) + (-23) by ring,
    zpow_add₀ (by norm_num)]
  norm_num
  ring

private theorem logb_value {vx : ℕ} (h1 : 2 ^ 23 ≤ vx) (h2 : vx < 255 * 2 ^ 23) :
    Real.logb 2 (f32val vx) = (((vx / 2 ^ 23 : ℕ) : ℝ) - 127) + Real.logb 2 (2 * half vx) := by
  have hb := (half_bounds vx).1
  rw [value_bits h1 h2, Real.logb_mul (by linarith) (by positivity), ← Real.rpow_intCast,
    Real.logb_rpow (by norm_num) (by norm_num), Int.cast_sub, Int.cast_natCast, Int.cast_ofNat]
  ring

/-- One rounded operation: error of an approximate argument plus the rounding. -/
private theorem rnd_step {rnd : ℝ → ℝ} {u : ℝ} (hrnd : ∀ x, |rnd x - x| ≤ u * |x|) (hu : 0 ≤ u) {X x e M : ℝ}
    (h1 : |X - x| ≤ e) (h2 : |x| ≤ M) : |rnd X - x| ≤ e + u * (M + e) := by
  have h3 : |X| ≤ M + e := by
    calc |X| = |(X - x) + x| := by ring_nf
      _ ≤ |X - x| + |x| := abs_add_le _ _
      _ ≤ M + e := by linarith
  calc |rnd X - x| = |(rnd X - X) + (X - x)| := by ring_nf
    _ ≤ |rnd X - X| + |X - x| := abs_add_le _ _
    _ ≤ u * |X| + e := add_le_add (hrnd X) h1
    _ ≤ u * (M + e) + e := by gcongr
    _ = e + u * (M + e) := by ring

/-- **C68**, `fast_log2`.  For every positive normal `float` and every rounding with relative error at most `2^-24`, the
result is within `2.5e-4` of the binary logarithm. -/
theorem C68_fast_log2 (rnd : ℝ → ℝ) (hrnd : ∀ x, |rnd x - x| ≤ 2⁻¹ ^ 24 * |x|) (vx : ℕ) (h1 : 2 ^ 23 ≤ vx)
    (h2 : vx < 255 * 2 ^ 23) : |fastLog2 rnd vx - Real.logb 2 (f32val vx)| ≤ 0.00025 := by
  have hu : (0 : ℝ) ≤ 2⁻¹ ^ 24 := by positivity
  obtain ⟨m1, m2⟩ := half_bounds vx
  have hoct := octave_err m1 m2
  have hs := scaled_bits vx
  have hm := mantissa_bits vx
  change _ = half vx at hm
  rw [logb_value h1 h2]
  have he1 : (1 : ℝ) ≤ ((vx / 2 ^ 23 : ℕ) : ℝ) := by
    exact_mod_cast (show 1 ≤ vx / 2 ^ 23 by omega)
  have he2 : ((vx / 2 ^ 23 : ℕ) : ℝ) ≤ 254 := by
    exact_mod_cast (show vx / 2 ^ 23 ≤ 254 by omega)
  unfold fastLog2
  rw [hm]
  dsimp only
  set m := half vx
  set e := ((vx / 2 ^ 23 : ℕ) : ℝ)
  set s := (vx : ℝ) / 2 ^ 23 with hsd
  have hs1 : 0 ≤ s := by rw [hs]; linarith
  have hs2 : s ≤ 255 := by rw [hs]; linarith
  -- conversion and scaling
  have eA : |rnd vx / 2 ^ 23 - s| ≤ 0.0000153 := by
    have h := hrnd vx
    rw [abs_of_nonneg (show (0 : ℝ) ≤ (vx : ℝ) from Nat.cast_nonneg vx)] at h
    rw [hsd, ← sub_div, abs_div, abs_of_pos (by norm_num : (0 : ℝ) < 2 ^ 23), div_le_iff₀ (by norm_num)]
    refine h.trans ?_
    have : (vx : ℝ) ≤ 255 * 2 ^ 23 := by
      have := (div_le_iff₀ (by norm_num : (0 : ℝ) < 2 ^ 23)).1 hs2
      exact this
    norm_num at this ⊢
    linarith
  have eB : |rnd 1.1920928955078125e-7 * 2 ^ 23 - 1| ≤ 0.00000006 := by
    have h := abs_le.1 (hrnd 1.1920928955078125e-7)
    rw [abs_le]
    norm_num at h ⊢
    constructor <;> linarith
  have eAB : |rnd vx * rnd 1.1920928955078125e-7 - s| ≤ 0.0000307 := by
    have e0 : rnd vx * rnd 1.1920928955078125e-7
        = (rnd vx / 2 ^ 23) * (rnd 1.1920928955078125e-7 * 2 ^ 23) := by field_simp
    rw [e0]
    generalize rnd vx / 2 ^ 23 = a at *
    generalize rnd 1.1920928955078125e-7 * 2 ^ 23 = b at *
    have ha : |a| ≤ 256 := by
      have := abs_le.1 eA
      rw [abs_le]
      norm_num at this ⊢
      constructor <;> linarith
    calc |a * b - s| = |a * (b - 1) + (a - s)| := by ring_nf
      _ ≤ |a * (b - 1)| + |a - s| := abs_add_le _ _
      _ = |a| * |b - 1| + |a - s| := by rw [abs_mul]
      _ ≤ 256 * 0.00000006 + 0.0000153 := by gcongr
      _ ≤ 0.0000307 := by norm_num
  have ey := rnd_step hrnd hu eAB (M := 255) (by rw [abs_of_nonneg hs1]; exact hs2)
  set y := rnd (rnd vx * rnd 1.1920928955078125e-7)
  have ec0 := hrnd 124.22551499
  set c0 := rnd 124.22551499
  have eY1 := rnd_step hrnd hu (X := y - c0) (x := s - 124.22551499) (e := 0.000054) (M := 131)
    (by
      have a1 := abs_le.1 ey
      have a2 := abs_le.1 ec0
      rw [abs_le]
      norm_num at a1 a2 ⊢
      constructor <;> linarith)
    (by rw [abs_le]; norm_num; constructor <;> linarith)
  set Y1 := rnd (y - c0)
  have ec1 := hrnd 1.498030302
  set c1 := rnd 1.498030302
  have eC := rnd_step hrnd hu (X := c1 * m) (x := 1.498030302 * m) (e := 0.0000001) (M := 1.5)
    (by
      rw [← sub_mul, abs_mul, abs_of_nonneg (by linarith : 0 ≤ m)]
      calc _ ≤ |c1 - 1.498030302| * 1 := by gcongr
        _ ≤ _ := by rw [mul_one]; refine ec1.trans ?_; norm_num [abs_of_pos])
    (by rw [abs_le]; norm_num; constructor <;> linarith)
  set C := rnd (c1 * m)
  have eY2 := rnd_step hrnd hu (X := Y1 - C) (x := s - 124.22551499 - 1.498030302 * m) (e := 0.0000625) (M := 133)
    (by
      have a1 := abs_le.1 eY1
      have a2 := abs_le.1 eC
      rw [abs_le]
      norm_num at a1 a2 ⊢
      constructor <;> linarith)
    (by rw [abs_le]; norm_num; constructor <;> linarith)
  set Y2 := rnd (Y1 - C)
  have ec3 := hrnd 0.3520887068
  set c3 := rnd 0.3520887068
  have eq := rnd_step hrnd hu (X := c3 + m) (x := 0.3520887068 + m) (e := 0.00000003) (M := 1.4)
    (by
      have a1 := abs_le.1 ec3
      rw [abs_le]
      norm_num [abs_of_pos] at a1 ⊢
      constructor <;> linarith)
    (by rw [abs_le]; norm_num; constructor <;> linarith)
  set q := rnd (c3 + m)
  have ec2 := hrnd 1.72587999
  set c2 := rnd 1.72587999
  have eQ := rnd_step hrnd hu (X := c2 / q) (x := 1.72587999 / (0.3520887068 + m)) (e := 0.0000005) (M := 2.1)
    (by
      have a1 := abs_le.1 eq
      have a2 : |c2 - 1.72587999| ≤ 0.00000011 := ec2.trans (by norm_num [abs_of_pos])
      have hx : (0.85 : ℝ) ≤ 0.3520887068 + m := by norm_num; linarith
      have hq : (0.84 : ℝ) ≤ q := by norm_num at a1 ⊢; linarith
      have a3 : |q - (0.3520887068 + m)| ≤ 0.00000012 := eq.trans (by norm_num)
      generalize 0.3520887068 + m = x at *
      have hxp : 0 < x := lt_of_lt_of_le (by norm_num) hx
      have hqp : 0 < q := lt_of_lt_of_le (by norm_num) hq
      have e0 : c2 / q - 1.72587999 / x = ((c2 - 1.72587999) * x + 1.72587999 * (x - q)) / (q * x) := by
        field_simp
        ring
      rw [e0, abs_div, abs_of_pos (mul_pos hqp hxp), div_le_iff₀ (mul_pos hqp hxp)]
      have hqx : 0.84 * x ≤ q * x := by gcongr
      calc |(c2 - 1.72587999) * x + 1.72587999 * (x - q)|
          ≤ |(c2 - 1.72587999) * x| + |1.72587999 * (x - q)| := abs_add_le _ _
        _ = |c2 - 1.72587999| * x + 1.72587999 * |q - x| := by
          rw [abs_mul, abs_mul, abs_of_pos hxp, abs_of_pos (by norm_num : (0 : ℝ) < 1.72587999), abs_sub_comm x q]
        _ ≤ 0.00000011 * x + 1.72587999 * 0.00000012 := by gcongr
        _ ≤ 0.0000005 * (0.84 * x) := by norm_num at hx ⊢; linarith
        _ ≤ 0.0000005 * (q * x) := by gcongr)
    (by
      rw [abs_of_pos (div_pos (by norm_num) (by norm_num; linarith)), div_le_iff₀ (by norm_num; linarith)]
      norm_num; linarith)
  set Q := rnd (c2 / q)
  have ediv1 : 1.72587999 / (0.3520887068 + m) ≤ 2.1 := by
    rw [div_le_iff₀ (by norm_num; linarith)]; norm_num; linarith
  have ediv0 : 0 ≤ 1.72587999 / (0.3520887068 + m) := div_nonneg (by norm_num) (by norm_num; linarith)
  have eF := rnd_step hrnd hu (X := Y2 - Q)
    (x := s - 124.22551499 - 1.498030302 * m - 1.72587999 / (0.3520887068 + m)) (e := 0.0000715) (M := 136)
    (by
      have a1 := abs_le.1 eY2
      have a2 := abs_le.1 eQ
      generalize 1.72587999 / (0.3520887068 + m) = d at *
      rw [abs_le]
      norm_num at a1 a2 ⊢
      constructor <;> linarith)
    (by
      generalize 1.72587999 / (0.3520887068 + m) = d at *
      rw [abs_le]
      norm_num at ediv1 ⊢
      constructor <;> linarith)
  have e9 : s - 124.22551499 - 1.498030302 * m - 1.72587999 / (0.3520887068 + m) = (e - 127) + octave m := by
    rw [hs]
    unfold octave
    ring
  rw [e9] at eF
  have a1 := abs_le.1 eF
  have a2 := abs_le.1 hoct
  rw [abs_le]
  norm_num at a1 a2 ⊢
  constructor <;> linarith

/-! ## Decimal logarithm and decibels -/

/-- The literal `0.30102999566` against `log10 2`. -/
private theorem log10_two : |Real.logb 10 2 - 0.30102999566| ≤ 0.0000001451 := by
  have h2a := Real.log_two_gt_d9
  have h2b := Real.log_two_lt_d9
  have he := atanhSum_err (u := 1 / 9) (by rw [abs_of_pos] <;> norm_num)
  have h54 : Real.log (1 + 1 / 9) - Real.log (1 - 1 / 9) = Real.log 5 - 2 * Real.log 2 := by
    rw [← Real.log_div (by norm_num) (by norm_num)]
    rw [show ((1 : ℝ) + 1 / 9) / (1 - 1 / 9) = 5 / 2 ^ 2 by norm_num, Real.log_div (by norm_num) (by norm_num),
      Real.log_pow]
    norm_num
  have h10 : Real.log 10 = Real.log 5 + Real.log 2 := by
    rw [← Real.log_mul (by norm_num) (by norm_num)]
    norm_num
  rw [h54] at he
  unfold atanhSum at he
  unfold Real.logb
  have hpos : 0 < Real.log 10 := Real.log_pos (by norm_num)
  have e0 : Real.log 2 / Real.log 10 - 0.30102999566
      = (Real.log 2 - 0.30102999566 * Real.log 10) / Real.log 10 := by field_simp
  rw [e0, abs_div, abs_of_pos hpos, div_le_iff₀ hpos, h10]
  have he' := abs_le.1 he
  rw [abs_le]
  norm_num at he' h2a h2b ⊢
  constructor <;> linarith

private theorem logb_ten (x : ℝ) : Real.logb 10 x = Real.logb 2 x * Real.logb 10 2 := by
  unfold Real.logb
  have : Real.log 2 ≠ 0 := (Real.log_pos (by norm_num)).ne'
  field_simp

private theorem logb_range {vx : ℕ} (h1 : 2 ^ 23 ≤ vx) (h2 : vx < 255 * 2 ^ 23) :
    |Real.logb 2 (f32val vx)| ≤ 128 := by
  rw [logb_value h1 h2]
  obtain ⟨m1, m2⟩ := half_bounds vx
  have he1 : (1 : ℝ) ≤ ((vx / 2 ^ 23 : ℕ) : ℝ) := by
    exact_mod_cast (show 1 ≤ vx / 2 ^ 23 by omega)
  have he2 : ((vx / 2 ^ 23 : ℕ) : ℝ) ≤ 254 := by
    exact_mod_cast (show vx / 2 ^ 23 ≤ 254 by omega)
  have l1 : 0 ≤ Real.logb 2 (2 * half vx) := Real.logb_nonneg (by norm_num) (by linarith)
  have l2 : Real.logb 2 (2 * half vx) ≤ 1 := by
    rw [← Real.logb_self_eq_one (b := 2) (by norm_num)]
    exact Real.logb_le_logb_of_le (by norm_num) (by linarith) (by linarith)
  rw [abs_le]
  constructor <;> linarith

/-- **C68**, `fast_log10`.  Within `1e-4` of the decimal logarithm, for every positive normal `float`. -/
theorem C68_fast_log10 (rnd : ℝ → ℝ) (hrnd : ∀ x, |rnd x - x| ≤ 2⁻¹ ^ 24 * |x|) (vx : ℕ) (h1 : 2 ^ 23 ≤ vx)
    (h2 : vx < 255 * 2 ^ 23) : |fastLog10 rnd vx - Real.logb 10 (f32val vx)| ≤ 0.0001 := by
  have hu : (0 : ℝ) ≤ 2⁻¹ ^ 24 := by positivity
  have hl := C68_fast_log2 rnd hrnd vx h1 h2
  have hr := logb_range h1 h2
  have hc := log10_two
  unfold fastLog10
  rw [logb_ten]
  set L := Real.logb 2 (f32val vx)
  set X := fastLog2 rnd vx
  set k := Real.logb 10 2
  have hk : |rnd 0.30102999566 - k| ≤ 0.0000001631 := by
    have a1 := abs_le.1 (hrnd 0.30102999566)
    have a2 := abs_le.1 hc
    rw [abs_le]
    norm_num [abs_of_pos] at a1 a2 ⊢
    constructor <;> linarith
  have hk1 : |rnd 0.30102999566| ≤ 0.3010302 := by
    have a1 := abs_le.1 (hrnd 0.30102999566)
    rw [abs_le]
    norm_num [abs_of_pos] at a1 ⊢
    constructor <;> linarith
  have hkk : |k| ≤ 0.3010302 := by
    have a2 := abs_le.1 hc
    rw [abs_le]
    norm_num at a2 ⊢
    constructor <;> linarith
  generalize rnd 0.30102999566 = c at *
  have hprod : |X * c - L * k| ≤ 0.0000962 := by
    calc |X * c - L * k| = |(X - L) * c + L * (c - k)| := by ring_nf
      _ ≤ |(X - L) * c| + |L * (c - k)| := abs_add_le _ _
      _ = |X - L| * |c| + |L| * |c - k| := by rw [abs_mul, abs_mul]
      _ ≤ 0.00025 * 0.3010302 + 128 * 0.0000001631 := by gcongr
      _ ≤ 0.0000962 := by norm_num
  have hM : |L * k| ≤ 38.6 := by
    calc |L * k| = |L| * |k| := abs_mul _ _
      _ ≤ 128 * 0.3010302 := by gcongr
      _ ≤ 38.6 := by norm_num
  refine (rnd_step hrnd hu hprod hM).trans ?_
  norm_num

/-- **C68**, `amplitude_to_db<precision::estimate>`.  For every positive normal gain the result is within `0.0021` dB of
`max(infinity, 20 log10 gain)`; for a gain of zero or below it is `infinity`. -/
theorem C68_decibel (rnd : ℝ → ℝ) (hrnd : ∀ x, |rnd x - x| ≤ 2⁻¹ ^ 24 * |x|) (vx : ℕ) (infinity : ℝ) :
    (f32val vx ≤ 0 → amplitudeToDbEstimate rnd vx infinity = infinity) ∧
      (2 ^ 23 ≤ vx → vx < 255 * 2 ^ 23 →
        |amplitudeToDbEstimate rnd vx infinity - max infinity (20 * Real.logb 10 (f32val vx))| ≤ 0.0021) := by
  constructor
  · intro h
    unfold amplitudeToDbEstimate
    rw [if_pos h]
  · intro h1 h2
    have hu : (0 : ℝ) ≤ 2⁻¹ ^ 24 := by positivity
    have hl := C68_fast_log10 rnd hrnd vx h1 h2
    have hpos : 0 < f32val vx := by
      rw [value_bits h1 h2]
      have := (half_bounds vx).1
      positivity
    have hM : |Real.logb 10 (f32val vx)| ≤ 38.6 := by
      rw [logb_ten, abs_mul]
      have hk : |Real.logb 10 2| ≤ 0.3010302 := by
        have a2 := abs_le.1 log10_two
        rw [abs_le]
        norm_num at a2 ⊢
        constructor <;> linarith
      calc _ ≤ (128 : ℝ) * 0.3010302 := by
            have := logb_range h1 h2
            gcongr
        _ ≤ 38.6 := by norm_num
    have hstep := rnd_step hrnd hu (X := 20 * fastLog10 rnd vx) (x := 20 * Real.logb 10 (f32val vx)) (e := 0.002)
      (M := 772)
      (by
        rw [← mul_sub, abs_mul, abs_of_pos (by norm_num : (0 : ℝ) < 20)]
        calc _ ≤ 20 * (0.0001 : ℝ) := by gcongr
          _ ≤ 0.002 := by norm_num)
      (by
        rw [abs_mul, abs_of_pos (by norm_num : (0 : ℝ) < 20)]
        calc _ ≤ 20 * (38.6 : ℝ) := by gcongr
          _ ≤ 772 := by norm_num)
    unfold amplitudeToDbEstimate
    rw [if_neg (not_le.2 hpos)]
    dsimp only
    have hmax : (if infinity < rnd (20 * fastLog10 rnd vx) then rnd (20 * fastLog10 rnd vx) else infinity)
        = max infinity (rnd (20 * fastLog10 rnd vx)) := by
      split_ifs with h
      · exact (max_eq_right h.le).symm
      · exact (max_eq_left (not_lt.1 h)).symm
    rw [hmax]
    refine (abs_max_sub_max_le_max _ _ _ _).trans (max_le (by norm_num) (hstep.trans ?_))
    norm_num

/-- Bits of `1.0f`, `0.5f` and `10.0f`: the theorems apply to them, with correct rounding modelled by the identity. -/
example : f32val 0x3f800000 = 1 ∧ f32val 0x3f000000 = 0.5 ∧ f32val 0x41200000 = 10 := by
  unfold f32val
  norm_num

example : |fastLog2 id 0x41200000 - Real.logb 2 10| ≤ 0.00025 := by
  have h : f32val 0x41200000 = 10 := by
    unfold f32val
    norm_num
  have := C68_fast_log2 id (fun x => by simp) 0x41200000 (by norm_num) (by norm_num)
  rwa [h] at this

/-- A rounding other than the identity satisfies the hypothesis: a machine whose results are all too large by one part in
`2^24`. -/
example : |amplitudeToDbEstimate (fun x => x * (1 + 2⁻¹ ^ 24)) 0x3f000000 (-144) - max (-144) (20 * Real.logb 10 0.5)|
    ≤ 0.0021 := by
  have h : f32val 0x3f000000 = 0.5 := by
    unfold f32val
    norm_num
  have := (C68_decibel (fun x => x * (1 + 2⁻¹ ^ 24))
    (fun x => by rw [show x * (1 + 2⁻¹ ^ 24) - x = 2⁻¹ ^ 24 * x by ring, abs_mul, abs_of_pos (by positivity)])
    0x3f000000 (-144)).2 (by norm_num) (by norm_num)
  rwa [h] at this

/-! ## Exact arithmetic: `fast_log2` is strictly increasing -/

private theorem fastLog2_id (vx : ℕ) : fastLog2 id vx = ((vx / 2 ^ 23 : ℕ) : ℝ) - 127 + octave (half vx) := by
  have hs := scaled_bits vx
  have hm := mantissa_bits vx
  change _ = half vx at hm
  unfold fastLog2 octave
  rw [hm]
  simp only [id]
  have e0 : (vx : ℝ) * 1.1920928955078125e-7 = (vx : ℝ) / 2 ^ 23 := by
    norm_num
    ring
  rw [e0, hs]
  ring

private theorem octave_lt {a b : ℝ} (ha : 1 / 2 ≤ a) (hab : a < b) : octave a < octave b := by
  unfold octave
  have h1 : 1.72587999 / (0.3520887068 + b) < 1.72587999 / (0.3520887068 + a) := by
    apply div_lt_div_of_pos_left <;> norm_num <;> linarith
  norm_num at h1 ⊢
  linarith

private theorem octave_wrap {a b : ℝ} (ha : 1 / 2 ≤ a) (ha1 : a ≤ 1 - 1 / 2 ^ 24) (hb : 1 / 2 ≤ b) :
    octave a < octave b + 1 := by
  have h1 : octave a ≤ octave (1 - 1 / 2 ^ 24) := by
    rcases ha1.lt_or_eq with h | h
    · exact (octave_lt ha h).le
    · rw [h]
  have h2 : octave (1 / 2) ≤ octave b := by
    rcases hb.lt_or_eq with h | h
    · exact (octave_lt le_rfl h).le
    · rw [h]
  have h3 : octave (1 - 1 / 2 ^ 24) < octave (1 / 2) + 1 := by
    unfold octave
    norm_num
  linarith

/-- **C68**, monotonicity.  In exact arithmetic the result is strictly increasing in the bit pattern, over every
non-negative pattern: normal, subnormal, and across every octave boundary. -/
theorem C68_monotone (a b : ℕ) (h : a < b) : fastLog2 id a < fastLog2 id b := by
  rw [fastLog2_id, fastLog2_id]
  obtain ⟨ha1, ha2⟩ := half_bounds a
  obtain ⟨hb1, hb2⟩ := half_bounds b
  rcases (Nat.div_le_div_right h.le : a / 2 ^ 23 ≤ b / 2 ^ 23).lt_or_eq with hq | hq
  · have h1 : ((a / 2 ^ 23 : ℕ) : ℝ) + 1 ≤ ((b / 2 ^ 23 : ℕ) : ℝ) := by exact_mod_cast hq
    have h2 : half a ≤ 1 - 1 / 2 ^ 24 := by
      unfold half
      have hlt : a % 2 ^ 23 < 2 ^ 23 := Nat.mod_lt _ (by norm_num)
      have hle : ((2 ^ 23 + a % 2 ^ 23 : ℕ) : ℝ) ≤ ((2 ^ 24 - 1 : ℕ) : ℝ) := by
        exact_mod_cast (show 2 ^ 23 + a % 2 ^ 23 ≤ 2 ^ 24 - 1 by omega)
      rw [div_le_iff₀ (by norm_num)]
      refine hle.trans ?_
      norm_num
    have h3 := octave_wrap ha1 h2 hb1
    linarith
  · have h1 : a % 2 ^ 23 < b % 2 ^ 23 := by omega
    have h2 : half a < half b := by
      unfold half
      have : ((2 ^ 23 + a % 2 ^ 23 : ℕ) : ℝ) < ((2 ^ 23 + b % 2 ^ 23 : ℕ) : ℝ) := by
        exact_mod_cast (show 2 ^ 23 + a % 2 ^ 23 < 2 ^ 23 + b % 2 ^ 23 by omega)
      exact div_lt_div_of_pos_right this (by norm_num)
    have h3 := octave_lt ha1 h2
    rw [hq]
    linarith

/-- **C68**, outside the normal range.  The smallest subnormal number is `2^-149`; the approximation gives about `-127`,
so the bound of `C68_fast_log2` does not extend to subnormal numbers. -/
theorem C68_subnormal_wrong :
    0 < f32val 1 ∧ Real.logb 2 (f32val 1) = -149 ∧ -127.1 < fastLog2 id 1 := by
  have hv : f32val 1 = 2 ^ (-149 : ℤ) := by
    unfold f32val
    norm_num
  refine ⟨by rw [hv]; positivity, ?_, ?_⟩
  · rw [hv, ← Real.rpow_intCast, Real.logb_rpow (by norm_num) (by norm_num)]
    norm_num
  · rw [fastLog2_id]
    have h := (half_bounds 1).1
    have h2 : octave (1 / 2) ≤ octave (half 1) := by
      rcases h.lt_or_eq with h | h
      · exact (octave_lt le_rfl h).le
      · rw [h]
    have h3 : (-0.1 : ℝ) < octave (1 / 2) := by
      unfold octave
      norm_num
    norm_num at h3 ⊢
    linarith

end Neo.Props
