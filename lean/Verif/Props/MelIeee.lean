import Verif.Props.AWeightIeee
import Verif.Lemmas.MelIeee

/-! # C121: accuracy of the mel scale in IEEE 754 arithmetic -/

namespace Neo.Props

open Neo Spec

variable {f : Fmt}

/-- The power of ten has a relative error of at most `κ` for exponents from -1 to 5. -/
def PowNear (pow10 : FVal → FVal) (κ : ℝ) : Prop :=
  ∀ x : ℝ, -1 ≤ x → x ≤ 5 → ∃ y, pow10 (.fin x) = .fin y ∧ |y - (10 : ℝ) ^ x| ≤ κ * (10 : ℝ) ^ x

theorem LogNear.nonneg {log10 : FVal → FVal} {κ : ℝ} (h : LogNear log10 κ) : 0 ≤ κ := by
  obtain ⟨l, -, h⟩ := h 1 (by norm_num) (by norm_num)
  exact (abs_nonneg _).trans h

theorem PowNear.nonneg {pow10 : FVal → FVal} {κ : ℝ} (h : PowNear pow10 κ) : 0 ≤ κ := by
  obtain ⟨l, -, h⟩ := h 0 (by norm_num) (by norm_num)
  rw [Real.rpow_zero, mul_one] at h
  exact (abs_nonneg _).trans h

/-- **C121** (hertz to mel).  In every format of at least 12 bits and for every frequency from 0 to `2¹⁹` Hz, `hertz_to_mel` is a
number within `18165 u + 2595 κ` mels of `2595 log₁₀(1 + h / 700)`. -/
theorem C121_hertz_to_mel (hf : f.Ieee) (h12 : 12 ≤ f.p) (hE : 24 ≤ f.emax) {log10 : FVal → FVal} {κ : ℝ} (hl : LogNear log10 κ)
    (hκ : κ ≤ 1 / 2) {h : ℝ} (h0 : 0 ≤ h) (h1 : h ≤ (2 : ℝ) ^ (19 : ℕ)) :
    ∃ y, hertzToMelI f log10 (.fin h) = .fin y ∧ |y - 2595 * Real.logb 10 (1 + h / 700)| ≤ 18165 * f.u + 2595 * κ := by
  have hu := u_pos f
  have hu12 := u_le_twelve h12
  have hν := minNormal_le_one hf
  have hE' : (2 : ℝ) ^ (24 : ℤ) ≤ (2 : ℝ) ^ f.emax := zpow_le_zpow_right₀ (by norm_num) hE
  have hE2 : (16777216 : ℝ) ≤ (2 : ℝ) ^ f.emax := le_trans (by norm_num) hE'
  have hp12 : 2 ^ 12 ≤ 2 ^ f.p := Nat.pow_le_pow_right (by norm_num) h12
  have n700 : ofNat f 700 = .fin 700 := by
    have := ofNat_exact hf (n := 700) (by omega) (by push_cast; linarith)
    exact_mod_cast this
  have n2595 : ofNat f 2595 = .fin 2595 := by
    have := ofNat_exact hf (n := 2595) (by omega) (by push_cast; linarith)
    exact_mod_cast this
  norm_num at h1
  set a := 1 + h / 700 with ha
  have ha1 : 1 ≤ a := by rw [ha]; have := div_nonneg h0 (by norm_num : (0 : ℝ) ≤ 700); linarith
  have ha2 : a ≤ 1000 := by rw [ha]; linarith
  obtain ⟨d, ed, hd⟩ := round_ok hf (t := h / 700) (T := a) (by rw [abs_of_nonneg (by positivity)]; linarith) (by linarith) (by nlinarith)
  rw [abs_le] at hd
  have hua : f.u * a ≤ a / 4096 := by nlinarith
  have hua0 : 0 < f.u * a := by nlinarith
  obtain ⟨s, es, hs⟩ := round_ok hf (t := 1 + d) (T := 2 * a) (by rw [abs_le]; constructor <;> linarith) (by linarith) (by nlinarith)
  rw [abs_le] at hs
  have hθ : |s / a - 1| ≤ 3 * f.u := by
    rw [show s / a - 1 = (s - a) / a by field_simp, abs_div, abs_of_pos (by linarith : 0 < a), div_le_iff₀ (by linarith), abs_le]
    constructor <;> linarith
  have hlg := logb_near hθ (by linarith)
  rw [add_sub_cancel] at hlg
  have hs0 : a / 2 ≤ s := by linarith
  have hsp : 0 < s := by linarith
  rw [Real.logb_div hsp.ne' (by linarith)] at hlg
  obtain ⟨l, el, hl⟩ := hl s (le_trans (by norm_num) (show (1 / 2 : ℝ) ≤ s by linarith)) (le_trans (show s ≤ 2000 by linarith) (by norm_num))
  have hb : 0 ≤ Real.logb 10 a ∧ Real.logb 10 a ≤ 3 := by
    constructor
    · exact Real.logb_nonneg (by norm_num) ha1
    · rw [Real.logb_le_iff_le_rpow (by norm_num) (by linarith)]
      refine ha2.trans ?_
      rw [show (3 : ℝ) = ((3 : ℤ) : ℝ) by norm_num, Real.rpow_intCast]
      norm_num
  rw [abs_le] at hl hlg
  obtain ⟨y, ey, hy⟩ := round_ok hf (t := 2595 * l) (T := 2595 * 4) (by rw [abs_le]; constructor <;> linarith) (by linarith) (by nlinarith)
  refine ⟨y, ?_, ?_⟩
  · unfold hertzToMelI
    rw [n700, n2595]
    have e1 : f.round ((FVal.fin h).div (.fin 700)) = .fin d := by
      simp only [FVal.div]
      rw [if_neg (by norm_num)]
      exact ed
    rw [e1]
    simp only [FVal.add, es, el, FVal.mul, ey]
  · rw [abs_le] at hy ⊢
    constructor <;> linarith

/-- **C121** (mel to hertz).  In every format of at least 12 bits and for every mel value from -1 to 10000, `mel_to_hertz` is a
number within `(29 u + 2 κ) (h + 700)` Hz of `h = 700 (10^(m / 2595) - 1)`. -/
theorem C121_mel_to_hertz (hf : f.Ieee) (h12 : 12 ≤ f.p) (hE : 25 ≤ f.emax) {pow10 : FVal → FVal} {κ : ℝ} (hw : PowNear pow10 κ)
    (hκ : κ ≤ 1 / 100) {m : ℝ} (h0 : -1 ≤ m) (h1 : m ≤ 10000) :
    ∃ y, melToHertzI f pow10 (.fin m) = .fin y ∧
      |y - 700 * ((10 : ℝ) ^ (m / 2595) - 1)| ≤ (29 * f.u + 2 * κ) * (700 * (10 : ℝ) ^ (m / 2595)) := by
  have hu := u_pos f
  have hu12 := u_le_twelve h12
  have hν := minNormal_le_one hf
  have hE' : (2 : ℝ) ^ (25 : ℤ) ≤ (2 : ℝ) ^ f.emax := zpow_le_zpow_right₀ (by norm_num) hE
  have hE2 : (33554432 : ℝ) ≤ (2 : ℝ) ^ f.emax := le_trans (by norm_num) hE'
  have hp12 : 2 ^ 12 ≤ 2 ^ f.p := Nat.pow_le_pow_right (by norm_num) h12
  have n700 : ofNat f 700 = .fin 700 := by
    have := ofNat_exact hf (n := 700) (by omega) (by push_cast; linarith)
    exact_mod_cast this
  have n2595 : ofNat f 2595 = .fin 2595 := by
    have := ofNat_exact hf (n := 2595) (by omega) (by push_cast; linarith)
    exact_mod_cast this
  obtain ⟨e, ee, he⟩ := round_ok hf (t := m / 2595) (T := 4) (by rw [abs_le]; constructor <;> linarith) (by linarith) (by nlinarith)
  have hδ := pow10_near (δ := e - m / 2595) (D := 4 * f.u) (by linarith) (by linarith)
  have hsplit : (10 : ℝ) ^ e = (10 : ℝ) ^ (m / 2595) * (10 : ℝ) ^ (e - m / 2595) := by
    rw [← Real.rpow_add (by norm_num)]; congr 1; ring
  rw [abs_le] at he
  obtain ⟨y, ey, hy⟩ := hw e (by linarith) (by linarith)
  have hP1 : 1 / 2 ≤ (10 : ℝ) ^ (m / 2595) := by
    have := pow10_near (δ := -1 / 2595) (D := 1 / 2595) (by rw [abs_le]; constructor <;> norm_num) (by norm_num)
    rw [abs_le] at this
    have m1 : (10 : ℝ) ^ (-1 / 2595 : ℝ) ≤ (10 : ℝ) ^ (m / 2595) := Real.rpow_le_rpow_of_exponent_le (by norm_num) (by linarith)
    linarith
  have hP2 : (10 : ℝ) ^ (m / 2595) ≤ 10000 := by
    have : (10 : ℝ) ^ (m / 2595) ≤ (10 : ℝ) ^ (4 : ℝ) := Real.rpow_le_rpow_of_exponent_le (by norm_num) (by linarith)
    refine this.trans ?_
    rw [show (4 : ℝ) = ((4 : ℤ) : ℝ) by norm_num, Real.rpow_intCast]
    norm_num
  rw [hsplit] at hy
  generalize (10 : ℝ) ^ (m / 2595) = P at *
  generalize (10 : ℝ) ^ (e - m / 2595) = Q at *
  have hκ0 := hw.nonneg
  rw [abs_le] at hδ
  have hPQ : |P * Q - P| ≤ 24 * f.u * P := by
    rw [show P * Q - P = (Q - 1) * P by ring, abs_mul, abs_of_pos (by linarith : 0 < P)]
    exact mul_le_mul_of_nonneg_right (abs_le.2 ⟨by linarith, by linarith⟩) (by linarith)
  rw [abs_le] at hPQ hy
  have huP : f.u * P ≤ P / 4096 := by nlinarith
  have huP0 : 0 < f.u * P := by nlinarith
  have hκP : κ * P ≤ P / 100 := by nlinarith
  have hκP0 : 0 ≤ κ * P := by nlinarith
  have hκPQ : κ * (P * Q) ≤ κ * P * (101 / 100) := by nlinarith
  obtain ⟨z, ez, hz⟩ := round_ok hf (t := y + -1) (T := 2 * P) (by rw [abs_le]; constructor <;> linarith) (by linarith) (by nlinarith)
  rw [abs_le] at hz
  obtain ⟨r, er, hr⟩ := round_ok hf (t := 700 * z) (T := 1401 * P) (by rw [abs_le]; constructor <;> linarith) (by linarith) (by nlinarith)
  rw [abs_le] at hr
  refine ⟨r, ?_, ?_⟩
  · unfold melToHertzI
    rw [n700, n2595]
    have e1 : f.round ((FVal.fin m).div (.fin 2595)) = .fin e := by
      simp only [FVal.div]
      rw [if_neg (by norm_num)]
      exact ee
    rw [e1, ey]
    simp only [FVal.sub, FVal.neg, FVal.add, ez, FVal.mul, er]
  · rw [abs_le]
    constructor <;> linarith

/-- **C121** (round trip).  Converting a frequency from 0 to `2¹⁹` Hz to mels and back gives a number within
`(80 u + 7 κ + 3 λ) (h + 700)` Hz of it, `κ` and `λ` the errors of the logarithm and of the power. -/
theorem C121_round_trip (hf : f.Ieee) (h16 : 16 ≤ f.p) (hE : 25 ≤ f.emax) {log10 pow10 : FVal → FVal} {κ l : ℝ}
    (hl : LogNear log10 κ) (hκ : κ ≤ 1 / 5000) (hw : PowNear pow10 l) (hl1 : l ≤ 1 / 100) {h : ℝ} (h0 : 0 ≤ h)
    (h1 : h ≤ (2 : ℝ) ^ (19 : ℕ)) :
    ∃ y, melToHertzI f pow10 (hertzToMelI f log10 (.fin h)) = .fin y ∧ |y - h| ≤ (80 * f.u + 7 * κ + 3 * l) * (h + 700) := by
  have hu := u_pos f
  have h12 : 12 ≤ f.p := by omega
  have hu16 : f.u ≤ 1 / 2 ^ 16 := by
    have : (2 : ℝ) ^ (-(f.p : ℤ)) ≤ (2 : ℝ) ^ (-16 : ℤ) := zpow_le_zpow_right₀ (by norm_num) (by omega)
    exact le_trans this (by norm_num)
  obtain ⟨m, em, hm⟩ := C121_hertz_to_mel hf h12 (by omega) hl (by linarith) h0 h1
  norm_num at h1 hu16
  set a := 1 + h / 700 with ha
  have ha1 : 1 ≤ a := by rw [ha]; have := div_nonneg h0 (by norm_num : (0 : ℝ) ≤ 700); linarith
  have ha2 : a ≤ 1000 := by rw [ha]; linarith
  have ha3 : h + 700 = 700 * a := by rw [ha]; ring
  have hb : 0 ≤ Real.logb 10 a ∧ Real.logb 10 a ≤ 3 := by
    constructor
    · exact Real.logb_nonneg (by norm_num) ha1
    · rw [Real.logb_le_iff_le_rpow (by norm_num) (by linarith)]
      refine ha2.trans ?_
      rw [show (3 : ℝ) = ((3 : ℤ) : ℝ) by norm_num, Real.rpow_intCast]
      norm_num
  have hm' := abs_le.1 hm
  obtain ⟨y, ey, hy⟩ := C121_mel_to_hertz hf h12 hE hw hl1 (m := m) (by linarith) (by linarith)
  refine ⟨y, by rw [em]; exact ey, ?_⟩
  have hsplit : (10 : ℝ) ^ (m / 2595) = a * (10 : ℝ) ^ (m / 2595 - Real.logb 10 a) := by
    conv_rhs => rw [← Real.rpow_logb (b := 10) (by norm_num) (by norm_num) (show 0 < a by linarith)]
    rw [Real.logb_rpow (by norm_num) (by norm_num), ← Real.rpow_add (by norm_num)]
    congr 1
    ring
  have hδ := pow10_near (δ := m / 2595 - Real.logb 10 a) (D := 7 * f.u + κ)
    (by rw [abs_le]; constructor <;> linarith) (by linarith)
  rw [hsplit] at hy
  generalize (10 : ℝ) ^ (m / 2595 - Real.logb 10 a) = Q at *
  rw [abs_le] at hδ
  have hκn := hl.nonneg
  have hln := hw.nonneg
  have hl0 : 0 ≤ 29 * f.u + 2 * l := by linarith
  have hQ : a * Q ≤ a * (101 / 100) := mul_le_mul_of_nonneg_left (by linarith) (by linarith)
  have k1 : (29 * f.u + 2 * l) * (700 * (a * Q)) ≤ (29 * f.u + 2 * l) * (700 * (a * (101 / 100))) :=
    mul_le_mul_of_nonneg_left (by linarith) hl0
  have k2 : |a * Q - a| ≤ 6 * (7 * f.u + κ) * a := by
    rw [show a * Q - a = (Q - 1) * a by ring, abs_mul, abs_of_pos (by linarith : 0 < a)]
    exact mul_le_mul_of_nonneg_right (abs_le.2 hδ) (by linarith)
  rw [abs_le] at hy k2 ⊢
  rw [ha3]
  have hh : h = 700 * (a - 1) := by rw [ha]; ring
  rw [hh]
  have hua : 0 ≤ f.u * a := mul_nonneg hu.le (by linarith)
  have z1 : 0 ≤ κ * a := mul_nonneg hκn (by linarith)
  have z2 : 0 ≤ l * a := mul_nonneg hln (by linarith)
  constructor <;> linarith

/-- Converting a mel value with an error of `2595 D`. -/
private theorem hertz_of_near (hf : f.Ieee) (h12 : 12 ≤ f.p) (hE : 25 ≤ f.emax) {pow10 : FVal → FVal} {l : ℝ}
    (hw : PowNear pow10 l) (hl1 : l ≤ 1 / 100) {v M D : ℝ} (h0 : 0 ≤ M) (h1 : M ≤ 7785) (hv : |v - M| ≤ 2595 * D) (hD : D ≤ 1 / 2595) :
    ∃ y, melToHertzI f pow10 (.fin v) = .fin y ∧
      |y - 700 * ((10 : ℝ) ^ (M / 2595) - 1)| ≤ (30 * f.u + 3 * l + 6 * D) * (700 * (10 : ℝ) ^ (M / 2595)) := by
  have hu := u_pos f
  have hv' := abs_le.1 hv
  obtain ⟨y, ey, hy⟩ := C121_mel_to_hertz hf h12 hE hw hl1 (m := v) (by linarith) (by linarith)
  refine ⟨y, ey, ?_⟩
  have hsplit : (10 : ℝ) ^ (v / 2595) = (10 : ℝ) ^ (M / 2595) * (10 : ℝ) ^ (v / 2595 - M / 2595) := by
    rw [← Real.rpow_add (by norm_num)]
    congr 1
    ring
  have hδ := pow10_near (δ := v / 2595 - M / 2595) (D := D) (by rw [abs_le]; constructor <;> linarith) (by linarith)
  have ha : 0 < (10 : ℝ) ^ (M / 2595) := by positivity
  rw [hsplit] at hy
  generalize (10 : ℝ) ^ (v / 2595 - M / 2595) = Q at *
  generalize (10 : ℝ) ^ (M / 2595) = a at *
  have hln := hw.nonneg
  have hl0 : 0 ≤ 29 * f.u + 2 * l := by linarith
  have hδ' := abs_le.1 hδ
  have hQ : a * Q ≤ a * (101 / 100) := mul_le_mul_of_nonneg_left (by linarith) ha.le
  have k1 : (29 * f.u + 2 * l) * (700 * (a * Q)) ≤ (29 * f.u + 2 * l) * (700 * (a * (101 / 100))) :=
    mul_le_mul_of_nonneg_left (by linarith) hl0
  have k2 : |a * Q - a| ≤ 6 * D * a := by
    rw [show a * Q - a = (Q - 1) * a by ring, abs_mul, abs_of_pos ha]
    exact mul_le_mul_of_nonneg_right hδ ha.le
  rw [abs_le] at hy k2 ⊢
  have hua : 0 ≤ f.u * a := mul_nonneg hu.le ha.le
  have z2 : 0 ≤ l * a := mul_nonneg hln ha.le
  constructor <;> linarith

/-- **C121** (mel table).  Entry `i` of the table of `n` frequencies, `2 ≤ n ≤ 2^p`, between two limits from 0 to `2¹⁹` Hz is a
number within `(300 u + 20 κ + 3 λ) (h + 700)` Hz of `h`, the frequency whose mel value is `i / (n - 1)` of the way from the
lower to the upper limit. -/
theorem C121_mel_frequencies (hf : f.Ieee) (h18 : 18 ≤ f.p) (hE : 25 ≤ f.emax) (hν : f.minNormal ≤ f.u) (hE2 : (2 : ℝ) ^ f.p ≤ (2 : ℝ) ^ f.emax)
    {log10 pow10 : FVal → FVal} {κ l : ℝ} (hl : LogNear log10 κ) (hκ : κ ≤ 1 / 20000) (hw : PowNear pow10 l) (hl1 : l ≤ 1 / 100)
    (out : List FVal) (h2 : 2 ≤ out.length) (hn : out.length < 2 ^ 31) (hp : out.length ≤ 2 ^ f.p) {fmin fmax : ℝ} (h0 : 0 ≤ fmin)
    (hle : fmin ≤ fmax) (h1 : fmax ≤ (2 : ℝ) ^ (19 : ℕ)) :
    ∃ g : ℕ → ℝ, melFrequenciesI f log10 pow10 out (.fin fmin) (.fin fmax) = .ok (vec out.length fun i => .fin (g i)) ∧
      ∀ i < out.length, ∃ h, 2595 * Real.logb 10 (1 + h / 700) = 2595 * Real.logb 10 (1 + fmin / 700) +
          i / (out.length - 1 : ℕ) * (2595 * Real.logb 10 (1 + fmax / 700) - 2595 * Real.logb 10 (1 + fmin / 700)) ∧
        0 ≤ h ∧ |g i - h| ≤ (300 * f.u + 20 * κ + 3 * l) * (h + 700) := by
  have hu := u_pos f
  have hκn := hl.nonneg
  have hu18 : f.u ≤ 1 / 262144 := by
    have : (2 : ℝ) ^ (-(f.p : ℤ)) ≤ (2 : ℝ) ^ (-18 : ℤ) := zpow_le_zpow_right₀ (by norm_num) (by omega)
    exact le_trans this (by norm_num)
  have hν1 := minNormal_le_one hf
  have hE' : (2 : ℝ) ^ (25 : ℤ) ≤ (2 : ℝ) ^ f.emax := zpow_le_zpow_right₀ (by norm_num) hE
  have hE3 : (33554432 : ℝ) ≤ (2 : ℝ) ^ f.emax := le_trans (by norm_num) hE'
  obtain ⟨a0, ea0, ha0⟩ := C121_hertz_to_mel hf (by omega) (by omega) hl (by linarith) h0 (hle.trans h1)
  obtain ⟨a1, ea1, ha1⟩ := C121_hertz_to_mel hf (by omega) (by omega) hl (by linarith) (h0.trans hle) h1
  norm_num at h1
  have hM : ∀ h : ℝ, 0 ≤ h → h ≤ 524288 → 0 ≤ Real.logb 10 (1 + h / 700) ∧ Real.logb 10 (1 + h / 700) ≤ 3 := by
    intro h b0 b1
    have b2 : 0 ≤ h / 700 := by positivity
    constructor
    · exact Real.logb_nonneg (by norm_num) (by linarith)
    · rw [Real.logb_le_iff_le_rpow (by norm_num) (by linarith)]
      rw [show (3 : ℝ) = ((3 : ℤ) : ℝ) by norm_num, Real.rpow_intCast]
      norm_num
      linarith
  have m0 := hM fmin h0 (by linarith)
  have m1 := hM fmax (h0.trans hle) h1
  have m01 : Real.logb 10 (1 + fmin / 700) ≤ Real.logb 10 (1 + fmax / 700) := by
    have : 0 ≤ fmin / 700 := by positivity
    exact (Real.logb_le_logb (by norm_num) (by linarith) (by linarith)).2 (by linarith)
  generalize Real.logb 10 (1 + fmin / 700) = L0 at *
  generalize Real.logb 10 (1 + fmax / 700) = L1 at *
  rw [abs_le] at ha0 ha1
  obtain ⟨d, ed, hd⟩ := round_ok hf (t := a1 + -a0) (T := 10380) (by rw [abs_le]; constructor <;> linarith) (by linarith) (by nlinarith)
  rw [abs_le] at hd
  have hu2p : f.u * (2 : ℝ) ^ f.p = 1 := by
    show (2 : ℝ) ^ (-(f.p : ℤ)) * _ = 1
    rw [zpow_neg, zpow_natCast, inv_mul_cancel₀ (by positivity)]
  have hc1 : (1 : ℝ) ≤ (out.length - 1 : ℕ) := by exact_mod_cast (by omega : 1 ≤ out.length - 1)
  have hcp : ((out.length - 1 : ℕ) : ℝ) < (2 : ℝ) ^ f.p := by exact_mod_cast (by omega : out.length - 1 < 2 ^ f.p)
  have en : ofNat f (out.length - 1) = .fin (out.length - 1 : ℕ) := ofNat_exact hf (by omega) (by linarith)
  generalize hN : ((out.length - 1 : ℕ) : ℝ) = N at *
  have hN0 : 0 < N := by linarith
  have huN : f.u ≤ 1 / N := by
    rw [le_div_iff₀ hN0, ← hu2p]
    exact mul_le_mul_of_nonneg_left hcp.le hu.le
  have hN1 : 1 / N ≤ 1 := by rw [div_le_one hN0]; exact hc1
  obtain ⟨st, es, hs⟩ := round_ok hf (t := d / N) (T := 10400 * (1 / N))
    (by rw [abs_div, abs_of_pos hN0, div_eq_mul_one_div]
        exact mul_le_mul_of_nonneg_right (by rw [abs_le]; constructor <;> linarith) (by positivity))
    (by linarith) (by nlinarith)
  have key : ∀ i < out.length, ∃ v, f.round ((FVal.fin a0).add (f.round ((FVal.fin st).mul (ofNat f i)))) = .fin v ∧
      |v - (2595 * L0 + i / N * (2595 * L1 - 2595 * L0))| ≤ 2595 * (42 * f.u + 3 * κ) ∧ 0 ≤ (i : ℝ) / N ∧ (i : ℝ) / N ≤ 1 := by
    intro i hi
    have hip : (i : ℝ) < (2 : ℝ) ^ f.p := by exact_mod_cast (by omega : i < 2 ^ f.p)
    have ei : ofNat f i = .fin i := ofNat_exact hf (by omega) (by linarith)
    have hiN : (i : ℝ) ≤ N := by rw [← hN]; exact_mod_cast (by omega : i ≤ out.length - 1)
    have hi0 : (0 : ℝ) ≤ i := by positivity
    set q := (i : ℝ) / N with hq
    have q0 : 0 ≤ q := by positivity
    have q1 : q ≤ 1 := by rw [hq, div_le_one hN0]; exact hiN
    have hsi : |st * i - d * q| ≤ 10400 * f.u := by
      rw [show st * i - d * q = (st - d / N) * i by rw [hq]; ring, abs_mul, abs_of_nonneg hi0]
      have := mul_le_mul_of_nonneg_right hs hi0
      refine this.trans ?_
      rw [show f.u * (10400 * (1 / N)) * i = 10400 * f.u * q by rw [hq]; ring]
      exact mul_le_of_le_one_right (by linarith) q1
    have hdq : |d * q - (2595 * L1 - 2595 * L0) * q| ≤ 2 * (18165 * f.u + 2595 * κ) + 10380 * f.u := by
      rw [← sub_mul, abs_mul, abs_of_nonneg q0]
      refine (mul_le_of_le_one_right (abs_nonneg _) q1).trans ?_
      rw [abs_le]; constructor <;> linarith
    have hdm : 0 ≤ (2595 * L1 - 2595 * L0) * q ∧ (2595 * L1 - 2595 * L0) * q ≤ 7785 := by
      constructor
      · exact mul_nonneg (by linarith) q0
      · exact (mul_le_of_le_one_right (by linarith) q1).trans (by linarith)
    rw [abs_le] at hsi hdq
    obtain ⟨w, ew, hw'⟩ := round_ok hf (t := st * i) (T := 10410) (by rw [abs_le]; constructor <;> linarith) (by linarith) (by nlinarith)
    rw [abs_le] at hw'
    obtain ⟨v, ev, hv⟩ := round_ok hf (t := a0 + w) (T := 21000) (by rw [abs_le]; constructor <;> linarith) (by linarith) (by nlinarith)
    rw [abs_le] at hv
    refine ⟨v, ?_, ?_, q0, q1⟩
    · rw [ei]
      simp only [FVal.mul, ew, FVal.add, ev]
    · rw [abs_le]; constructor <;> linarith
  have key2 : ∀ i, ∃ y h : ℝ, i < out.length →
      melToHertzI f pow10 (f.round ((FVal.fin a0).add (f.round ((FVal.fin st).mul (ofNat f i))))) = .fin y ∧
      2595 * Real.logb 10 (1 + h / 700) = 2595 * L0 + i / N * (2595 * L1 - 2595 * L0) ∧ 0 ≤ h ∧
      |y - h| ≤ (300 * f.u + 20 * κ + 3 * l) * (h + 700) := by
    intro i
    by_cases hi : i < out.length
    · obtain ⟨v, ev, hv, q0, q1⟩ := key i hi
      have M0 : 0 ≤ 2595 * L0 + i / N * (2595 * L1 - 2595 * L0) := by
        have := mul_nonneg q0 (by linarith : 0 ≤ 2595 * L1 - 2595 * L0)
        linarith
      have M1 : 2595 * L0 + i / N * (2595 * L1 - 2595 * L0) ≤ 7785 := by
        have := mul_le_of_le_one_left (by linarith : 0 ≤ 2595 * L1 - 2595 * L0) q1
        linarith
      generalize 2595 * L0 + i / N * (2595 * L1 - 2595 * L0) = M at *
      obtain ⟨y, ey, hy⟩ := hertz_of_near hf (by omega) hE hw hl1 M0 M1 hv (by linarith)
      refine ⟨y, 700 * ((10 : ℝ) ^ (M / 2595) - 1), fun _ => ⟨by rw [ev]; exact ey, ?_, ?_, ?_⟩⟩
      · rw [show 1 + 700 * ((10 : ℝ) ^ (M / 2595) - 1) / 700 = (10 : ℝ) ^ (M / 2595) by ring,
          Real.logb_rpow (by norm_num) (by norm_num)]
        ring
      · have : (10 : ℝ) ^ (0 : ℝ) ≤ (10 : ℝ) ^ (M / 2595) := Real.rpow_le_rpow_of_exponent_le (by norm_num) (by positivity)
        rw [Real.rpow_zero] at this
        linarith
      · have ha : 0 < (10 : ℝ) ^ (M / 2595) := by positivity
        generalize (10 : ℝ) ^ (M / 2595) = a at *
        have hua : 0 ≤ f.u * a := mul_nonneg hu.le ha.le
        have hka : 0 ≤ κ * a := mul_nonneg hκn ha.le
        linarith
    · exact ⟨0, 0, fun h => absurd h hi⟩
  choose g h hg using key2
  refine ⟨g, ?_, fun i hi => ⟨h i, (hg i hi).2.1, (hg i hi).2.2.1, (hg i hi).2.2.2⟩⟩
  unfold melFrequenciesI
  rw [if_neg (by omega), if_neg (by omega), ea0, ea1]
  have e1 : f.round ((FVal.fin a1).sub (.fin a0)) = .fin d := ed
  have e2 : f.round ((FVal.fin d).div (.fin N)) = .fin st := by
    simp only [FVal.div]
    rw [if_neg hN0.ne']
    exact es
  dsimp only
  rw [e1, en, e2, forInt_eq hn]
  obtain ⟨o, ho⟩ : ∃ o, out = vec out.length o := ⟨_, eq_vec_getD out (.fin 0)⟩
  obtain ⟨n, hn'⟩ : ∃ n, n = out.length := ⟨_, rfl⟩
  rw [← hn'] at ho hg ⊢
  rw [ho]
  refine (forN_map o (fun i _ => melToHertzI f pow10 (f.round ((FVal.fin a0).add (f.round ((FVal.fin st).mul (ofNat f i))))))
    _ (fun i hi h _ => wr_vec_ok hi)).trans ?_
  congr 1
  exact vec_ext fun i hi => (hg i hi).1

/-! ## The hypotheses are met -/

theorem pow10R_near (hf : f.Ieee) (hν : f.minNormal ≤ f.u) (hE : 25 ≤ f.emax) : PowNear (pow10R f) f.u := by
  intro x h1 h2
  have hu8 := u_le hf
  have hE' : (2 : ℝ) ^ (25 : ℤ) ≤ (2 : ℝ) ^ f.emax := zpow_le_zpow_right₀ (by norm_num) hE
  have hE3 : (33554432 : ℝ) ≤ (2 : ℝ) ^ f.emax := le_trans (by norm_num) hE'
  have a : (10 : ℝ) ^ (-1 : ℝ) ≤ (10 : ℝ) ^ x := Real.rpow_le_rpow_of_exponent_le (by norm_num) h1
  have b : (10 : ℝ) ^ x ≤ (10 : ℝ) ^ (5 : ℝ) := Real.rpow_le_rpow_of_exponent_le (by norm_num) h2
  rw [show (5 : ℝ) = ((5 : ℤ) : ℝ) by norm_num, Real.rpow_intCast] at b
  rw [Real.rpow_neg_one] at a
  norm_num at a b
  have hm : f.minNormal ≤ 1 / 10 := by
    by_cases h : f.u ≤ 1 / 10
    · linarith
    · have e := minNormal_le_one hf
      unfold Fmt.minNormal at e ⊢
      have : (2 : ℝ) ^ (f.emin + f.p - 1) ≤ (2 : ℝ) ^ (-4 : ℤ) :=
        zpow_le_zpow_right₀ (by norm_num) (by have := hf.2.2; have := hf.2.1; omega)
      exact this.trans (by norm_num)
  obtain ⟨y, e, h⟩ := round_ok hf (t := (10 : ℝ) ^ x) (T := (10 : ℝ) ^ x) (abs_of_pos (by positivity)).le (by linarith) (by nlinarith)
  exact ⟨y, e, h⟩

private theorem ieee32 : binary32.Ieee := by unfold Fmt.Ieee binary32; norm_num

private theorem u32 : binary32.u = 1 / 2 ^ 24 := by
  show (2 : ℝ) ^ (-((24 : ℕ) : ℤ)) = _
  rw [zpow_neg, zpow_natCast, one_div]

private theorem min32 : binary32.minNormal ≤ binary32.u := by
  show (2 : ℝ) ^ ((-149 : ℤ) + ((24 : ℕ) : ℤ) - 1) ≤ (2 : ℝ) ^ (-((24 : ℕ) : ℤ))
  exact zpow_le_zpow_right₀ (by norm_num) (by norm_num)

/-- 440 Hz to mels and back in single precision with a correctly rounded logarithm and power: less than a fiftieth of a Hz is
lost. -/
example : ∃ y, melToHertzI binary32 (pow10R binary32) (hertzToMelI binary32 (log10Z binary32) (.fin 440)) = .fin y ∧
    |y - 440| ≤ 2 / 100 := by
  obtain ⟨y, e, h⟩ := C121_round_trip ieee32 (by norm_num [binary32]) (by norm_num [binary32])
    (log10Z_near ieee32 (by norm_num [binary32])) (by rw [u32]; norm_num)
    (pow10R_near ieee32 min32 (by norm_num [binary32])) (by rw [u32]; norm_num) (h := 440) (by norm_num) (by norm_num)
  refine ⟨y, e, h.trans ?_⟩
  rw [u32]
  norm_num

/-- A table of 128 frequencies from 0 to 22050 Hz in single precision. -/
example : ∃ g : ℕ → ℝ, melFrequenciesI binary32 (log10Z binary32) (pow10R binary32) (List.replicate 128 (.fin 0)) (.fin 0) (.fin 22050) =
    .ok (vec 128 fun i => .fin (g i)) := by
  obtain ⟨g, e, -⟩ := C121_mel_frequencies ieee32 (by norm_num [binary32]) (by norm_num [binary32]) min32
    (zpow_natCast (2 : ℝ) binary32.p ▸ zpow_le_zpow_right₀ (by norm_num) (by norm_num [binary32]))
    (log10Z_near ieee32 (by norm_num [binary32])) (by rw [u32]; norm_num)
    (pow10R_near ieee32 min32 (by norm_num [binary32])) (by rw [u32]; norm_num)
    (List.replicate 128 (.fin 0)) (by simp) (by simp) (by simp [binary32]) (fmin := 0) (fmax := 22050) le_rfl (by norm_num) (by norm_num)
  exact ⟨g, by rw [e, List.length_replicate]⟩

end Neo.Props
