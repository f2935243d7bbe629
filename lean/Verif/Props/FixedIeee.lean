import Verif.Lemmas.FixedIeee
import Verif.Props.Fixed
import Verif.Props.Float16
import Verif.Props.NormIeee

/-!
# Property C109: conversions between fixed point and floating point, and products of converted noise, in IEEE arithmetic
-/

namespace Neo.Props

open Spec

/-- `a` is the number `r` as a fixed-point value of `w` bits, `F` of them fractional: cut off toward zero if it is in
range, and otherwise the nearer end of the range. -/
def Truncates (w F : ℕ) (r : ℝ) (a : ℤ) : Prop :=
  InRange w a ∧
    ((-2 ^ (w - 1) : ℝ) ≤ r * 2 ^ F → r * 2 ^ F ≤ 2 ^ (w - 1) - 1 →
      |(a : ℝ) / 2 ^ F| ≤ |r| ∧ 0 ≤ (a : ℝ) * r ∧ |(a : ℝ) / 2 ^ F - r| < 1 / 2 ^ F) ∧
    ((2 ^ (w - 1) - 1 : ℝ) < r * 2 ^ F → a = 2 ^ (w - 1) - 1) ∧
    (r * 2 ^ F < (-2 ^ (w - 1) : ℝ) → a = -2 ^ (w - 1))

/-- The scaled number, cut off, is an `int32_t`. -/
def FitsI32 (F : ℕ) (r : ℝ) : Prop := -2147483649 < r * 2 ^ F ∧ r * 2 ^ F < 2147483648

private theorem truncates_clamp {w : ℕ} (hw : w = 8 ∨ w = 16) (F : ℕ) (r : ℝ) :
    Truncates w F r (clampT ⟨true, w⟩ (truncR (r * 2 ^ F))) := by
  have hP : (0 : ℝ) < 2 ^ F := by positivity
  obtain ⟨c1, c2, c3⟩ := truncR_abs (r * 2 ^ F)
  have hl : -(2 : ℤ) ^ (w - 1) ≤ 2 ^ (w - 1) - 1 := by rcases hw with rfl | rfl <;> norm_num
  have hlo : ((-2 ^ (w - 1) : ℤ) : ℝ) = -2 ^ (w - 1) := by push_cast; rfl
  have hhi : ((2 ^ (w - 1) - 1 : ℤ) : ℝ) = 2 ^ (w - 1) - 1 := by push_cast; rfl
  refine ⟨clampT_fits (narrow_of hw) _, fun g1 g2 => ?_, fun g => ?_, fun g => ?_⟩
  · have k1 : -2 ^ (w - 1) ≤ truncR (r * 2 ^ F) := by
      rw [← truncR_int (-2 ^ (w - 1)), hlo]; exact truncR_mono g1
    have k2 : truncR (r * 2 ^ F) ≤ 2 ^ (w - 1) - 1 := by
      rw [← truncR_int (2 ^ (w - 1) - 1), hhi]; exact truncR_mono g2
    rw [clampT_eq hw]
    have e : clampZ (-2 ^ (w - 1)) (2 ^ (w - 1) - 1) (truncR (r * 2 ^ F)) = truncR (r * 2 ^ F) := by
      unfold clampZ; rw [if_neg (by omega), if_neg (by omega)]
    rw [e]
    generalize (truncR (r * 2 ^ F) : ℝ) = z at *
    refine ⟨?_, ?_, ?_⟩
    · rw [abs_div, abs_of_pos hP, div_le_iff₀ hP]
      rwa [abs_mul, abs_of_pos hP] at c1
    · rw [← mul_assoc] at c3
      exact nonneg_of_mul_nonneg_left c3 hP
    · have : z / 2 ^ F - r = (z - r * 2 ^ F) / 2 ^ F := by field_simp
      rw [this, abs_div, abs_of_pos hP]
      rw [abs_sub_comm] at c2
      gcongr
  · have k : 2 ^ (w - 1) - 1 ≤ truncR (r * 2 ^ F) := by
      rw [← truncR_int (2 ^ (w - 1) - 1), hhi]; exact truncR_mono g.le
    rw [clampT_eq hw]
    unfold clampZ
    split_ifs <;> omega
  · have k : truncR (r * 2 ^ F) ≤ -2 ^ (w - 1) := by
      rw [← truncR_int (-2 ^ (w - 1)), hlo]; exact truncR_mono g.le
    rw [clampT_eq hw]
    unfold clampZ
    split_ifs <;> omega

private theorem floatToI32_error {y : ℝ} (h : ¬ (-2147483649 < y ∧ y < 2147483648)) :
    floatToI32 y = .error .overflow := by
  unfold floatToI32
  rw [if_neg]
  intro hf
  apply h
  have h3 : -2147483648 ≤ truncR y ∧ truncR y ≤ 2147483647 := hf
  obtain ⟨h1, h2, -⟩ := truncR_abs y
  have h4 : ((-2147483648 : ℤ) : ℝ) ≤ truncR y := by exact_mod_cast h3.1
  have h5 : (truncR y : ℝ) ≤ ((2147483647 : ℤ) : ℝ) := by exact_mod_cast h3.2
  push_cast at h4 h5
  have := abs_lt.1 h2
  constructor <;> linarith

private theorem convert_fin {w : ℕ} (hw : w = 8 ∨ w = 16) {F : ℕ} (hF : F ≤ 30) (x : ℝ) :
    (FitsI32 F (Spec.binary32.rndInf x) → fxOfFloatI ⟨true, w⟩ F (.fin x)
      = .ok (clampT ⟨true, w⟩ (truncR (Spec.binary32.rndInf x * 2 ^ F)))) ∧
    (¬ FitsI32 F (Spec.binary32.rndInf x) → fxOfFloatI ⟨true, w⟩ F (.fin x) = .error .overflow) := by
  rw [fxOfFloatI_fin _ hF]
  refine ⟨fun h => fxOfFloat_ok (narrow_of hw) _ F h.1 h.2, fun h => ?_⟩
  unfold fxOfFloat
  rw [floatToI32_error h]
  rfl

/-! ## Conversions -/

/-- **C109, from floating point**: the argument is first rounded to the nearest `float` `r` (which is the argument itself
if it is a `float`).  If `r` scaled and cut off is an `int32_t`, the result is `r` cut off, or the nearer end of the
range; otherwise, and for infinities and NaN, the conversion is undefined. -/
theorem C109_from_float (w : ℕ) (hw : w = 8 ∨ w = 16) (F : ℕ) (hF : F ≤ 30) :
    (∀ x : ℝ, ∃ r, Spec.binary32.Nearest x r ∧ (Spec.binary32.Mem (.fin x) → r = x) ∧
      (FitsI32 F r → ∃ a, fxOfFloatI ⟨true, w⟩ F (.fin x) = .ok a ∧ Truncates w F r a) ∧
      (¬ FitsI32 F r → fxOfFloatI ⟨true, w⟩ F (.fin x) = .error .overflow)) ∧
    (∀ s, fxOfFloatI ⟨true, w⟩ F (.inf s) = .error .overflow) ∧
    fxOfFloatI ⟨true, w⟩ F .nan = .error .overflow := by
  refine ⟨fun x => ⟨Spec.binary32.rndInf x, rndInf_nearest _ (by decide) x, fun h => rndInf_exact h.1, fun h => ?_,
    (convert_fin hw hF x).2⟩, fun s => fxOfFloatI_special _ hF _ (by simp), fxOfFloatI_special _ hF _ (by simp)⟩
  exact ⟨_, (convert_fin hw hF x).1 h, truncates_clamp hw F _⟩

/-- **C109, order**: a larger finite argument never gives a smaller value. -/
theorem C109_monotone (w : ℕ) (hw : w = 8 ∨ w = 16) (F : ℕ) (hF : F ≤ 30) (x y : ℝ) (hxy : x ≤ y) (a b : ℤ)
    (ha : fxOfFloatI ⟨true, w⟩ F (.fin x) = .ok a) (hb : fxOfFloatI ⟨true, w⟩ F (.fin y) = .ok b) : a ≤ b := by
  have key : ∀ z c, fxOfFloatI ⟨true, w⟩ F (.fin z) = .ok c →
      c = clampT ⟨true, w⟩ (truncR (Spec.binary32.rndInf z * 2 ^ F)) := by
    intro z c h
    by_cases hz : FitsI32 F (Spec.binary32.rndInf z)
    · rw [(convert_fin hw hF z).1 hz] at h
      exact (Except.ok.inj h).symm
    · rw [(convert_fin hw hF z).2 hz] at h
      cases h
  rw [key x a ha, key y b hb, clampT_eq hw, clampT_eq hw]
  exact clampZ_mono (by rcases hw with rfl | rfl <;> norm_num) (truncR_mono
    (mul_le_mul_of_nonneg_right (rndInf_mono _ (by decide) hxy) (by positivity)))

private theorem rnd32_unit {x : ℝ} (hx : |x| ≤ 1) :
    |Spec.binary32.rndInf x| ≤ 1 ∧ |Spec.binary32.rndInf x - x| ≤ (2 : ℝ) ^ (-25 : ℤ) := by
  have h1 : Spec.binary32.OnGrid 1 := one_onGrid b32_ieee
  constructor
  · rw [rndInf_abs _ (by decide)]
    exact rndInf_le_grid (by decide) h1 hx
  · rcases eq_or_lt_of_le hx with h | h
    · have : x = 1 ∨ x = -1 := by
        rcases abs_eq (by norm_num : (0 : ℝ) ≤ 1) |>.1 h with h | h
        · exact Or.inl h
        · exact Or.inr h
      rcases this with rfl | rfl
      · rw [rndInf_exact h1]; norm_num
      · rw [rndInf_exact (onGrid_neg h1)]; norm_num
    · by_cases h0 : x = 0
      · rw [h0, rndInf_zero]; norm_num
      · have h2 : Spec.binary32.ulpExp x ≤ -24 := by
          apply ulpExp_le (by rw [b32_emin]; norm_num) _ h0
          rw [b32_p]; norm_num; exact h
        refine (rndInf_err _ x).trans ?_
        have h3 : (2 : ℝ) ^ Spec.binary32.ulpExp x ≤ (2 : ℝ) ^ (-24 : ℤ) := zpow_le_zpow_right₀ (by norm_num) h2
        have h4 : (2 : ℝ) ^ (-24 : ℤ) / 2 = (2 : ℝ) ^ (-25 : ℤ) := by norm_num
        rw [← h4]
        exact div_le_div_of_nonneg_right h3 (by norm_num)

private theorem trunc_unit {w F : ℕ} (hw : w = 8 ∨ w = 16) (hF : F ≤ w - 1) {r : ℝ} (hr : |r| ≤ 1) {a : ℤ}
    (h : Truncates w F r a) : |a| ≤ 2 ^ F ∧ |(a : ℝ) / 2 ^ F - r| ≤ 1 / 2 ^ F ∧ (a = -2 ^ F → r = -1) := by
  have hP : (0 : ℝ) < 2 ^ F := by positivity
  obtain ⟨h1, h2, h3, h4⟩ := h
  have hr' := abs_le.1 hr
  have hFw : (2 : ℝ) ^ F ≤ 2 ^ (w - 1) := pow_le_pow_right₀ (by norm_num) hF
  have hFz : (2 : ℤ) ^ F ≤ 2 ^ (w - 1) := pow_le_pow_right₀ (by norm_num) hF
  have k1 : -(2 : ℝ) ^ (w - 1) ≤ r * 2 ^ F := by nlinarith [hr'.1]
  have k2 : r * 2 ^ F ≤ 2 ^ F := by nlinarith [hr'.2]
  rcases le_or_gt (r * 2 ^ F) (2 ^ (w - 1) - 1) with k | k
  · obtain ⟨g1, g2, g3⟩ := h2 k1 k
    have g4 : |(a : ℝ)| ≤ 2 ^ F := by
      rw [abs_div, abs_of_pos hP, div_le_iff₀ hP] at g1
      nlinarith
    refine ⟨by exact_mod_cast g4, g3.le, fun e => ?_⟩
    rw [e] at g1
    push_cast at g1
    rw [neg_div, div_self hP.ne', abs_neg, abs_one] at g1
    rw [e] at g2
    push_cast at g2
    rcases abs_cases r with ⟨e1, e2⟩ | ⟨e1, e2⟩
    · nlinarith
    · linarith
  · have e := h3 k
    have hpow : F = w - 1 := by
      by_contra hne
      have : F + 1 ≤ w - 1 := by omega
      have h5 : (2 : ℝ) ^ (F + 1) ≤ 2 ^ (w - 1) := pow_le_pow_right₀ (by norm_num) this
      have h6 : (1 : ℝ) ≤ 2 ^ F := one_le_pow₀ (by norm_num)
      rw [pow_succ] at h5
      linarith
    rw [← hpow] at e k
    have h1' : (1 : ℤ) ≤ 2 ^ F := one_le_pow₀ (by norm_num)
    have hFpos : 1 ≤ F := by rcases hw with rfl | rfl <;> omega
    have h2' : (2 : ℤ) ^ 1 ≤ 2 ^ F := pow_le_pow_right₀ (by norm_num) hFpos
    refine ⟨by rw [e, abs_le]; constructor <;> linarith, ?_, fun e' => by rw [e'] at e; linarith⟩
    rw [e]
    push_cast
    have e2 : ((2 : ℝ) ^ F - 1) / 2 ^ F - r = (2 ^ F - 1 - r * 2 ^ F) / 2 ^ F := by field_simp
    rw [e2, abs_div, abs_of_pos hP]
    gcongr
    rw [abs_le]
    constructor <;> linarith

private theorem fits_unit {F : ℕ} (hF : F ≤ 30) {r : ℝ} (hr : |r| ≤ 1) : FitsI32 F r := by
  have hP : (0 : ℝ) < 2 ^ F := by positivity
  have hP' : (2 : ℝ) ^ F ≤ 2 ^ 30 := pow_le_pow_right₀ (by norm_num) hF
  have hr' := abs_le.1 hr
  norm_num at hP'
  constructor <;> nlinarith [hr'.1, hr'.2]

/-- **C109, accuracy**: a number in `[-1, 1]` of any format converts to a fixed-point value of magnitude at most one; for
a `float` the error is at most `2^-F`, otherwise the rounding to `float` may add `2^-25`. -/
theorem C109_accuracy (w : ℕ) (hw : w = 8 ∨ w = 16) (F : ℕ) (hF : F ≤ w - 1) (x : ℝ) (hx : |x| ≤ 1) :
    ∃ a : ℤ, fxOfFloatI ⟨true, w⟩ F (.fin x) = .ok a ∧ |(a : ℝ) / 2 ^ F| ≤ 1 ∧
      |(a : ℝ) / 2 ^ F - x| ≤ 1 / 2 ^ F + (2 : ℝ) ^ (-25 : ℤ) ∧
      (Spec.binary32.Mem (.fin x) → |(a : ℝ) / 2 ^ F - x| ≤ 1 / 2 ^ F) := by
  have hF' : F ≤ 30 := by omega
  obtain ⟨h1, h2⟩ := rnd32_unit hx
  obtain ⟨g1, g2, -⟩ := trunc_unit hw hF h1 (truncates_clamp hw F _)
  refine ⟨_, (convert_fin hw hF' x).1 (fits_unit hF' h1), ?_, ?_, fun hm => ?_⟩
  · have hP : (0 : ℝ) < 2 ^ F := by positivity
    rw [abs_div, abs_of_pos hP, div_le_one hP]
    exact_mod_cast g1
  · refine (le_of_eq ?_).trans ((abs_add_le _ _).trans (add_le_add g2 h2))
    congr 1; ring
  · rw [rndInf_exact hm.1] at g2 ⊢
    exact g2

private theorem inRange_small {w : ℕ} (hw : w = 8 ∨ w = 16) {a : ℤ} (ha : InRange w a) : |a| ≤ 2 ^ (w - 1) := by
  unfold InRange at ha
  rw [abs_le]
  constructor <;> omega

/-- **C109, to floating point**: converting to `float` or `double`, and 8-bit values to half precision, is exact, and
converting back gives the same value. -/
theorem C109_to_float (g : Fmt) (w : ℕ) (hw : w = 8 ∨ w = 16) (F : ℕ) (hF : F ≤ 30) (a : ℤ) (ha : InRange w a)
    (hg : g = Spec.binary32 ∨ g = binary64 ∨ (g = binary16 ∧ w = 8 ∧ F ≤ 24)) :
    fxToFloatI g F a = .fin ((a : ℝ) / 2 ^ F) ∧
    fxOfFloatI ⟨true, w⟩ F (fxToFloatI g F a) = .ok a := by
  have hs := inRange_small hw ha
  have h24 : |a| < 2 ^ 24 := hs.trans_lt (by rcases hw with rfl | rfl <;> norm_num)
  have e : (a : ℝ) / 2 ^ F = fxToFloat F a := by unfold fxToFloat; ring
  have hmag : |fxToFloat F a| ≤ 2 ^ (w - 1) := by
    unfold fxToFloat
    have h2 : (1 : ℝ) / 2 ^ F ≤ 1 := by
      rw [div_le_one (by positivity)]
      exact one_le_pow₀ (by norm_num)
    rw [abs_mul, abs_of_pos (by positivity : (0 : ℝ) < 1 / 2 ^ F)]
    have h3 : |(a : ℝ)| ≤ 2 ^ (w - 1) := by exact_mod_cast hs
    nlinarith [abs_nonneg (a : ℝ)]
  have hgrid : g.OnGrid (fxToFloat F a) ∧ |fxToFloat F a| < (2 : ℝ) ^ g.emax := by
    have hz : fxToFloat F a = (a : ℝ) * (2 : ℝ) ^ (-(F : ℤ)) := by
      unfold fxToFloat; rw [zpow_neg, zpow_natCast, one_div]
    rcases hg with rfl | rfl | ⟨rfl, rfl, hF'⟩
    · refine ⟨⟨a, -F, by rw [b32_p]; exact h24, by rw [b32_emin]; omega, hz⟩, hmag.trans_lt ?_⟩
      rw [b32_emax]
      rcases hw with rfl | rfl <;> norm_num
    · refine ⟨⟨a, -F, h24.trans (by change (2 : ℤ) ^ 24 < 2 ^ 53; norm_num),
        by change (-1074 : ℤ) ≤ _; omega, hz⟩, hmag.trans_lt ?_⟩
      have h2 : (2 : ℝ) ^ (16 : ℤ) ≤ (2 : ℝ) ^ binary64.emax := zpow_le_zpow_right₀ (by norm_num) (by decide)
      refine lt_of_lt_of_le ?_ h2
      rcases hw with rfl | rfl <;> norm_num
    · refine ⟨⟨a, -F, hs.trans_lt (by change (2 : ℤ) ^ 7 < 2 ^ 11; norm_num),
        by change (-24 : ℤ) ≤ _; omega, hz⟩, hmag.trans_lt ?_⟩
      change (2 : ℝ) ^ 7 < (2 : ℝ) ^ (16 : ℤ)
      norm_num
  have h1 : fxToFloatI g F a = .fin (fxToFloat F a) := by
    rw [fxToFloatI_eq g h24 hF, round_mem hgrid.1 hgrid.2]
  refine ⟨by rw [h1, e], ?_⟩
  rw [h1, fxOfFloatI_fin _ hF]
  apply C44_round_trip w hw F a ha
  apply rndInf_exact
  unfold fxToFloat
  exact quotient_onGrid h24 (by omega)

/-- **C109, to half precision**: a 16-bit value converts to the nearest half-precision number. -/
theorem C109_to_half (F : ℕ) (hF : F ≤ 30) (a : ℤ) (ha : InRange 16 a) :
    ∃ r, fxToFloatI binary16 F a = .fin r ∧ binary16.Nearest ((a : ℝ) / 2 ^ F) r := by
  have hs := inRange_small (Or.inr rfl) ha
  have h24 : |a| < 2 ^ 24 := hs.trans_lt (by norm_num)
  have e : fxToFloat F a = (a : ℝ) / 2 ^ F := by unfold fxToFloat; ring
  rw [fxToFloatI_eq _ h24 hF, e]
  refine ⟨binary16.rndInf ((a : ℝ) / 2 ^ F), round_fin_of_lt ?_, rndInf_nearest _ (by decide) _⟩
  have h1 : |(a : ℝ) / 2 ^ F| ≤ (2 : ℝ) ^ (15 : ℤ) := by
    have hP : (1 : ℝ) ≤ 2 ^ F := one_le_pow₀ (by norm_num)
    rw [abs_div, abs_of_pos (by linarith : (0 : ℝ) < 2 ^ F), div_le_iff₀ (by linarith)]
    have h3 : |(a : ℝ)| ≤ 2 ^ 15 := by exact_mod_cast hs
    have h4 : (2 : ℝ) ^ (15 : ℤ) = 2 ^ 15 := by norm_num
    rw [h4]
    nlinarith
  rw [rndInf_abs _ (by decide)]
  refine (rndInf_le_grid (by decide) (two_zpow_onGrid (f := binary16) (by decide) (k := 15) (by decide)) h1).trans_lt ?_
  exact zpow_lt_zpow_right₀ (by norm_num) (by decide)

private theorem log_eq {x : ℝ} {k : ℤ} (h1 : (2 : ℝ) ^ k ≤ |x|) (h2 : |x| < (2 : ℝ) ^ (k + 1)) : Int.log 2 |x| = k := by
  have hp : (0 : ℝ) < |x| := (two_zpow_pos k).trans_le h1
  have a1 : k ≤ Int.log 2 |x| := (Int.zpow_le_iff_le_log (b := 2) (by norm_num) hp).1 (by exact_mod_cast h1)
  have a2 : Int.log 2 |x| < k + 1 := (Int.lt_zpow_iff_log_lt (b := 2) (by norm_num) hp).1 (by exact_mod_cast h2)
  omega

private theorem rnd_near (f : Fmt) {x : ℝ} {k : ℤ} (hk : f.emin ≤ k - (f.p - 1)) (h1 : (2 : ℝ) ^ k ≤ |x|)
    (h2 : |x| < (2 : ℝ) ^ (k + 1)) {n : ℤ}
    (h3 : |x - n * (2 : ℝ) ^ (k - ((f.p : ℤ) - 1))| < (2 : ℝ) ^ (k - ((f.p : ℤ) - 1)) / 2) :
    f.rndInf x = n * (2 : ℝ) ^ (k - ((f.p : ℤ) - 1)) := by
  have e : f.ulpExp x = k - ((f.p : ℤ) - 1) := by
    unfold Fmt.ulpExp
    rw [log_eq h1 h2, max_eq_right hk]
  have := rndInf_of_near (f := f) (x := x) (n := n) (by rw [e]; exact h3)
  rw [this, e]

/-- **C109**: half precision loses 16-bit values: `2051/2^15` becomes `2052/2^15`, and converts back to another value. -/
theorem C109_half_lossy : fxToFloatI binary16 15 2051 = .fin (2052 / 2 ^ 15) ∧
    fxOfFloatI i16 15 (fxToFloatI binary16 15 2051) = .ok 2052 := by
  have h16 : binary16.rndInf ((2051 : ℝ) / 2 ^ 15) = 2052 / 2 ^ 15 := by
    have hx : (2 : ℝ) ^ (-4 : ℤ) ≤ |(2051 : ℝ) / 2 ^ 15| ∧ |(2051 : ℝ) / 2 ^ 15| < (2 : ℝ) ^ ((-4 : ℤ) + 1) := by
      rw [abs_of_pos (by norm_num)]; constructor <;> norm_num
    have e : binary16.ulpExp ((2051 : ℝ) / 2 ^ 15) = -14 := by
      unfold Fmt.ulpExp
      rw [log_eq hx.1 hx.2]
      decide
    have hfr : Int.fract ((2051 : ℝ) / 2) = 1 / 2 := by
      have : (2051 : ℝ) / 2 = ((1025 : ℤ) : ℝ) + 1 / 2 := by norm_num
      rw [this, Int.fract_intCast_add, Int.fract_eq_self.2 ⟨by norm_num, by norm_num⟩]
    have hfl : ⌊(2051 : ℝ) / 2⌋ = 1025 := by
      rw [Int.floor_eq_iff]; constructor <;> norm_num
    have hr : rne ((2051 : ℝ) / 2) = 1026 := by
      unfold rne
      rw [hfr, hfl, if_neg (lt_irrefl _), if_neg (lt_irrefl _), if_neg (by decide)]
      norm_num
    unfold Fmt.rndInf
    rw [e]
    have e2 : (2051 : ℝ) / 2 ^ 15 * 2 ^ (-(-14) : ℤ) = 2051 / 2 := by norm_num
    rw [e2, hr]
    norm_num
  have e1 : fxToFloatI binary16 15 2051 = .fin (2052 / 2 ^ 15) := by
    rw [fxToFloatI_eq _ (by norm_num) (by norm_num)]
    have : fxToFloat 15 2051 = (2051 : ℝ) / 2 ^ 15 := by unfold fxToFloat; push_cast; ring
    rw [this]
    unfold Fmt.round
    dsimp only
    rw [h16, if_pos]
    change |(2052 : ℝ) / 2 ^ 15| < (2 : ℝ) ^ (16 : ℤ)
    rw [abs_of_pos (by norm_num)]
    norm_num
  refine ⟨e1, ?_⟩
  have hr : InRange 16 2052 := by unfold InRange; norm_num
  obtain ⟨h1, h2⟩ := C109_to_float Spec.binary32 16 (Or.inr rfl) 15 (by norm_num) 2052 hr (Or.inl rfl)
  rw [h1] at h2
  rw [e1]
  push_cast at h2
  exact h2

/-- **C109**: a `double` is not cut off toward zero: `2^-15 - 2^-45` is less than one step of q15 but converts to one
step, because it is rounded to `float` first. -/
theorem C109_double_rounds_up : binary64.Mem (.fin ((2 : ℝ) ^ (-15 : ℤ) - (2 : ℝ) ^ (-45 : ℤ))) ∧
    fxOfFloatI i16 15 (.fin ((2 : ℝ) ^ (-15 : ℤ) - (2 : ℝ) ^ (-45 : ℤ))) = .ok 1 := by
  constructor
  · refine ⟨⟨2 ^ 30 - 1, -45, ?_, by decide, ?_⟩, ?_⟩
    · change |(2 ^ 30 - 1 : ℤ)| < 2 ^ 53
      norm_num
    · push_cast; norm_num
    · refine lt_of_lt_of_le (b := (2 : ℝ) ^ (0 : ℤ)) ?_ (zpow_le_zpow_right₀ (by norm_num) (by decide))
      rw [abs_of_pos (by norm_num)]
      norm_num
  · have h : Spec.binary32.rndInf ((2 : ℝ) ^ (-15 : ℤ) - (2 : ℝ) ^ (-45 : ℤ)) = (2 : ℝ) ^ (-15 : ℤ) := by
      have := rnd_near Spec.binary32 (x := (2 : ℝ) ^ (-15 : ℤ) - (2 : ℝ) ^ (-45 : ℤ)) (k := -16) (n := 2 ^ 24) (by decide)
        (by rw [abs_of_pos (by norm_num)]; norm_num) (by rw [abs_of_pos (by norm_num)]; norm_num)
        (by rw [b32_p, abs_lt]; push_cast; constructor <;> norm_num)
      rw [this, b32_p]
      push_cast
      norm_num
    have hf := (convert_fin (w := 16) (Or.inr rfl) (F := 15) (by norm_num)
      ((2 : ℝ) ^ (-15 : ℤ) - (2 : ℝ) ^ (-45 : ℤ))).1 (by rw [h]; constructor <;> norm_num)
    rw [h] at hf
    have e : (2 : ℝ) ^ (-15 : ℤ) * 2 ^ 15 = ((1 : ℤ) : ℝ) := by norm_num
    rw [e, truncR_int] at hf
    exact hf

/-- **C109**: 32-bit storage.  With 31 fractional bits `1 << 31` is negative, and the largest value reads as `-1`; with 30,
the largest value reads as 2, which does not convert back. -/
theorem C109_wide_storage : fxToFloatI Spec.binary32 31 (2 ^ 31 - 1) = .fin (-1) ∧
    fxToFloatI Spec.binary32 30 (2 ^ 31 - 1) = .fin 2 ∧
    fxOfFloatI i32 30 (fxToFloatI Spec.binary32 30 (2 ^ 31 - 1)) = .error .overflow := by
  have hmax : Spec.binary32.round (.fin ((2 ^ 31 - 1 : ℤ) : ℝ)) = .fin ((2 : ℝ) ^ (31 : ℤ)) := by
    have := rnd_near Spec.binary32 (x := ((2 ^ 31 - 1 : ℤ) : ℝ)) (k := 30) (n := 2 ^ 24) (by decide)
        (by push_cast; rw [abs_of_pos (by norm_num)]; norm_num) (by push_cast; rw [abs_of_pos (by norm_num)]; norm_num)
        (by rw [b32_p, abs_lt]; push_cast; constructor <;> norm_num)
    unfold Fmt.round
    dsimp only
    rw [this, b32_p, b32_emax]
    push_cast
    norm_num
  have hpow : ∀ (k : ℤ) (s : ℝ), (s = 1 ∨ s = -1) → -149 ≤ k → k < 128 →
      Spec.binary32.round (.fin (s * (2 : ℝ) ^ k)) = .fin (s * (2 : ℝ) ^ k) := by
    intro k s hs h1 h2
    have hg : Spec.binary32.OnGrid ((2 : ℝ) ^ k) := two_zpow_onGrid (by decide) h1
    apply round_mem
    · rcases hs with rfl | rfl
      · rwa [one_mul]
      · rw [neg_one_mul]; exact onGrid_neg hg
    · rw [abs_mul, abs_of_pos (two_zpow_pos k)]
      have : |s| = 1 := by rcases hs with rfl | rfl <;> norm_num
      rw [this, one_mul]
      exact zpow_lt_zpow_right₀ (by norm_num) h2
  have e30 : fxToFloatI Spec.binary32 30 (2 ^ 31 - 1) = .fin 2 := by
    unfold fxToFloatI
    rw [hmax, fxInvScaleI_eq (by norm_num)]
    have e : FVal.mul (.fin ((2 : ℝ) ^ (31 : ℤ))) (.fin (1 / 2 ^ 30)) = .fin (1 * (2 : ℝ) ^ (1 : ℤ)) := by
      unfold FVal.mul; dsimp only; congr 1; norm_num
    rw [e, hpow 1 1 (Or.inl rfl) (by norm_num) (by norm_num), hpow 1 1 (Or.inl rfl) (by norm_num) (by norm_num)]
    norm_num
  refine ⟨?_, e30, ?_⟩
  · unfold fxToFloatI fxInvScaleI fxScaleI
    have hc : i32.conv (2 ^ 31) = -2147483648 := by decide +kernel
    rw [hmax, hc]
    have e1 : ((-2147483648 : ℤ) : ℝ) = -1 * (2 : ℝ) ^ (31 : ℤ) := by norm_num
    rw [e1, hpow 31 (-1) (Or.inr rfl) (by norm_num) (by norm_num)]
    have e2 : FVal.div (.fin 1) (.fin (-1 * (2 : ℝ) ^ (31 : ℤ))) = .fin (-1 * (2 : ℝ) ^ (-31 : ℤ)) := by
      unfold FVal.div; dsimp only; rw [if_neg (by norm_num)]; congr 1; norm_num
    rw [e2, hpow (-31) (-1) (Or.inr rfl) (by norm_num) (by norm_num)]
    have e3 : FVal.mul (.fin ((2 : ℝ) ^ (31 : ℤ))) (.fin (-1 * (2 : ℝ) ^ (-31 : ℤ))) = .fin (-1 * (2 : ℝ) ^ (0 : ℤ)) := by
      unfold FVal.mul; dsimp only; congr 1; norm_num
    rw [e3, hpow 0 (-1) (Or.inr rfl) (by norm_num) (by norm_num), hpow 0 (-1) (Or.inr rfl) (by norm_num) (by norm_num)]
    norm_num
  · rw [e30, fxOfFloatI_fin _ (by norm_num)]
    unfold fxOfFloat
    have h2 : Spec.binary32.rndInf 2 = 2 := by
      apply rndInf_exact
      have := two_zpow_onGrid (f := Spec.binary32) (by decide) (k := 1) (by decide)
      rwa [zpow_one] at this
    rw [h2, floatToI32_error (by norm_num)]
    rfl

/-! ## Products of converted noise -/

/-- The scalar product is at most the exact one, and at most one step below it, for factors of magnitude at most one. -/
private theorem mul_near {w F : ℕ} (hw : w = 8 ∨ w = 16) (hF : F ≤ w - 1) {a b s : ℤ} (ha : InRange w a)
    (hb : InRange w b) (ha1 : |a| ≤ 2 ^ F) (hb1 : |b| ≤ 2 ^ F) (h : fxMul ⟨true, w⟩ F a b = .ok s) :
    s * 2 ^ F ≤ a * b ∧ a * b ≤ (s + 1) * 2 ^ F := by
  rw [fxMul_ok (narrow_of hw) (by omega) (fits_of_inRange ha) (fits_of_inRange hb), clampT_eq hw] at h
  have hs := (Except.ok.inj h).symm
  have hP : (0 : ℤ) < 2 ^ F := by positivity
  have hPw : (2 : ℤ) ^ F ≤ 2 ^ (w - 1) := pow_le_pow_right₀ (by norm_num) hF
  have hab : |a * b| ≤ 2 ^ F * 2 ^ F := by
    rw [abs_mul]; exact mul_le_mul ha1 hb1 (abs_nonneg _) hP.le
  obtain ⟨l1, l2⟩ := abs_le.1 hab
  rw [Int.shiftRight_eq_div_pow] at hs
  push_cast at hs
  have d1 : a * b / 2 ^ F * 2 ^ F ≤ a * b := Int.ediv_mul_le _ hP.ne'
  have d2 : a * b < (a * b / 2 ^ F + 1) * 2 ^ F := Int.lt_ediv_add_one_mul_self _ hP
  have q1 : -2 ^ F ≤ a * b / 2 ^ F := by
    rw [Int.le_ediv_iff_mul_le hP]; linarith
  have q2 : a * b / 2 ^ F ≤ 2 ^ F := by
    have := Int.ediv_le_ediv hP l2
    rwa [Int.mul_ediv_cancel _ hP.ne'] at this
  unfold clampZ at hs
  rw [if_neg (by linarith)] at hs
  split_ifs at hs with c
  · have e1 : a * b / 2 ^ F = 2 ^ F := by linarith
    have e2 : s + 1 = 2 ^ F := by linarith
    rw [e2]
    refine ⟨?_, l2⟩
    rw [e1] at d1
    nlinarith
  · rw [hs]
    exact ⟨d1, d2.le⟩

private theorem mul_err {F : ℕ} {a b v : ℤ} {x y : ℝ} (hb1 : |b| ≤ 2 ^ F) (hx : |x| ≤ 1)
    (ha : |(a : ℝ) / 2 ^ F - x| ≤ 1 / 2 ^ F) (hb : |(b : ℝ) / 2 ^ F - y| ≤ 1 / 2 ^ F)
    (hv : |v * 2 ^ F - a * b| ≤ 2 ^ F) : |(v : ℝ) / 2 ^ F - x * y| ≤ 3 / 2 ^ F := by
  have hP : (0 : ℝ) < 2 ^ F := by positivity
  have hv' : |(v : ℝ) * 2 ^ F - a * b| ≤ 2 ^ F := by exact_mod_cast hv
  have e : (v : ℝ) / 2 ^ F - x * y = ((v : ℝ) * 2 ^ F - a * b) / (2 ^ F * 2 ^ F)
      + ((a : ℝ) / 2 ^ F - x) * (b / 2 ^ F) + x * ((b : ℝ) / 2 ^ F - y) := by
    field_simp
    ring
  have h1 : |((v : ℝ) * 2 ^ F - a * b) / (2 ^ F * 2 ^ F)| ≤ 1 / 2 ^ F := by
    rw [abs_div, abs_of_pos (by positivity : (0 : ℝ) < 2 ^ F * 2 ^ F), div_le_div_iff₀ (by positivity) hP]
    nlinarith
  have h2 : |((a : ℝ) / 2 ^ F - x) * (b / 2 ^ F)| ≤ 1 / 2 ^ F := by
    have hb' : |(b : ℝ) / 2 ^ F| ≤ 1 := by
      rw [abs_div, abs_of_pos hP, div_le_one hP]; exact_mod_cast hb1
    rw [abs_mul]
    calc _ ≤ 1 / 2 ^ F * 1 := mul_le_mul ha hb' (abs_nonneg _) (by positivity)
      _ = _ := mul_one _
  have h3 : |x * ((b : ℝ) / 2 ^ F - y)| ≤ 1 / 2 ^ F := by
    rw [abs_mul]
    calc _ ≤ 1 * (1 / 2 ^ F) := mul_le_mul hx hb (abs_nonneg _) zero_le_one
      _ = _ := one_mul _
  rw [e]
  refine ((abs_add_le _ _).trans (add_le_add ((abs_add_le _ _).trans (add_le_add h1 h2)) h3)).trans (le_of_eq ?_)
  ring

/-- The values drawn by the benchmark: `float` numbers in `[-1, 1]`. -/
def Drawn (l : List FVal) : Prop := ∀ v ∈ l, ∃ x : ℝ, v = .fin x ∧ Spec.binary32.Mem (.fin x) ∧ |x| ≤ 1

/-- **C109, fixed-point products**: `fixed_point_mul` runs without fault on every instruction set but SSE4.1, and its
products are within three steps of the exact products of the drawn numbers.  With SSE4.1 this holds for q15, unless both
factors are -1. -/
theorem C109_fixed_point_mul (isa : Isa) (w : ℕ) (hw : w = 8 ∨ w = 16) (F : ℕ) (hF : F ≤ w - 1) (size : ℕ)
    (hsz : size < 2 ^ 32) (a b : List FVal) (hla : a.length = size) (hlb : b.length = size) (ha : Drawn a) (hb : Drawn b)
    (hisa : isa = .sse41 → F = 15 ∧ ∀ i : ℕ, ¬ (a[i]? = some (.fin (-1)) ∧ b[i]? = some (.fin (-1)))) :
    ∃ r, fixedPointMul isa ⟨true, w⟩ F size a b = .ok r ∧ r.length = size ∧
      ∀ (i : ℕ) (x y : ℝ), a[i]? = some (.fin x) → b[i]? = some (.fin y) →
        ∃ c : ℤ, r[i]? = some c ∧ |(c : ℝ) / 2 ^ F - x * y| ≤ 3 / 2 ^ F := by
  have hF' : F ≤ 30 := by omega
  have conv : ∀ v, (∃ x : ℝ, v = .fin x ∧ Spec.binary32.Mem (.fin x) ∧ |x| ≤ 1) →
      ∃ c : ℤ, fxOfFloatI ⟨true, w⟩ F v = .ok c ∧ InRange w c ∧ |c| ≤ 2 ^ F ∧
        ∀ x, v = .fin x → |x| ≤ 1 ∧ |(c : ℝ) / 2 ^ F - x| ≤ 1 / 2 ^ F ∧ (c = -2 ^ F → x = -1) := by
    rintro v ⟨x, rfl, hm, hx⟩
    obtain ⟨h1, -⟩ := rnd32_unit hx
    have ht := truncates_clamp hw F (Spec.binary32.rndInf x)
    obtain ⟨g1, g2, g3⟩ := trunc_unit hw hF h1 ht
    refine ⟨_, (convert_fin hw hF' x).1 (fits_unit hF' h1), ht.1, g1, ?_⟩
    intro x' hx'
    cases hx'
    rw [rndInf_exact hm.1] at g2 g3 ⊢
    exact ⟨hx, g2, g3⟩
  obtain ⟨fa, efa⟩ : ∃ fa, a = vec size fa := ⟨_, list_eq_vec FVal.nan hla⟩
  obtain ⟨fb, efb⟩ : ∃ fb, b = vec size fb := ⟨_, list_eq_vec FVal.nan hlb⟩
  have mem : ∀ {l : List FVal} {g : ℕ → FVal} {i : ℕ}, l = vec size g → i < size → g i ∈ l := by
    rintro l g i rfl hi
    exact List.mem_of_getElem? (i := i) (by rw [getElem?_vec, if_pos hi])
  have ca : ∀ i, ∃ c : ℤ, i < size → fxOfFloatI ⟨true, w⟩ F (fa i) = .ok c ∧ InRange w c ∧ |c| ≤ 2 ^ F ∧
      ∀ x, fa i = .fin x → |x| ≤ 1 ∧ |(c : ℝ) / 2 ^ F - x| ≤ 1 / 2 ^ F ∧ (c = -2 ^ F → x = -1) := by
    intro i
    by_cases hi : i < size
    · obtain ⟨c, hc⟩ := conv _ (ha _ (mem efa hi)); exact ⟨c, fun _ => hc⟩
    · exact ⟨0, fun h => absurd h hi⟩
  have cb : ∀ i, ∃ c : ℤ, i < size → fxOfFloatI ⟨true, w⟩ F (fb i) = .ok c ∧ InRange w c ∧ |c| ≤ 2 ^ F ∧
      ∀ x, fb i = .fin x → |x| ≤ 1 ∧ |(c : ℝ) / 2 ^ F - x| ≤ 1 / 2 ^ F ∧ (c = -2 ^ F → x = -1) := by
    intro i
    by_cases hi : i < size
    · obtain ⟨c, hc⟩ := conv _ (hb _ (mem efb hi)); exact ⟨c, fun _ => hc⟩
    · exact ⟨0, fun h => absurd h hi⟩
  choose p hp using ca
  choose q hq using cb
  have all : ∀ {g : ℕ → ℤ}, (∀ i < size, InRange w (g i)) → ∀ z ∈ vec size g, InRange w z := by
    intro g h z hz
    unfold vec at hz
    obtain ⟨i, hi, rfl⟩ := List.mem_map.1 hz
    exact h i (List.mem_range.1 hi)
  have hpr := all (fun i hi => (hp i hi).2.1)
  have hqr := all (fun i hi => (hq i hi).2.1)
  have hrun : ∃ r, fxMulSpan isa ⟨true, w⟩ F (vec size p) (vec size q) (List.replicate size 0) = .ok r ∧
      r.length = size ∧ ∀ i < size, ∃ v s, r[i]? = some v ∧ fxMul ⟨true, w⟩ F (p i) (q i) = .ok s ∧
        (v = s ∨ v = s + 1) := by
    have hget : ∀ {g : ℕ → ℤ} {i : ℕ}, i < size → (vec size g)[i]? = some (g i) := by
      intro g i hi; rw [getElem?_vec, if_pos hi]
    by_cases hi : isa = .sse41
    · obtain ⟨rfl, hne⟩ := hisa hi
      subst hi
      obtain ⟨r, h1, h2, h3⟩ := C45_sse41_exact w hw 15 hF (vec size p) (vec size q) (List.replicate size 0) (by simp)
        (by simp) hpr hqr
      rw [length_vec] at h2 h3
      refine ⟨r, h1, h2, fun i hi => ?_⟩
      obtain ⟨v, s, e1, e2, e3, -, e4⟩ := h3 i (p i) (q i) (hget hi) (hget hi)
      refine ⟨v, s, e1, e2, ?_⟩
      by_cases hc : i < size % (128 / w)
      · exact Or.inl (e3 hc)
      · obtain ⟨e5, e6, -⟩ := e4 (by omega) rfl
        by_cases hd : p i * q i % 2 ^ 15 < 2 ^ 14
        · left
          refine e5.2 ⟨hd, fun hm => hne i ?_⟩
          obtain ⟨x, hx⟩ := ha _ (mem efa hi)
          obtain ⟨y, hy⟩ := hb _ (mem efb hi)
          have hx1 := ((hp i hi).2.2.2 x hx.1).2.2 (by rw [hm.1]; norm_num)
          have hy1 := ((hq i hi).2.2.2 y hy.1).2.2 (by rw [hm.2]; norm_num)
          rw [efa, efb, getElem?_vec, getElem?_vec, if_pos hi, if_pos hi, hx.1, hy.1, hx1, hy1]
          exact ⟨rfl, rfl⟩
        · exact Or.inr (e6 (by omega))
    · obtain ⟨r, h1, h2, h3⟩ := C45_multiply_partial isa w hw F hF (vec size p) (vec size q) (List.replicate size 0)
        (by simp) (by simp) hpr hqr (by simpa using hsz) (fun h => absurd h hi)
      rw [length_vec] at h2
      refine ⟨r, h1, h2, fun i hi => ?_⟩
      obtain ⟨v, e1, e2⟩ := h3 i (p i) (q i) (hget hi) (hget hi)
      exact ⟨v, v, e1, e2, Or.inl rfl⟩
  obtain ⟨r, h1, h2, h3⟩ := hrun
  refine ⟨r, ?_, h2, ?_⟩
  · unfold fixedPointMul
    rw [efa, efb, transformTo_vec 0 (fun i hi => (hp i hi).1), bind_ok, transformTo_vec 0 (fun i hi => (hq i hi).1), bind_ok]
    exact h1
  · intro i x y hx hy
    rw [efa, getElem?_vec] at hx
    rw [efb, getElem?_vec] at hy
    split_ifs at hx hy with hi
    obtain ⟨v, s, e1, e2, e3⟩ := h3 i hi
    obtain ⟨-, p1, p2, p3⟩ := hp i hi
    obtain ⟨-, q1, q2, q3⟩ := hq i hi
    obtain ⟨x1, x2, -⟩ := p3 x (Option.some.inj hx)
    obtain ⟨-, y2, -⟩ := q3 y (Option.some.inj hy)
    obtain ⟨m1, m2⟩ := mul_near hw hF p1 q1 p2 q2 e2
    refine ⟨v, e1, mul_err q2 x1 x2 y2 ?_⟩
    rw [abs_le]
    rcases e3 with rfl | rfl
    · constructor <;> linarith
    · constructor <;> linarith

/-- **C109**: with SSE4.1 the q7 products of `fixed_point_mul` are wrong: `1/2 · (-1/2)` gives `127/128`. -/
theorem C109_fixed_point_mul_sse41 :
    fixedPointMul .sse41 i8 7 16 (vec 16 fun _ => .fin (1 / 2)) (vec 16 fun _ => .fin (-1 / 2))
      = .ok (vec 16 fun _ => 127) := by
  have hc : ∀ c : ℤ, InRange 8 c → fxOfFloatI i8 7 (.fin ((c : ℝ) / 2 ^ 7)) = .ok c := by
    intro c h
    obtain ⟨h1, h2⟩ := C109_to_float Spec.binary32 8 (Or.inl rfl) 7 (by norm_num) c h (Or.inl rfl)
    rw [h1] at h2
    exact h2
  have e1 := hc 64 (by unfold InRange; norm_num)
  have e2 := hc (-64) (by unfold InRange; norm_num)
  have r1 : ((64 : ℤ) : ℝ) / 2 ^ 7 = 1 / 2 := by norm_num
  have r2 : ((-64 : ℤ) : ℝ) / 2 ^ 7 = -1 / 2 := by norm_num
  rw [r1] at e1
  rw [r2] at e2
  unfold fixedPointMul
  rw [transformTo_vec 0 (c := fun _ => 64) (fun i _ => e1), bind_ok,
    transformTo_vec 0 (c := fun _ => -64) (fun i _ => e2), bind_ok]
  have hz : List.replicate 16 (0 : ℤ) = vec 16 fun _ => 0 := rfl
  rw [hz]
  exact C45_false.1.2

/-- **C109, half-precision products**: `float16_mul_bench` writes every element exactly once with the product of the two
operands, which were rounded to half precision, rounded once to half precision, infinities and NaN included; it never
leaves its buffers.  For numbers in `[-1, 1]` the result is within `3·2^-11` of the exact product. -/
theorem C109_float16_mul (size : ℕ) (h8 : size % 8 = 0) (hsz : size < 2 ^ 31) (a b : List FVal) (hla : a.length = size)
    (hlb : b.length = size) :
    ∃ r, float16MulBench size a b = .ok r ∧ r.length = size ∧
      (∀ (i : ℕ) (v u : FVal), a[i]? = some v → b[i]? = some u →
        r[i]? = some (binary16.round ((binary16.round v).mul (binary16.round u)))) ∧
      ∀ (i : ℕ) (x y : ℝ), a[i]? = some (.fin x) → b[i]? = some (.fin y) → |x| ≤ 1 → |y| ≤ 1 →
        ∃ z : ℝ, r[i]? = some (.fin z) ∧ |z| ≤ 1 ∧ |z - x * y| ≤ 3 * (2 : ℝ) ^ (-11 : ℤ) := by
  obtain ⟨fa, efa⟩ : ∃ fa, a = vec size fa := ⟨_, list_eq_vec FVal.nan hla⟩
  obtain ⟨fb, efb⟩ : ∃ fb, b = vec size fb := ⟨_, list_eq_vec FVal.nan hlb⟩
  have hmem : ∀ g : ℕ → FVal, ∀ v ∈ vec size (fun i => binary16.round (g i)), binary16.Mem v := by
    intro g v hv
    unfold vec at hv
    obtain ⟨i, -, rfl⟩ := List.mem_map.1 hv
    exact C74_closed _
  obtain ⟨r, h1, h2, h3⟩ := forN_inv (n := size / 8)
    (body := fun k out => f16Step false FVal.mul (vec size fun i => binary16.round (fa i))
      (vec size fun i => binary16.round (fb i)) out (8 * k)) (s := List.replicate size (FVal.fin 0))
    (fun k out => out.length = size ∧ ∀ i < 8 * k,
      out[i]? = some (binary16.round ((binary16.round (fa i)).mul (binary16.round (fb i)))))
    ⟨by simp, fun i hi => by omega⟩ (by
      rintro k hk s ⟨hl, hs⟩
      obtain ⟨d, e1, e2, e3, e4⟩ := C74_batch false FVal.mul (Or.inr (Or.inr rfl)) (vec size fun i => binary16.round (fa i))
        (vec size fun i => binary16.round (fb i)) s (8 * k) (by simp; omega) (by simp; omega) (by simp; omega)
        (hmem fa) (hmem fb)
      refine ⟨d, e1, e2.trans hl, fun i hi => ?_⟩
      by_cases hc : i < 8 * k
      · rw [e4 i (Or.inl hc)]
        exact hs i hc
      · exact e3 i _ _ (by omega) (by simp; omega) (by rw [getElem?_vec, if_pos (by omega)])
          (by rw [getElem?_vec, if_pos (by omega)]))
  have hall : ∀ (i : ℕ) (v u : FVal), a[i]? = some v → b[i]? = some u →
      r[i]? = some (binary16.round ((binary16.round v).mul (binary16.round u))) := by
    intro i v u hv hu
    rw [efa, getElem?_vec] at hv
    rw [efb, getElem?_vec] at hu
    split_ifs at hv hu with hi
    rw [← Option.some.inj hv, ← Option.some.inj hu]
    exact h3 i (by omega)
  have hconv : ∀ g : ℕ → FVal, transformTo (fun v => .ok (binary16.round v)) (vec size g)
      (List.replicate size (.fin 0)) = .ok (vec size fun i => binary16.round (g i)) :=
    fun g => transformTo_vec (FVal.fin 0) (fun i _ => rfl)
  refine ⟨r, ?_, h2, hall, ?_⟩
  · unfold float16MulBench
    rw [efa, efb, hconv fa, bind_ok, hconv fb, bind_ok, check_decide_ok h8, bind_ok,
      if_pos hsz]
    exact h1
  · intro i x y hx hy hx1 hy1
    have hgrid : binary16.OnGrid 1 := one_onGrid ieee_formats.1
    have unit : ∀ t : ℝ, |t| ≤ 1 → binary16.round (.fin t) = .fin (binary16.rndInf t) ∧ |binary16.rndInf t| ≤ 1 ∧
        |binary16.rndInf t - t| ≤ (2 : ℝ) ^ (-11 : ℤ) := by
      intro t ht
      have g1 : |binary16.rndInf t| ≤ 1 := by
        rw [rndInf_abs _ (by decide)]
        exact rndInf_le_grid (by decide) hgrid ht
      refine ⟨round_fin_of_lt (g1.trans_lt ?_), g1, rndInf_err_lt_two ieee_formats.1 (ht.trans_lt (by norm_num))⟩
      change (1 : ℝ) < (2 : ℝ) ^ (16 : ℤ)
      norm_num
    obtain ⟨x1, x2, x3⟩ := unit x hx1
    obtain ⟨y1, y2, y3⟩ := unit y hy1
    have hp : |binary16.rndInf x * binary16.rndInf y| ≤ 1 := by
      rw [abs_mul]; exact mul_le_one₀ x2 (abs_nonneg _) y2
    obtain ⟨z1, z2, z3⟩ := unit _ hp
    refine ⟨_, ?_, z2, ?_⟩
    · rw [hall i _ _ hx hy, x1, y1]
      change some (binary16.round (.fin (binary16.rndInf x * binary16.rndInf y))) = _
      rw [z1]
    · generalize binary16.rndInf (binary16.rndInf x * binary16.rndInf y) = z at *
      generalize binary16.rndInf x = p at *
      generalize binary16.rndInf y = q at *
      have e : z - x * y = (z - p * q) + ((p - x) * q + x * (q - y)) := by ring
      rw [e]
      have t1 : |(p - x) * q| ≤ (2 : ℝ) ^ (-11 : ℤ) := by
        rw [abs_mul]
        calc _ ≤ (2 : ℝ) ^ (-11 : ℤ) * 1 := mul_le_mul x3 y2 (abs_nonneg _) (by positivity)
          _ = _ := mul_one _
      have t2 : |x * (q - y)| ≤ (2 : ℝ) ^ (-11 : ℤ) := by
        rw [abs_mul]
        calc _ ≤ 1 * (2 : ℝ) ^ (-11 : ℤ) := mul_le_mul hx1 y3 (abs_nonneg _) zero_le_one
          _ = _ := one_mul _
      have t3 := abs_add_le (z - p * q) ((p - x) * q + x * (q - y))
      have t4 := abs_add_le ((p - x) * q) (x * (q - y))
      linarith

/-! ## Cases -/

/-- `0.3` is rounded to `float`; `NaN` does not convert. -/
example : (∃ a : ℤ, fxOfFloatI ⟨true, 16⟩ 15 (.fin (3 / 10)) = .ok a ∧
    |(a : ℝ) / 2 ^ 15 - 3 / 10| ≤ 1 / 2 ^ 15 + (2 : ℝ) ^ (-25 : ℤ)) ∧
    fxOfFloatI ⟨true, 16⟩ 15 .nan = .error .overflow := by
  obtain ⟨a, h1, -, h3, -⟩ := C109_accuracy 16 (Or.inr rfl) 15 (by norm_num) (3 / 10) (by rw [abs_of_pos] <;> norm_num)
  exact ⟨⟨a, h1, h3⟩, (C109_from_float 16 (Or.inr rfl) 15 (by norm_num)).2.2⟩

/-- A number that fits and one that does not. -/
example : FitsI32 15 (-1) ∧ ¬ FitsI32 15 65536 := by
  unfold FitsI32
  constructor <;> norm_num

/-- Order: `1/4` and `1/2`, as q7 values 32 and 64. -/
example : fxOfFloatI ⟨true, 8⟩ 7 (.fin (1 / 4)) = .ok 32 ∧ fxOfFloatI ⟨true, 8⟩ 7 (.fin (1 / 2)) = .ok 64 := by
  have hc : ∀ c : ℤ, InRange 8 c → fxOfFloatI ⟨true, 8⟩ 7 (.fin ((c : ℝ) / 2 ^ 7)) = .ok c := by
    intro c h
    obtain ⟨h1, h2⟩ := C109_to_float Spec.binary32 8 (Or.inl rfl) 7 (by norm_num) c h (Or.inl rfl)
    rw [h1] at h2
    exact h2
  have e1 := hc 32 (by unfold InRange; norm_num)
  have e2 := hc 64 (by unfold InRange; norm_num)
  norm_num at e1 e2 ⊢
  exact ⟨e1, e2⟩

/-- Nine numbers in the q15 benchmark, one of them -1, on SSE4.1: one element in the scalar head, eight in a register. -/
example : ∃ r, fixedPointMul .sse41 ⟨true, 16⟩ 15 9 (vec 9 fun _ => .fin (-1)) (vec 9 fun _ => .fin 1) = .ok r ∧
    r.length = 9 := by
  have h1 : Spec.binary32.OnGrid 1 := one_onGrid b32_ieee
  have hlt : (1 : ℝ) < (2 : ℝ) ^ Spec.binary32.emax := by
    change (1 : ℝ) < (2 : ℝ) ^ (128 : ℤ); norm_num
  obtain ⟨r, e1, e2, -⟩ := C109_fixed_point_mul .sse41 16 (Or.inr rfl) 15 (by norm_num) 9 (by norm_num)
    (vec 9 fun _ => .fin (-1)) (vec 9 fun _ => .fin 1) (by simp) (by simp)
    (by
      intro v hv
      unfold vec at hv
      obtain ⟨i, -, rfl⟩ := List.mem_map.1 hv
      exact ⟨-1, rfl, ⟨onGrid_neg h1, by rw [abs_neg, abs_one]; exact hlt⟩, by norm_num⟩)
    (by
      intro v hv
      unfold vec at hv
      obtain ⟨i, -, rfl⟩ := List.mem_map.1 hv
      exact ⟨1, rfl, ⟨h1, by rw [abs_one]; exact hlt⟩, by norm_num⟩)
    (fun _ => ⟨rfl, fun i h => by
      have := h.2
      rw [getElem?_vec] at this
      split_ifs at this
      have := FVal.fin.inj (Option.some.inj this)
      norm_num at this⟩)
  exact ⟨r, e1, e2⟩

/-- Sixteen half-precision products of `0.3` and NaN. -/
example : ∃ r, float16MulBench 16 (vec 16 fun _ => .fin (3 / 10)) (vec 16 fun i => if i = 3 then .nan else .fin (1 / 2)) = .ok r ∧
    r[3]? = some .nan ∧ ∃ z : ℝ, r[9]? = some (.fin z) ∧ |z - 3 / 10 * (1 / 2)| ≤ 3 * (2 : ℝ) ^ (-11 : ℤ) := by
  obtain ⟨r, h1, -, h3, h4⟩ := C109_float16_mul 16 (by norm_num) (by norm_num) (vec 16 fun _ => .fin (3 / 10))
    (vec 16 fun i => if i = 3 then .nan else .fin (1 / 2)) (by simp) (by simp)
  refine ⟨r, h1, ?_, ?_⟩
  · rw [h3 3 (.fin (3 / 10)) .nan (by rw [getElem?_vec]; rfl) (by rw [getElem?_vec]; rfl)]
    unfold Fmt.round
    dsimp only
    split_ifs <;> rfl
  · obtain ⟨z, e1, -, e2⟩ := h4 9 (3 / 10) (1 / 2) (by rw [getElem?_vec]; rfl) (by rw [getElem?_vec]; rfl)
      (by rw [abs_of_pos] <;> norm_num) (by rw [abs_of_pos] <;> norm_num)
    exact ⟨z, e1, e2⟩

end Neo.Props
