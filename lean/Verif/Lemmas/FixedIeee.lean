import Verif.Lemmas.Fixed
import Verif.Lemmas.NormIeee
import Verif.Lemmas.Algo
import Verif.Model.FixedIeee

/-!
# Lemmas: conversions between `fixed_point` and floating point in IEEE arithmetic
-/

namespace Neo

open Spec

theorem b32_p : binary32.p = 24 := rfl
theorem b32_emin : binary32.emin = -149 := rfl
theorem b32_emax : binary32.emax = 128 := rfl

theorem b32_ieee : binary32.Ieee := by
  refine ⟨?_, ?_, ?_⟩ <;> simp [binary32]

theorem fxScaleI_eq {F : ℕ} (hF : F ≤ 30) : fxScaleI F = .fin (2 ^ F) := by
  have hc : i32.conv (2 ^ F) = 2 ^ F := by
    apply i32_conv
    have h1 : (0 : ℤ) < 2 ^ F := by positivity
    have h2 : (2 : ℤ) ^ F ≤ 2 ^ 30 := pow_le_pow_right₀ (by norm_num) hF
    unfold IntT.Fits
    change (-2147483648 : ℤ) ≤ _ ∧ _ ≤ (2147483647 : ℤ)
    norm_num at h2
    constructor <;> omega
  unfold fxScaleI
  rw [hc]
  push_cast
  have e : (2 : ℝ) ^ F = (2 : ℝ) ^ (F : ℤ) := by rw [zpow_natCast]
  rw [e]
  apply round_mem
  · exact two_zpow_onGrid (by decide) (by rw [b32_emin]; omega)
  · rw [abs_of_pos (two_zpow_pos _)]
    exact zpow_lt_zpow_right₀ (by norm_num) (by rw [b32_emax]; omega)

theorem fxInvScaleI_eq {F : ℕ} (hF : F ≤ 30) : fxInvScaleI F = .fin (1 / 2 ^ F) := by
  unfold fxInvScaleI
  rw [fxScaleI_eq hF]
  unfold FVal.div
  dsimp only
  rw [if_neg (by positivity)]
  have e : 1 / (2 : ℝ) ^ F = (2 : ℝ) ^ (-(F : ℤ)) := by rw [zpow_neg, zpow_natCast, one_div]
  rw [e]
  apply round_mem
  · exact two_zpow_onGrid (by decide) (by rw [b32_emin]; omega)
  · rw [abs_of_pos (two_zpow_pos _)]
    exact zpow_lt_zpow_right₀ (by norm_num) (by rw [b32_emax]; omega)

theorem onGrid_mul_pow {f : Fmt} {x : ℝ} (h : f.OnGrid x) (F : ℕ) : f.OnGrid (x * 2 ^ F) := by
  obtain ⟨m, k, h1, h2, rfl⟩ := h
  refine ⟨m, k + F, h1, by omega, ?_⟩
  rw [zpow_add₀ (by norm_num), zpow_natCast]
  ring

/-- A real number at least `2 ^ 128` in magnitude does not convert to `int32_t`. -/
theorem floatToI32_big {y : ℝ} (h : (2 : ℝ) ^ (128 : ℤ) ≤ |y|) : floatToI32 y = .error .overflow := by
  unfold floatToI32
  rw [if_neg]
  intro hf
  obtain ⟨-, h2, -⟩ := truncR_abs y
  have h3 : -2147483648 ≤ truncR y ∧ truncR y ≤ 2147483647 := hf
  have h4 : |(truncR y : ℝ)| ≤ 2147483648 := by
    rw [abs_le]
    constructor
    · have : ((-2147483648 : ℤ) : ℝ) ≤ truncR y := by exact_mod_cast h3.1
      push_cast at this; linarith
    · have : (truncR y : ℝ) ≤ ((2147483647 : ℤ) : ℝ) := by exact_mod_cast h3.2
      push_cast at this; linarith
  have h5 : |y| ≤ |y - truncR y| + |(truncR y : ℝ)| := by
    calc |y| = |(y - truncR y) + truncR y| := by congr 1; ring
      _ ≤ _ := abs_add_le _ _
  have h6 : (2147483649 : ℝ) < (2 : ℝ) ^ (128 : ℤ) := by norm_num
  linarith

/-- On finite arguments the conversion is that of the real-number model, with the correctly rounded `float`. -/
theorem fxOfFloatI_fin (t : IntT) {F : ℕ} (hF : F ≤ 30) (x : ℝ) :
    fxOfFloatI t F (.fin x) = fxOfFloat binary32.rndInf t F x := by
  have hP : (1 : ℝ) ≤ 2 ^ F := one_le_pow₀ (by norm_num)
  have hg : binary32.OnGrid (binary32.rndInf x) := (rndInf_nearest binary32 (by decide) x).1
  unfold fxOfFloatI fxOfFloat
  rw [fxScaleI_eq hF]
  by_cases h1 : |binary32.rndInf x| < (2 : ℝ) ^ binary32.emax
  · rw [round_fin_of_lt h1]
    have hg' := onGrid_mul_pow hg F
    change (toI32I (binary32.round (.fin (binary32.rndInf x * 2 ^ F))) >>= _) = _
    by_cases h2 : |binary32.rndInf x * 2 ^ F| < (2 : ℝ) ^ binary32.emax
    · rw [round_mem hg' h2]
      rfl
    · have e : ∃ s, binary32.round (.fin (binary32.rndInf x * 2 ^ F)) = .inf s := by
        unfold Fmt.round
        dsimp only
        rw [rndInf_exact hg', if_neg h2]
        exact ⟨_, rfl⟩
      obtain ⟨s, e⟩ := e
      rw [e, floatToI32_big (not_lt.1 h2)]
      rfl
  · have h2 : (2 : ℝ) ^ (128 : ℤ) ≤ |binary32.rndInf x * 2 ^ F| := by
      rw [abs_mul, abs_of_pos (by positivity : (0 : ℝ) < 2 ^ F)]
      have h3 : (2 : ℝ) ^ (128 : ℤ) ≤ |binary32.rndInf x| := not_lt.1 h1
      nlinarith [abs_nonneg (binary32.rndInf x)]
    rw [floatToI32_big h2]
    have e : ∃ s, (binary32.round (.fin x)).mul (.fin (2 ^ F)) = .inf s := by
      unfold Fmt.round
      dsimp only
      rw [if_neg h1]
      unfold FVal.mul
      dsimp only
      rw [if_neg (by positivity)]
      exact ⟨_, rfl⟩
    obtain ⟨s, e⟩ := e
    rw [e, round_inf]
    rfl

/-- Infinities and NaN do not convert. -/
theorem fxOfFloatI_special (t : IntT) {F : ℕ} (hF : F ≤ 30) (v : FVal) (hv : ∀ x, v ≠ .fin x) :
    fxOfFloatI t F v = .error .overflow := by
  unfold fxOfFloatI
  rw [fxScaleI_eq hF]
  cases v with
  | fin x => exact absurd rfl (hv x)
  | inf s =>
    rw [round_inf]
    unfold FVal.mul
    dsimp only
    rw [if_neg (by positivity), round_inf]
    rfl
  | nan => rfl

/-- An integer of 16 bits divided by a power of two is a `float`. -/
theorem quotient_onGrid {a : ℤ} (ha : |a| < 2 ^ 24) {F : ℕ} (hF : F ≤ 149) : binary32.OnGrid ((a : ℝ) * (1 / 2 ^ F)) := by
  refine ⟨a, -F, ha, by rw [b32_emin]; omega, ?_⟩
  rw [zpow_neg, zpow_natCast, one_div]

theorem quotient_lt {a : ℤ} (ha : |a| < 2 ^ 24) (F : ℕ) : |(a : ℝ) * (1 / 2 ^ F)| < (2 : ℝ) ^ (24 : ℤ) := by
  have h1 : |(a : ℝ)| < 2 ^ 24 := by exact_mod_cast ha
  have h2 : (1 : ℝ) / 2 ^ F ≤ 1 := by
    rw [div_le_one (by positivity)]
    exact one_le_pow₀ (by norm_num)
  have h3 : (0 : ℝ) < 1 / 2 ^ F := by positivity
  rw [abs_mul, abs_of_pos h3]
  have : |(a : ℝ)| * (1 / 2 ^ F) ≤ |(a : ℝ)| * 1 := mul_le_mul_of_nonneg_left h2 (abs_nonneg _)
  have e : (2 : ℝ) ^ (24 : ℤ) = 2 ^ 24 := by norm_num
  rw [e]; linarith

/-- The conversion of a stored value of at most 16 bits rounds only to the destination format. -/
theorem fxToFloatI_eq (g : Fmt) {a : ℤ} (ha : |a| < 2 ^ 24) {F : ℕ} (hF : F ≤ 30) :
    fxToFloatI g F a = g.round (.fin (fxToFloat F a)) := by
  have hlt : ∀ G : ℕ, |(a : ℝ) * (1 / 2 ^ G)| < (2 : ℝ) ^ binary32.emax := fun G =>
    (quotient_lt ha G).trans (zpow_lt_zpow_right₀ (by norm_num) (by rw [b32_emax]; norm_num))
  have e0 : binary32.round (.fin (a : ℝ)) = .fin (a : ℝ) := by
    have h1 := quotient_onGrid ha (F := 0) (by norm_num)
    have h2 := hlt 0
    rw [pow_zero, div_one, mul_one] at h1 h2
    exact round_mem h1 h2
  unfold fxToFloatI
  rw [e0, fxInvScaleI_eq hF]
  change g.round (binary32.round (.fin ((a : ℝ) * (1 / 2 ^ F)))) = _
  rw [round_mem (quotient_onGrid ha (by omega)) (hlt F)]
  rfl

/-- `transformTo` when every conversion succeeds. -/
theorem transformTo_vec {E S : Type} {comp : E → Res S} {n : ℕ} {a : ℕ → E} {c : ℕ → S} (z : S)
    (h : ∀ i < n, comp (a i) = .ok (c i)) : transformTo comp (vec n a) (List.replicate n z) = .ok (vec n c) := by
  have hrep : List.replicate n z = vec n (fun _ => z) := by
    apply List.ext_getElem?
    intro i
    rw [getElem?_vec, List.getElem?_replicate]
  rw [hrep]
  unfold transformTo
  rw [length_vec]
  apply forN_eq' (fun k => vec n (fun m => if m < k then c m else z))
  · apply vec_ext
    intro m _
    rw [if_neg (by omega)]
  · apply vec_ext
    intro m hm
    rw [if_pos hm]
  · intro i hi
    rw [rd_vec_ok hi, bind_ok, h i hi, bind_ok, wr_vec_ok hi]
    congr 1
    apply vec_ext
    intro m _
    by_cases hm : m = i
    · subst hm; rw [Function.update_self, if_pos (by omega)]
    · rw [Function.update_of_ne hm]
      by_cases hc : m < i
      · rw [if_pos hc, if_pos (by omega)]
      · rw [if_neg hc, if_neg (by omega)]

end Neo
