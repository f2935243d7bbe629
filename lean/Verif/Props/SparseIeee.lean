import Verif.Props.MelIeee
import Verif.Lemmas.SparseIeee

/-! # C122: the weights of the sparse renderer in single precision -/

namespace Neo.Props

open Neo Spec

private theorem ieee32 : binary32.Ieee := by unfold Fmt.Ieee binary32; norm_num

private theorem u32 : binary32.u = 1 / 2 ^ 24 := by
  show (2 : ℝ) ^ (-((24 : ℕ) : ℤ)) = _
  rw [zpow_neg, zpow_natCast, one_div]

private theorem sparseWeightsI_eq (log10 : FVal → FVal) {K bins low : ℕ} (hlow : low ≤ bins) (rate : ℝ) :
    sparseWeightsI log10 K bins low rate = .ok (vec bins (fun i => if i < low then .fin 100
      else aWeightingI binary32 log10 (rfftfreqI binary32 K i (binary64.round ((FVal.fin 1).div (.fin rate)))))) := by
  unfold sparseWeightsI
  rw [if_neg (by omega), bind_ok]
  simp only [Int.toNat_natCast]
  apply forN_eq' (fun t => vec bins (fun i => if i < low then FVal.fin 100
      else if i < low + t then aWeightingI binary32 log10 (rfftfreqI binary32 K i (binary64.round ((FVal.fin 1).div (.fin rate)))) else .fin 0))
  · apply vec_ext
    intro i _
    by_cases c : i < low
    · rw [if_pos c, if_pos c]
    · rw [if_neg c, if_neg c, if_neg (by omega)]
  · apply vec_ext
    intro i hi
    by_cases c : i < low
    · rw [if_pos c, if_pos c]
    · rw [if_neg c, if_neg c, if_pos (by omega)]
  · intro t ht
    rw [wr_vec_ok (by omega)]
    congr 1
    apply vec_ext
    intro i hi
    by_cases c : i = low + t
    · subst c
      rw [Function.update_self, if_neg (by omega), if_pos (by omega)]
    · rw [Function.update_of_ne c]
      by_cases c2 : i < low
      · rw [if_pos c2, if_pos c2]
      · rw [if_neg c2, if_neg c2]
        by_cases c3 : i < low + t
        · rw [if_pos c3, if_pos (by omega)]
        · rw [if_neg c3, if_neg (by omega)]

/-- The frequency of a bin in single precision. -/
private theorem freq_ok {K i : ℕ} {rate : ℝ} (hK : 1 ≤ K) (hK2 : K ≤ 2 ^ 21) (hi : i ≤ K) (h1 : 8 ≤ rate) (h2 : rate ≤ 2 ^ 19) :
    ∃ φ, rfftfreqI binary32 K i (binary64.round ((FVal.fin 1).div (.fin rate))) = .fin (i * rate / K * φ) ∧ 0 < φ ∧
      |Real.logb 10 φ| ≤ 10 * binary32.u := by
  have hr : 0 < rate := by linarith
  have hu := u32
  have hν64 : binary64.minNormal ≤ (2 : ℝ) ^ (-30 : ℤ) := by
    show (2 : ℝ) ^ ((-1074 : ℤ) + ((53 : ℕ) : ℤ) - 1) ≤ _
    exact zpow_le_zpow_right₀ (by norm_num) (by norm_num)
  have hd1 : (1 : ℝ) / 2 ^ 19 ≤ 1 / rate := one_div_le_one_div_of_le hr h2
  have hd2 : 1 / rate ≤ 1 / 8 := one_div_le_one_div_of_le (by norm_num) h1
  obtain ⟨δ, eδ, hδ⟩ := rndInf_fac binary64_ieee (t := 1 / rate) (hν64.trans (le_trans (by norm_num) hd1))
  have hδ0 := hδ.pos binary64_ieee
  have hδ1 := hδ.sub_one binary64_ieee (e := 1 / 2 ^ 50) (by rw [u_binary64]; norm_num) (by rw [u_binary64]; norm_num)
  rw [abs_le] at hδ1
  have hδ2 : 1 / 2 ≤ δ ∧ δ ≤ 2 := by
    have a := hδ1.1
    have b := hδ1.2
    norm_num at a b
    constructor <;> linarith
  have einv : binary64.round ((FVal.fin 1).div (.fin rate)) = .fin (1 / rate * δ) := by
    simp only [FVal.div]
    rw [if_neg hr.ne', ← eδ]
    refine round_fin_of_lt ?_
    rw [eδ, abs_of_pos (by positivity)]
    have : (2 : ℝ) ^ (0 : ℤ) ≤ (2 : ℝ) ^ binary64.emax := zpow_le_zpow_right₀ (by norm_num) (by norm_num [binary64])
    rw [zpow_zero] at this
    nlinarith
  rw [einv]
  have hKr : (1 : ℝ) ≤ K := by exact_mod_cast hK
  have hKr2 : (K : ℝ) ≤ 2097152 := by exact_mod_cast (by omega : K ≤ 2097152)
  have hE : (2 : ℝ) ^ (60 : ℤ) ≤ (2 : ℝ) ^ binary32.emax := zpow_le_zpow_right₀ (by norm_num) (by norm_num [binary32])
  have hν : binary32.minNormal ≤ (2 : ℝ) ^ (-60 : ℤ) := by
    show (2 : ℝ) ^ ((-149 : ℤ) + ((24 : ℕ) : ℤ) - 1) ≤ _
    exact zpow_le_zpow_right₀ (by norm_num) (by norm_num)
  norm_num at hE hν hd1
  have hdpos : 0 < 1 / rate * δ := by positivity
  have hdlo : 1 / 1048576 ≤ 1 / rate * δ := by
    have := mul_le_mul hd1 hδ2.1 (by norm_num) (by positivity)
    rw [one_div]
    norm_num at this ⊢
    linarith
  have hdhi : 1 / rate * δ ≤ 1 / 4 := by
    have := mul_le_mul hd2 hδ2.2 hδ0.le (by norm_num)
    linarith
  obtain ⟨y, ey, hy⟩ := C111_rfftfreq_accuracy ieee32 (by rw [hu]; norm_num) hK hi hdpos
    (by linarith) (by nlinarith [mul_le_mul_of_nonneg_right hdlo (by positivity : (0 : ℝ) ≤ (2 : ℝ) ^ binary32.emax)])
    (by have h3 : (K : ℝ) * (1 / rate * δ) ≤ 2097152 * (1 / 4) := mul_le_mul hKr2 hdhi hdpos.le (by norm_num)
        have h4 := minNormal_pos binary32
        have h5 : 8 * binary32.minNormal * (K * (1 / rate * δ)) ≤ 8 * (1 / 1152921504606846976) * (2097152 * (1 / 4)) :=
          mul_le_mul (by linarith) h3 (by positivity) (by norm_num)
        refine h5.trans (by norm_num))
  rcases Nat.eq_zero_or_pos i with rfl | hi0
  · refine ⟨1, ?_, one_pos, by rw [Real.logb_one, abs_zero, hu]; norm_num⟩
    rw [ey]
    have : y = 0 := by
      rw [Nat.cast_zero, zero_div, mul_zero, sub_zero] at hy
      exact abs_eq_zero.1 (le_antisymm hy (abs_nonneg _))
    rw [this]; simp
  have hir : (0 : ℝ) < i := by exact_mod_cast hi0
  set t := (i : ℝ) * rate / K with ht
  have ht0 : 0 < t := by rw [ht]; positivity
  have et : (i : ℝ) / (K * (1 / rate * δ)) = t / δ := by rw [ht]; field_simp
  rw [et] at hy
  refine ⟨y / t, by rw [ey]; congr 1; field_simp, ?_⟩
  have hx : |y * δ / t - 1| ≤ 8 * binary32.u := by
    have e1 : y * δ / t - 1 = (y - t / δ) / (t / δ) := by field_simp
    rw [e1, abs_div, abs_of_pos (by positivity : 0 < t / δ), div_le_iff₀ (by positivity)]
    exact hy
  have l1 := logb_near hx (by rw [hu]; norm_num)
  have l2 := logb_near (abs_le.2 hδ1) (by norm_num)
  rw [add_sub_cancel] at l1 l2
  have hyδ : 0 < y * δ / t := by
    rw [abs_le] at hx
    have : 8 * binary32.u < 1 := by rw [hu]; norm_num
    linarith
  have e2 : y / t = y * δ / t / δ := by field_simp
  have hpos : 0 < y / t := by rw [e2]; positivity
  refine ⟨hpos, ?_⟩
  rw [e2, Real.logb_div hyδ.ne' hδ0.ne']
  rw [abs_le] at l1 l2 ⊢
  have h50 : (1 : ℝ) / 2 ^ 50 ≤ 2 * binary32.u := by rw [hu]; norm_num
  constructor <;> linarith

/-- **C122** (weights).  For block sizes up to `2²⁰` and sample rates from 8 to `2¹⁹` Hz, the vector of weights is made without
fault; the bins to keep have 100 dB, bin 0 has `-∞` otherwise, and every other bin has a weight within 0.002 dB of the A-weighting
of its frequency `i · rate / K`. -/
theorem C122_weights {log10 : FVal → FVal} {κ : ℝ} (hl : LogNear log10 κ) (hκ : κ ≤ 1 / 2 ^ 19) (hi : log10 (.inf false) = .inf false)
    (hz : log10 (.fin 0) = .inf true) {K bins low : ℕ} (hK : 1 ≤ K) (hK2 : K ≤ 2 ^ 21) (hb : bins ≤ K / 2 + 1) (hlow : low ≤ bins)
    {rate : ℝ} (h1 : 8 ≤ rate) (h2 : rate ≤ 2 ^ 19) :
    ∃ w, sparseWeightsI log10 K bins low rate = .ok w ∧ w.length = bins ∧ ∀ i < bins,
      (i < low → w.getD i .nan = .fin 100) ∧ (low ≤ i → i = 0 → w.getD i .nan = .inf true) ∧
      (low ≤ i → i ≠ 0 → ∃ y, w.getD i .nan = .fin y ∧ |y - aWeight (i * rate / K)| < 1 / 500) := by
  refine ⟨_, sparseWeightsI_eq log10 hlow rate, length_vec _ _, fun i hib => ?_⟩
  rw [getD_vec _ _ _ _ hib]
  refine ⟨fun h => by rw [if_pos h], fun h h0 => ?_, fun h h0 => ?_⟩
  · subst h0
    rw [if_neg (by omega)]
    obtain ⟨φ, e, -⟩ := freq_ok (i := 0) hK hK2 (by omega) h1 h2
    rw [e]
    refine (C120_float hl hκ hi hz).2.2 _ (by simp) (by simp)
  · rw [if_neg (by omega)]
    have hiK : 2 * i ≤ K := by omega
    obtain ⟨φ, e, hφ, hlφ⟩ := freq_ok (i := i) hK hK2 (by omega) h1 h2
    have hKr : (1 : ℝ) ≤ K := by exact_mod_cast hK
    have hKr2 : (K : ℝ) ≤ 2097152 := by exact_mod_cast (by omega : K ≤ 2097152)
    have hir : (1 : ℝ) ≤ i := by exact_mod_cast (by omega : 1 ≤ i)
    have hiKr : 2 * (i : ℝ) ≤ K := by exact_mod_cast hiK
    have hu := u32
    have t1 : 8 / 2097152 ≤ (i : ℝ) * rate / K := by
      rw [le_div_iff₀ (by linarith)]
      nlinarith
    have t2 : (i : ℝ) * rate / K ≤ 2 ^ 18 := by
      rw [div_le_iff₀ (by linarith)]
      norm_num at h2 ⊢
      nlinarith
    have hφ2 : 1 / 2 ≤ φ ∧ φ ≤ 2 := by
      have a : φ = (10 : ℝ) ^ Real.logb 10 φ := (Real.rpow_logb (by norm_num) (by norm_num) hφ).symm
      have := pow10_near hlφ (by rw [hu]; norm_num)
      rw [← a, abs_le, hu] at this
      norm_num at this
      constructor <;> linarith
    set t := (i : ℝ) * rate / K with ht
    have ht0 : 0 < t := lt_of_lt_of_le (by norm_num) t1
    obtain ⟨y, ey, hy⟩ := C120_accuracy ieee32 (by norm_num [binary32]) (by norm_num [binary32])
      (show binary32.minNormal ≤ (2 : ℝ) ^ (-39 : ℤ) by
        show (2 : ℝ) ^ ((-149 : ℤ) + ((24 : ℕ) : ℤ) - 1) ≤ _
        exact zpow_le_zpow_right₀ (by norm_num) (by norm_num)) (by norm_num [binary32]) hl (hκ.trans (by norm_num)) (g := t * φ)
      (by have := mul_le_mul t1 hφ2.1 (by norm_num) ht0.le
          refine le_trans (by norm_num) this)
      (by have := mul_le_mul t2 hφ2.2 hφ.le (by norm_num)
          refine this.trans (by norm_num))
    have hs := aWeight_shift ht0 hφ hlφ
    refine ⟨y, by rw [e]; exact ey, ?_⟩
    rw [hu] at hy hs
    rw [abs_le] at hy hs
    norm_num at hy hs hκ
    rw [abs_lt]
    constructor <;> linarith

/-- A block of 512 samples at 44100 Hz, the first 3 bins kept. -/
example : ∃ w, sparseWeightsI (log10Z binary32) 1024 513 3 44100 = .ok w ∧ w.length = 513 := by
  obtain ⟨w, h1, h2, -⟩ := C122_weights (log10Z_near ieee32 (by norm_num [binary32])) (by rw [u32]; norm_num) rfl (if_pos rfl)
    (K := 1024) (bins := 513) (low := 3) (by norm_num) (by norm_num) (by norm_num) (by norm_num) (rate := 44100) (by norm_num) (by norm_num)
  exact ⟨w, h1, h2⟩

end Neo.Props
