import Verif.Props.SparseIeee
import Verif.Model.SparseDecision

/-! # C123: the decision of the sparse renderer in single precision -/

namespace Neo.Props

open Neo Spec

private theorem ieee32 : binary32.Ieee := by unfold Fmt.Ieee binary32; norm_num

private theorem u32 : binary32.u = 1 / 2 ^ 24 := by
  show (2 : ℝ) ^ (-((24 : ℕ) : ℤ)) = _
  rw [zpow_neg, zpow_natCast, one_div]

/-- The level in decibel relative to the peak. -/
private theorem level_ok {log10 : FVal → FVal} {κ : ℝ} (hl : LogNear log10 κ) (hκ : κ ≤ 1 / 2 ^ 19) (hm : LogOk log10)
    {g s : ℝ} (hg : 0 ≤ g) (hs1 : (2 : ℝ) ^ (-60 : ℤ) ≤ s) (hs2 : s ≤ (2 : ℝ) ^ (60 : ℤ)) (hq : g * g * s ≤ 4) :
    ∃ y, amplitudeToDbI binary32 log10 (binary32.round ((binary32.round ((FVal.fin g).mul (.fin g))).mul (.fin s))) (.fin (-144)) = .fin y ∧
      |y / 2 - level (1 / s) (g * g)| ≤ 10 * κ + 170 * binary32.u := by
  have hf := ieee32
  have hu := u_pos binary32
  have hu' := u32
  have hκ0 := hl.nonneg
  have hs0 : 0 < s := (two_zpow_pos _).trans_le hs1
  have hp0 : 0 ≤ g * g := mul_nonneg hg hg
  have hν : binary32.minNormal = (2 : ℝ) ^ (-126 : ℤ) := by
    show (2 : ℝ) ^ ((-149 : ℤ) + ((24 : ℕ) : ℤ) - 1) = _
    norm_num
  have hE : (2 : ℝ) ^ binary32.emax = (2 : ℝ) ^ (128 : ℤ) := rfl
  have p1 : 0 < (2 : ℝ) ^ (-60 : ℤ) := two_zpow_pos _
  have hpu : g * g ≤ 4 * (2 : ℝ) ^ (60 : ℤ) := by
    have e : (2 : ℝ) ^ (60 : ℤ) * (2 : ℝ) ^ (-60 : ℤ) = 1 := by rw [← zpow_add₀ (by norm_num)]; norm_num
    have : g * g * (2 : ℝ) ^ (-60 : ℤ) ≤ 4 := (mul_le_mul_of_nonneg_left hs1 hp0).trans hq
    have h60 := two_zpow_pos 60
    have := mul_le_mul_of_nonneg_right this h60.le
    calc g * g = g * g * (2 : ℝ) ^ (-60 : ℤ) * (2 : ℝ) ^ (60 : ℤ) := by rw [mul_assoc, mul_comm ((2 : ℝ) ^ (-60 : ℤ)), e, mul_one]
      _ ≤ _ := this
  by_cases hc : (2 : ℝ) ^ (-30 : ℤ) ≤ g * g * s
  · -- everything is a normal number
    have hpl : (2 : ℝ) ^ (-90 : ℤ) ≤ g * g := by
      have h60 := two_zpow_pos 60
      have : (2 : ℝ) ^ (-30 : ℤ) ≤ g * g * (2 : ℝ) ^ (60 : ℤ) := hc.trans (mul_le_mul_of_nonneg_left hs2 hp0)
      have e : (2 : ℝ) ^ (-90 : ℤ) * (2 : ℝ) ^ (60 : ℤ) = (2 : ℝ) ^ (-30 : ℤ) := by rw [← zpow_add₀ (by norm_num)]; norm_num
      rw [← e] at this
      exact le_of_mul_le_mul_right this h60
    have hp : 0 < g * g := (two_zpow_pos _).trans_le hpl
    have A1 : Ap binary32 1 (g * g) (binary32.round ((FVal.fin g).mul (.fin g))) :=
      Ap.mul hf (Ap.exact hf g) (Ap.exact hf g) (by push_cast; linarith) (by rw [hν]; exact le_trans (by norm_num) hpl)
        (by rw [hE]; refine le_trans (mul_le_mul_of_nonneg_left hpu (by norm_num)) (by norm_num))
    have A2 := Ap.mul hf A1 (Ap.exact hf s) (by rw [hu']; norm_num) (by rw [hν]; exact le_trans (by norm_num) hc)
      (by rw [hE]; refine le_trans (mul_le_mul_of_nonneg_left hq (by norm_num)) (by norm_num))
    obtain ⟨φ, e, hφ⟩ := A2
    set q := g * g * s with hqd
    have hq0 : 0 < q := (two_zpow_pos _).trans_le hc
    have hφ0 := hφ.pos hf
    have hn := hφ.near_one hf (by rw [hu']; norm_num)
    have hlg := hφ.logb hf (by norm_num)
    obtain ⟨l, el, hl⟩ := hl (q * φ)
      (by have := mul_le_mul hc hn.1 (by norm_num) hq0.le
          exact le_trans (by norm_num) this)
      (by have := mul_le_mul hq hn.2 hφ0.le (by norm_num)
          exact this.trans (by norm_num))
    have hL : Real.logb 10 (q * φ) = Real.logb 10 q + Real.logb 10 φ := Real.logb_mul hq0.ne' hφ0.ne'
    have hb : -10 ≤ Real.logb 10 q ∧ Real.logb 10 q ≤ 1 := by
      constructor
      · rw [Real.le_logb_iff_rpow_le (by norm_num) hq0]
        refine le_trans ?_ hc
        rw [show (-10 : ℝ) = ((-10 : ℤ) : ℝ) by norm_num, Real.rpow_intCast]
        norm_num
      · rw [Real.logb_le_iff_le_rpow (by norm_num) hq0, Real.rpow_one]
        linarith
    have hl' := hl
    rw [hL, abs_le] at hl'
    have hlg' := abs_le.1 hlg
    have hk1 : κ ≤ 1 / 2 := hκ.trans (by norm_num)
    have hu1 : binary32.u ≤ 1 / 100 := by rw [hu']; norm_num
    obtain ⟨y, ey, hy⟩ := C111_decibel_accuracy hf (by norm_num [binary32]) (by norm_num [binary32]) (F := -144) (mul_pos hq0 hφ0) el hl
      (L := 13) (by rw [abs_le]; constructor <;> linarith) (by norm_num)
      (by rw [hE]; refine lt_of_le_of_lt (mul_le_mul_of_nonneg_right (show 1 + binary32.u ≤ 2 by linarith) (by norm_num)) (by norm_num))
    refine ⟨y, by rw [e]; exact ey, ?_⟩
    have hlev : level (1 / s) (g * g) = max (-144) (20 * Real.logb 10 q) / 2 := by
      unfold level
      rw [if_neg (not_le.2 hp), show g * g / (1 / s) = q by rw [hqd]; field_simp]
      rw [show max (-144 : ℝ) (20 * Real.logb 10 q) = 2 * max (-72) (10 * Real.logb 10 q) by
        rw [mul_max_of_nonneg _ _ (by norm_num : (0 : ℝ) ≤ 2)]; congr 1 <;> ring]
      ring
    have hmx : |max (-144) (20 * Real.logb 10 (q * φ)) - max (-144) (20 * Real.logb 10 q)| ≤ 80 * binary32.u := by
      rw [max_comm (-144 : ℝ), max_comm (-144 : ℝ)]
      refine (abs_max_sub_max_le_abs _ _ _).trans ?_
      rw [hL, abs_le]
      constructor <;> linarith
    rw [hlev]
    rw [abs_le] at hy hmx ⊢
    constructor <;> linarith
  · -- the floor
    rw [not_le] at hc
    have hfl : ∀ x : ℝ, 0 ≤ x → x ≤ (2 : ℝ) ^ (-29 : ℤ) → amplitudeToDbI binary32 log10 (.fin x) (.fin (-144)) = .fin (-144) := by
      intro x hx0 hx1
      unfold amplitudeToDbI
      rcases hx0.eq_or_lt with rfl | hx
      · rw [if_pos (show (FVal.fin 0).Le (.fin 0) from le_rfl)]
      rw [if_neg (show ¬ (FVal.fin x).Le (.fin 0) from not_le.2 hx)]
      have h20 : ofNat binary32 20 = .fin 20 := by
        have := ofNat_exact hf (n := 20) (by norm_num [binary32]) (by rw [hE]; norm_num)
        exact_mod_cast this
      have h150 : binary32.round (.fin (-150)) = .fin (-150) := by
        refine round_mem ⟨-150, 0, by norm_num [binary32], by norm_num [binary32], by norm_num⟩ (by rw [hE]; norm_num)
      obtain ⟨l, el, hl⟩ := hl ((2 : ℝ) ^ (-29 : ℤ)) (by norm_num) (by norm_num)
      have hb : Real.logb 10 ((2 : ℝ) ^ (-29 : ℤ)) ≤ -8 := by
        rw [Real.logb_le_iff_le_rpow (by norm_num) (by positivity), show (-8 : ℝ) = ((-8 : ℤ) : ℝ) by norm_num, Real.rpow_intCast]
        norm_num
      have hmono := hm.mono (.fin x) (.fin ((2 : ℝ) ^ (-29 : ℤ))) hx hx1
      rw [el] at hmono
      have hk1 : κ ≤ 1 / 2 := hκ.trans (by norm_num)
      have hl8 : l ≤ -7.5 := by
        rw [abs_le] at hl
        linarith
      rw [h20]
      generalize log10 (.fin x) = v at hmono
      cases v with
      | nan => exact absurd hmono (by simp [FVal.Le])
      | inf t =>
        have ht : t = true := hmono
        subst ht
        have e : binary32.round ((FVal.fin 20).mul (.inf true)) = .inf true := by
          simp only [FVal.mul]
          rw [if_neg (by norm_num)]
          simp [Fmt.round]
        rw [e]
        unfold maxI
        rw [if_neg (by simp [FVal.Lt])]
      | fin l' =>
        have hl' : l' ≤ l := hmono
        have hle : (binary32.round (.fin (20 * l'))).Le (binary32.round (.fin (-150))) :=
          FVal.Le.round (by norm_num [binary32]) (show 20 * l' ≤ -150 by linarith)
        rw [h150] at hle
        simp only [FVal.mul]
        generalize binary32.round (.fin (20 * l')) = w at hle
        unfold maxI
        refine if_neg ?_
        cases w with
        | nan => simp [FVal.Lt]
        | inf t =>
          have ht : t = true := hle
          subst ht
          simp [FVal.Lt]
        | fin z =>
          have hz : z ≤ -150 := hle
          simp only [FVal.Lt, not_lt]
          linarith
    obtain ⟨r, er, hr⟩ := round_ok hf (t := g * g) (T := max (g * g) binary32.minNormal) (by rw [abs_of_nonneg hp0]; exact le_max_left _ _)
      (le_max_right _ _) (by
        rw [hE]
        have : max (g * g) binary32.minNormal ≤ 4 * (2 : ℝ) ^ (60 : ℤ) := max_le hpu (by rw [hν]; norm_num)
        refine lt_of_le_of_lt (mul_le_mul (show 1 + binary32.u ≤ 2 by rw [hu']; norm_num) this (le_max_of_le_left hp0) (by norm_num)) (by norm_num))
    have hz : binary32.round (.fin 0) = .fin 0 := round_mem (onGrid_zero _) (by rw [abs_zero]; exact two_zpow_pos _)
    have hr0 : 0 ≤ r := by
      have : (binary32.round (.fin 0)).Le (binary32.round (.fin (g * g))) := FVal.Le.round (by norm_num [binary32]) hp0
      rw [hz, er] at this
      exact this
    have hrs0 : 0 ≤ r * s := mul_nonneg hr0 hs0.le
    have hmaxle : max (g * g) binary32.minNormal ≤ g * g + binary32.minNormal :=
      max_le (by linarith [minNormal_pos binary32]) (by linarith)
    have hrs : r * s ≤ (2 : ℝ) ^ (-30 : ℤ) * (5 / 4) := by
      have a1 : r ≤ g * g + binary32.u * (g * g + binary32.minNormal) := by
        have := (abs_le.1 hr).2
        have := mul_le_mul_of_nonneg_left hmaxle hu.le
        linarith
      have a2 := mul_le_mul_of_nonneg_right a1 hs0.le
      have a3 : binary32.minNormal * s ≤ (2 : ℝ) ^ (-66 : ℤ) := by
        rw [hν, show (-66 : ℤ) = -126 + 60 by norm_num, zpow_add₀ (by norm_num)]
        exact mul_le_mul_of_nonneg_left hs2 (two_zpow_pos _).le
      have a4 : (g * g + binary32.u * (g * g + binary32.minNormal)) * s = g * g * s + binary32.u * (g * g * s + binary32.minNormal * s) := by
        ring
      rw [a4] at a2
      have a5 : binary32.u * (g * g * s + binary32.minNormal * s) ≤ 1 / 2 ^ 24 * ((2 : ℝ) ^ (-30 : ℤ) + (2 : ℝ) ^ (-66 : ℤ)) := by
        rw [hu']
        exact mul_le_mul_of_nonneg_left (by linarith) (by norm_num)
      refine a2.trans ((add_le_add hc.le a5).trans (by norm_num))
    obtain ⟨x, ex, hx⟩ := round_ok hf (t := r * s) (T := (2 : ℝ) ^ (-30 : ℤ) * (5 / 4)) (by rw [abs_of_nonneg hrs0]; exact hrs)
      (by rw [hν]; norm_num) (by rw [hE, hu']; norm_num)
    have hx0 : 0 ≤ x := by
      have : (binary32.round (.fin 0)).Le (binary32.round (.fin (r * s))) := FVal.Le.round (by norm_num [binary32]) hrs0
      rw [hz, ex] at this
      exact this
    have hx1 : x ≤ (2 : ℝ) ^ (-29 : ℤ) := by
      have := (abs_le.1 hx).2
      rw [hu'] at this
      have : x ≤ (2 : ℝ) ^ (-30 : ℤ) * (5 / 4) + 1 / 2 ^ 24 * ((2 : ℝ) ^ (-30 : ℤ) * (5 / 4)) := by linarith
      exact this.trans (by norm_num)
    refine ⟨-144, ?_, ?_⟩
    · simp only [FVal.mul, er, ex]
      exact hfl x hx0 hx1
    · have hlev : level (1 / s) (g * g) = -72 := by
        unfold level
        split
        · rfl
        · rename_i hn
          rw [not_le] at hn
          refine max_eq_left ?_
          rw [show g * g / (1 / s) = g * g * s by field_simp]
          have : Real.logb 10 (g * g * s) ≤ -8 := by
            rw [Real.logb_le_iff_le_rpow (by norm_num) (mul_pos hn hs0), show (-8 : ℝ) = ((-8 : ℤ) : ℝ) by norm_num, Real.rpow_intCast]
            exact hc.le.trans (by norm_num)
          linarith
      rw [hlev]
      norm_num
      linarith

/-- **C123** (decision).  With the gain `g` of a bin, the factor `s = 1 / peak` and a finite weight `w`, the bin is kept if its level
plus the weight exceeds the threshold by more than 0.001 dB, and is not kept if it falls below the threshold by more than that,
underflow of the power included.  A bin with weight `-∞` is never kept. -/
theorem C123_decision {β : Type} {log10 : FVal → FVal} {κ : ℝ} (hl : LogNear log10 κ) (hκ : κ ≤ 1 / 2 ^ 19) (hm : LogOk log10)
    {abs : β → FVal} {bin : β} {g s t : ℝ} (ha : abs bin = .fin g) (hg : 0 ≤ g) (hs1 : (2 : ℝ) ^ (-60 : ℤ) ≤ s)
    (hs2 : s ≤ (2 : ℝ) ^ (60 : ℤ)) (hq : g * g * s ≤ 4) (weights : List FVal) (row col : ℕ) :
    (∀ w, weights.getD col .nan = .fin w → |w| ≤ 2000 →
      (t + 1 / 1000 < level (1 / s) (g * g) + w → isAboveThresholdI log10 abs (.fin t) (.fin s) weights row col bin = true) ∧
      (level (1 / s) (g * g) + w < t - 1 / 1000 → isAboveThresholdI log10 abs (.fin t) (.fin s) weights row col bin = false)) ∧
    (weights.getD col .nan = .inf true → isAboveThresholdI log10 abs (.fin t) (.fin s) weights row col bin = false) := by
  have hf := ieee32
  have hu := u_pos binary32
  have hu' := u32
  obtain ⟨y, ey, hy⟩ := level_ok hl hκ hm hg hs1 hs2 hq
  have hE : (2 : ℝ) ^ binary32.emax = (2 : ℝ) ^ (128 : ℤ) := rfl
  have hs0 : 0 < s := (two_zpow_pos _).trans_le hs1
  have hν := minNormal_le_one hf
  have hlv : -72 ≤ level (1 / s) (g * g) ∧ level (1 / s) (g * g) ≤ 10 := by
    unfold level
    split
    · constructor <;> norm_num
    · rename_i hn
      rw [not_le] at hn
      refine ⟨le_max_left _ _, max_le (by norm_num) ?_⟩
      rw [show g * g / (1 / s) = g * g * s by field_simp]
      have : Real.logb 10 (g * g * s) ≤ 1 := by
        rw [Real.logb_le_iff_le_rpow (by norm_num) (mul_pos hn hs0), Real.rpow_one]
        linarith
      linarith
  generalize level (1 / s) (g * g) = L at *
  have hb : 10 * κ + 170 * binary32.u ≤ 1 / 20000 := by
    rw [hu']
    norm_num at hκ ⊢
    linarith
  rw [abs_le] at hy
  obtain ⟨h, eh, hh⟩ := round_ok hf (t := y * 0.5) (T := 100) (by rw [abs_le]; constructor <;> linarith) (by linarith)
    (by rw [hE, hu']; norm_num)
  have eh' : binary32.round ((FVal.fin y).mul (.fin 0.5)) = .fin h := eh
  rw [hu', abs_le] at hh
  norm_num at hh
  refine ⟨fun w hw hw2 => ?_, fun hw => ?_⟩
  · rw [abs_le] at hw2
    obtain ⟨d, ed, hd⟩ := round_ok hf (t := h + w) (T := 2200) (by rw [abs_le]; constructor <;> linarith) (by linarith)
      (by rw [hE, hu']; norm_num)
    rw [hu', abs_le] at hd
    norm_num at hd
    have e : isAboveThresholdI log10 abs (.fin t) (.fin s) weights row col bin = true ↔ t < d := by
      unfold isAboveThresholdI
      dsimp only
      rw [ha, ey, hw, eh', show binary32.round ((FVal.fin h).add (.fin w)) = .fin d from ed, @decide_eq_true_iff _ (Classical.propDecidable _)]
      exact Iff.rfl
    refine ⟨fun h1 => e.2 (by linarith), fun h1 => ?_⟩
    rw [Bool.eq_false_iff, ne_eq, e]
    linarith
  · have e : isAboveThresholdI log10 abs (.fin t) (.fin s) weights row col bin = true ↔ False := by
      unfold isAboveThresholdI
      dsimp only
      rw [ha, ey, hw, eh', show binary32.round ((FVal.fin h).add (.inf true)) = .inf true from rfl, @decide_eq_true_iff _ (Classical.propDecidable _)]
      simp [FVal.Lt]
    rw [Bool.eq_false_iff, ne_eq, e]
    exact not_false

/-- A bin of gain 1/2 below a peak of 1, weight -10 dB, with a correctly rounded logarithm: kept at a threshold of -20 dB. -/
example : isAboveThresholdI (log10R binary32) (fun x : ℝ => FVal.fin x) (.fin (-20)) (.fin 1) [.fin (-10)] 0 0 (1 / 2) = true := by
  have hl : LogNear (log10R binary32) (13 * binary32.u) := fun x h1 h2 => by
    obtain ⟨l, e, h⟩ := log10Z_near ieee32 (by norm_num [binary32]) x h1 h2
    have hx : x ≠ 0 := ((two_zpow_pos _).trans_le h1).ne'
    exact ⟨l, (if_neg hx).symm.trans e, h⟩
  have h := (C123_decision hl (by rw [u32]; norm_num) (log10R_ok (by norm_num [binary32])) (abs := fun x : ℝ => FVal.fin x) (bin := 1 / 2) (g := 1 / 2) (s := 1) (t := -20) rfl
    (by norm_num) (by norm_num) (by norm_num) (by norm_num) [.fin (-10)] 0 0).1 (-10) rfl (by norm_num)
  refine h.1 ?_
  unfold level
  rw [if_neg (by norm_num)]
  have : (-0.9 : ℝ) ≤ Real.logb 10 (1 / 2 * (1 / 2) / (1 / 1)) := by
    rw [Real.le_logb_iff_rpow_le (by norm_num) (by norm_num)]
    have h1 : ((10 : ℝ) ^ (-0.9 : ℝ)) ≤ (8 : ℝ) ^ (-(2 / 3) : ℝ) := by
      calc (10 : ℝ) ^ (-0.9 : ℝ) ≤ (10 : ℝ) ^ (-(2 / 3) : ℝ) := Real.rpow_le_rpow_of_exponent_le (by norm_num) (by norm_num)
        _ ≤ (8 : ℝ) ^ (-(2 / 3) : ℝ) := Real.rpow_le_rpow_of_nonpos (by norm_num) (by norm_num) (by norm_num)
    have h2 : (8 : ℝ) ^ (-(2 / 3) : ℝ) = 1 / 4 := by
      rw [show (8 : ℝ) = (2 : ℝ) ^ (3 : ℝ) by norm_num, ← Real.rpow_mul (by norm_num),
        show (3 : ℝ) * -(2 / 3) = ((-2 : ℤ) : ℝ) by norm_num, Real.rpow_intCast]
      norm_num
    linarith
  have := le_max_right (-72 : ℝ) (10 * Real.logb 10 (1 / 2 * (1 / 2) / (1 / 1)))
  linarith

end Neo.Props
