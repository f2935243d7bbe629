import Verif.Props.UnitsIeee
import Verif.Lemmas.AWeightIeee

/-! # C120: the A-weighting in IEEE 754 arithmetic -/

namespace Neo.Props

open Neo Spec

variable {f : Fmt}

/-- The logarithm is finite and has an absolute error of at most `κ` on the numbers from `2⁻⁴⁰` to `2⁴⁰`. -/
def LogNear (log10 : FVal → FVal) (κ : ℝ) : Prop :=
  ∀ x : ℝ, (2 : ℝ) ^ (-40 : ℤ) ≤ x → x ≤ (2 : ℝ) ^ (40 : ℤ) → ∃ l, log10 (.fin x) = .fin l ∧ |l - Real.logb 10 x| ≤ κ

private theorem log_step (hf : f.Ieee) {log10 : FVal → FVal} {κ : ℝ} (hl : LogNear log10 κ) (hκ : κ ≤ 1 / 2) (h6 : f.u ≤ 1 / 64)
    {k : ℕ} (hk : k ≤ 6) {t : ℝ} {v : FVal} (hv : Ap f k t v) (h1 : (2 : ℝ) ^ (-38 : ℤ) ≤ t) (h2 : t ≤ (2 : ℝ) ^ (39 : ℤ)) :
    ∃ l, log10 v = .fin l ∧ |l - Real.logb 10 t| ≤ κ + 4 * f.u ∧ |l| ≤ 13 := by
  obtain ⟨φ, rfl, hφ⟩ := hv
  have hku : (k : ℝ) * f.u ≤ 1 / 8 := by
    have : (k : ℝ) ≤ 6 := by exact_mod_cast hk
    have hu := u_pos f
    nlinarith
  have hn := hφ.near_one hf hku
  have ht : 0 < t := (two_zpow_pos _).trans_le h1
  have hp := hφ.pos hf
  have e40 : (2 : ℝ) ^ (40 : ℤ) = 2 * (2 : ℝ) ^ (39 : ℤ) := by norm_num
  have e38 : (2 : ℝ) ^ (-38 : ℤ) = 4 * (2 : ℝ) ^ (-40 : ℤ) := by norm_num
  have p1 := two_zpow_pos (-40)
  obtain ⟨l, e, hl⟩ := hl (t * φ) (by nlinarith) (by rw [e40]; nlinarith)
  have hlog : Real.logb 10 (t * φ) = Real.logb 10 t + Real.logb 10 φ := Real.logb_mul ht.ne' hp.ne'
  have hd := hφ.logb hf hk
  have hb : -12 ≤ Real.logb 10 t ∧ Real.logb 10 t ≤ 12 := by
    constructor
    · rw [Real.le_logb_iff_rpow_le (by norm_num) ht]
      refine le_trans ?_ h1
      rw [show (-12 : ℝ) = ((-12 : ℤ) : ℝ) by norm_num, Real.rpow_intCast]
      norm_num
    · rw [Real.logb_le_iff_le_rpow (by norm_num) ht]
      refine h2.trans ?_
      rw [show (12 : ℝ) = ((12 : ℤ) : ℝ) by norm_num, Real.rpow_intCast]
      norm_num
  rw [hlog, abs_le] at hl
  rw [abs_le] at hd
  have hu := u_pos f
  refine ⟨l, e, ?_, ?_⟩
  · rw [abs_le]; constructor <;> linarith
  · rw [abs_le]; constructor <;> linarith

private theorem const_ap (hf : f.Ieee) (h53 : f.p ≤ 53) (h6 : f.u ≤ 1 / 64) (hν : f.minNormal ≤ (2 : ℝ) ^ (-39 : ℤ))
    (hE : (2 : ℝ) ^ (40 : ℤ) ≤ (2 : ℝ) ^ f.emax) {x : ℝ} (h1 : 1 ≤ x) (h2 : x ≤ 2 ^ 14) :
    Ap f 5 (x * x) (aWeightConstI f x) := by
  have hν' : f.minNormal ≤ 1 / 2 := hν.trans (by norm_num)
  have hE' : (2 : ℝ) ^ (30 : ℕ) ≤ (2 : ℝ) ^ f.emax := le_trans (by norm_num) hE
  norm_num at hE' h2
  have hx := ofDouble_ap_large hf h53 h1 (by linarith) (by linarith) (by norm_num; linarith)
  exact Ap.mul hf hx hx (by push_cast; linarith) (by nlinarith) (by nlinarith)

/-- **C120** (accuracy).  In every format of 6 to 53 bits whose range includes `2⁻³⁹` to `2⁴⁰`, and for every frequency from
`2⁻¹⁹` Hz to `2¹⁹` Hz, the computed A-weighting is a number within `11800 u + 120 κ` decibel of the A-weighting of IEC 61672-1,
where `u` is the unit roundoff and `κ` the error of the logarithm. -/
theorem C120_accuracy (hf : f.Ieee) (h6 : 6 ≤ f.p) (h53 : f.p ≤ 53) (hν : f.minNormal ≤ (2 : ℝ) ^ (-39 : ℤ)) (hE : 40 ≤ f.emax)
    {log10 : FVal → FVal} {κ : ℝ} (hl : LogNear log10 κ) (hκ : κ ≤ 1 / 2) {g : ℝ} (h1 : (2 : ℝ) ^ (-19 : ℤ) ≤ g) (h2 : g ≤ (2 : ℝ) ^ (19 : ℤ)) :
    ∃ y, aWeightingI f log10 (.fin g) = .fin y ∧ |y - aWeight g| ≤ 11800 * f.u + 120 * κ := by
  have hu := u_pos f
  have h64 : f.u ≤ 1 / 64 := by
    have : (2 : ℝ) ^ (-(f.p : ℤ)) ≤ (2 : ℝ) ^ (-6 : ℤ) := zpow_le_zpow_right₀ (by norm_num) (by omega)
    have e : (2 : ℝ) ^ (-6 : ℤ) = 1 / 64 := by norm_num
    rw [e] at this
    exact this
  have hE' : (2 : ℝ) ^ (40 : ℤ) ≤ (2 : ℝ) ^ f.emax := zpow_le_zpow_right₀ (by norm_num) hE
  have hg : 0 < g := (two_zpow_pos _).trans_le h1
  have q1 : (2 : ℝ) ^ (-38 : ℤ) ≤ g * g := by
    rw [show (-38 : ℤ) = -19 + -19 by norm_num, zpow_add₀ (by norm_num)]
    exact mul_le_mul h1 h1 (two_zpow_pos _).le hg.le
  have q2 : g * g ≤ (2 : ℝ) ^ (38 : ℤ) := by
    rw [show (38 : ℤ) = 19 + 19 by norm_num, zpow_add₀ (by norm_num)]
    exact mul_le_mul h2 h2 hg.le (two_zpow_pos _).le
  have e38 : (2 : ℝ) ^ (-38 : ℤ) = 2 * (2 : ℝ) ^ (-39 : ℤ) := by norm_num
  have hq : 0 < g * g := mul_pos hg hg
  have e39 : (2 : ℝ) ^ (39 : ℤ) = (2 : ℝ) ^ (38 : ℤ) + 2 ^ (38 : ℕ) := by norm_num
  have e40 : (2 : ℝ) ^ (40 : ℤ) = 2 * (2 : ℝ) ^ (39 : ℤ) := by norm_num
  have p38 := two_zpow_pos 38
  have F1 : Ap f 1 (g * g) (f.round ((FVal.fin g).mul (.fin g))) :=
    Ap.mul hf (Ap.exact hf g) (Ap.exact hf g) (by push_cast; linarith) (by linarith) (by linarith [show (0 : ℝ) < 2 ^ (38 : ℕ) by positivity])
  have F : Ap f 5 (g * g) (f.round ((FVal.fin g).mul (.fin g))) := F1.mono hf (by norm_num)
  have C : ∀ x : ℝ, 1 ≤ x → x ≤ 2 ^ 14 → Ap f 6 (g * g + x * x) (f.round ((f.round ((FVal.fin g).mul (.fin g))).add (aWeightConstI f x))) ∧
      (2 : ℝ) ^ (-38 : ℤ) ≤ g * g + x * x ∧ g * g + x * x ≤ (2 : ℝ) ^ (39 : ℤ) := by
    intro x hx1 hx2
    have a1 : 0 < x * x := by nlinarith
    have a2 : x * x ≤ 2 ^ (38 : ℕ) := by
      have : x * x ≤ 2 ^ 14 * 2 ^ 14 := mul_le_mul hx2 hx2 (by linarith) (by positivity)
      exact this.trans (by norm_num)
    exact ⟨Ap.add hf hq a1 F (const_ap hf h53 h64 hν hE' hx1 hx2) (by push_cast; linarith) (by linarith) (by linarith),
      by linarith, by linarith⟩
  obtain ⟨l0, e0, d0, b0⟩ := log_step hf hl hκ h64 (by norm_num) (const_ap hf h53 h64 hν hE' (x := 12194.217) (by norm_num) (by norm_num))
    (by norm_num) (by norm_num)
  obtain ⟨l1, e1, d1, b1⟩ := log_step hf hl hκ h64 (by norm_num) F q1 (by linarith [show (0 : ℝ) < 2 ^ (38 : ℕ) by positivity])
  obtain ⟨A2, x2, y2⟩ := C 12194.217 (by norm_num) (by norm_num)
  obtain ⟨l2, e2, d2, b2⟩ := log_step hf hl hκ h64 (by norm_num) A2 x2 y2
  obtain ⟨A3, x3, y3⟩ := C 20.598997 (by norm_num) (by norm_num)
  obtain ⟨l3, e3, d3, b3⟩ := log_step hf hl hκ h64 (by norm_num) A3 x3 y3
  obtain ⟨A4, x4, y4⟩ := C 107.65265 (by norm_num) (by norm_num)
  obtain ⟨l4, e4, d4, b4⟩ := log_step hf hl hκ h64 (by norm_num) A4 x4 y4
  obtain ⟨A5, x5, y5⟩ := C 737.86223 (by norm_num) (by norm_num)
  obtain ⟨l5, e5, d5, b5⟩ := log_step hf hl hκ h64 (by norm_num) A5 x5 y5
  obtain ⟨y, ey, hy⟩ := aWeight_sum hf (by omega) (le_trans (by norm_num) hE') b0 b1 b2 b3 b4 b5
  refine ⟨y, ?_, ?_⟩
  · unfold aWeightingI
    dsimp only
    rw [e0, e1, e2, e3, e4, e5]
    exact ey
  · rw [aWeight_logs hg.ne']
    generalize Real.logb 10 (12194.217 * 12194.217) = L0 at *
    generalize Real.logb 10 (g * g) = L1 at *
    generalize Real.logb 10 (g * g + 12194.217 * 12194.217) = L2 at *
    generalize Real.logb 10 (g * g + 20.598997 * 20.598997) = L3 at *
    generalize Real.logb 10 (g * g + 107.65265 * 107.65265) = L4 at *
    generalize Real.logb 10 (g * g + 737.86223 * 737.86223) = L5 at *
    rw [abs_le] at hy d0 d1 d2 d3 d4 d5 ⊢
    constructor <;> linarith

private theorem u64 (h6 : 6 ≤ f.p) : f.u ≤ 1 / 64 := by
  have : (2 : ℝ) ^ (-(f.p : ℤ)) ≤ (2 : ℝ) ^ (-6 : ℤ) := zpow_le_zpow_right₀ (by norm_num) (by omega)
  have e : (2 : ℝ) ^ (-6 : ℤ) = 1 / 64 := by norm_num
  rw [e] at this
  exact this

/-- **C120** (large frequencies).  If the square of the frequency overflows, the result is NaN: infinity is subtracted from
infinity.  The documented precondition is only that the frequency is positive. -/
theorem C120_large (hf : f.Ieee) (h6 : 6 ≤ f.p) (h53 : f.p ≤ 53) (hν : f.minNormal ≤ (2 : ℝ) ^ (-39 : ℤ)) (hE : 40 ≤ f.emax)
    {log10 : FVal → FVal} {κ : ℝ} (hl : LogNear log10 κ) (hκ : κ ≤ 1 / 2) (hi : log10 (.inf false) = .inf false)
    {g : ℝ} (hg : (2 : ℝ) ^ f.emax ≤ g * g) : aWeightingI f log10 (.fin g) = .nan := by
  have hE' : (2 : ℝ) ^ (40 : ℤ) ≤ (2 : ℝ) ^ f.emax := zpow_le_zpow_right₀ (by norm_num) hE
  have A := const_ap hf h53 (u64 h6) hν hE' (x := 12194.217) (by norm_num) (by norm_num)
  obtain ⟨l0, h0, -, -⟩ := log_step hf hl hκ (u64 h6) (by norm_num) A (by norm_num) (by norm_num)
  obtain ⟨φ, hc, -⟩ := A
  generalize (12194.217 : ℝ) * 12194.217 * φ = c0 at hc
  have hp : 1 ≤ f.p := by omega
  have e : f.round ((FVal.fin g).mul (.fin g)) = .inf false := by
    refine round_fin_of_le (grid_le_rndInf hp ?_ hg)
    exact two_zpow_onGrid hp (by have := hf.2.1; have := hf.2.2; omega)
  have e2 : f.round ((FVal.fin 2).mul (.inf false)) = .inf false := by
    simp only [FVal.mul]
    rw [if_neg (by norm_num)]
    simp [Fmt.round]
  have e3 : f.round ((FVal.inf false).add (.fin c0)) = .inf false := rfl
  unfold aWeightingI
  dsimp only
  rw [e, hi, h0, e2, hc, e3, hi]
  have e4 : f.round ((f.round ((FVal.fin l0).add (.inf false))).sub (.inf false)) = .nan := rfl
  rw [e4]
  have n1 : ∀ v : FVal, f.round (FVal.nan.sub v) = .nan := fun v => by cases v <;> rfl
  rw [n1, n1, n1]
  have n2 : ∀ v : FVal, f.round (v.mul .nan) = .nan := fun v => by cases v <;> rfl
  rw [n2]
  rfl

/-- **C120** (small frequencies).  If the square of the frequency underflows to 0, the result is `-∞`: for frequency 0, and also
for positive frequencies, whose A-weighting is a number. -/
theorem C120_small (hf : f.Ieee) (h6 : 6 ≤ f.p) (h53 : f.p ≤ 53) (hν : f.minNormal ≤ (2 : ℝ) ^ (-39 : ℤ)) (hE : 40 ≤ f.emax)
    {log10 : FVal → FVal} {κ : ℝ} (hl : LogNear log10 κ) (hκ : κ ≤ 1 / 2) (hz : log10 (.fin 0) = .inf true)
    {g : ℝ} (hg : |g * g| < (2 : ℝ) ^ f.emin / 2) : aWeightingI f log10 (.fin g) = .inf true := by
  have hE' : (2 : ℝ) ^ (40 : ℤ) ≤ (2 : ℝ) ^ f.emax := zpow_le_zpow_right₀ (by norm_num) hE
  have h64 := u64 h6
  have e : f.round ((FVal.fin g).mul (.fin g)) = .fin 0 := by
    show f.round (.fin (g * g)) = _
    have r : f.rndInf (g * g) = 0 := by
      have := rndInf_of_near (f := f) (x := g * g) (n := 0) (by
        rw [Int.cast_zero, zero_mul, sub_zero]
        refine hg.trans_le ?_
        have : (2 : ℝ) ^ f.emin ≤ (2 : ℝ) ^ f.ulpExp (g * g) := zpow_le_zpow_right₀ (by norm_num) (le_max_left _ _)
        linarith)
      rw [this, Int.cast_zero, zero_mul]
    rw [round_fin_of_lt (by rw [r, abs_zero]; exact two_zpow_pos _), r]
  have C : ∀ x : ℝ, 1 ≤ x → x ≤ 2 ^ 14 → ∃ l, log10 (f.round ((FVal.fin 0).add (aWeightConstI f x))) = .fin l ∧ |l| ≤ 13 := by
    intro x hx1 hx2
    obtain ⟨φ, hc, hφ⟩ := const_ap hf h53 h64 hν hE' hx1 hx2
    have a1 : 1 ≤ x * x := by nlinarith
    have a2 : x * x ≤ 2 ^ 14 * 2 ^ 14 := mul_le_mul hx2 hx2 (by linarith) (by positivity)
    have A := Ap.round hf hφ (by push_cast; linarith) (t := x * x)
      (by have : f.minNormal ≤ 1 / 2 := hν.trans (by norm_num)
          linarith)
      (by refine le_trans ?_ hE'
          norm_num at a2 ⊢
          linarith)
    obtain ⟨l, e, -, b⟩ := log_step hf hl hκ h64 (by norm_num) A (le_trans (by norm_num) a1) (a2.trans (by norm_num))
    refine ⟨l, ?_, b⟩
    rw [hc]
    simp only [FVal.add, zero_add]
    exact e
  obtain ⟨l0, h0, -, -⟩ := log_step hf hl hκ h64 (by norm_num) (const_ap hf h53 h64 hν hE' (x := 12194.217) (by norm_num) (by norm_num))
    (by norm_num) (by norm_num)
  obtain ⟨l2, h2, -⟩ := C 12194.217 (by norm_num) (by norm_num)
  obtain ⟨l3, h3, -⟩ := C 20.598997 (by norm_num) (by norm_num)
  obtain ⟨l4, h4, b4⟩ := C 107.65265 (by norm_num) (by norm_num)
  obtain ⟨l5, h5, b5⟩ := C 737.86223 (by norm_num) (by norm_num)
  have hν1 : f.minNormal ≤ 1 := minNormal_le_one hf
  have E : (4096 : ℝ) ≤ (2 : ℝ) ^ f.emax := le_trans (by norm_num) hE'
  have H : ∀ l : ℝ, |l| ≤ 13 → ∃ r, f.round ((FVal.fin 0.5).mul (.fin l)) = .fin r := by
    intro l b
    obtain ⟨r, hr, -⟩ := round_ok hf (t := 0.5 * l) (T := 13)
      (by rw [abs_mul, abs_of_pos (by norm_num)]; linarith [abs_nonneg l]) (by linarith) (by linarith)
    exact ⟨r, hr⟩
  obtain ⟨r4, k4⟩ := H l4 b4
  obtain ⟨r5, k5⟩ := H l5 b5
  have e2 : f.round ((FVal.fin 2).mul (.inf true)) = .inf true := by
    simp only [FVal.mul]
    rw [if_neg (by norm_num)]
    simp [Fmt.round]
  have h20 : ∃ c, ofNat f 20 = .fin c ∧ 0 < c := by
    obtain ⟨φ, e, hφ, -⟩ := ofNat_fac hf (n := 20) (by norm_num) (by push_cast; linarith)
    exact ⟨_, e, mul_pos (by norm_num) (hφ.pos hf)⟩
  obtain ⟨c, hc, hc0⟩ := h20
  unfold aWeightingI
  dsimp only
  rw [e, hz, h0, h2, h3, h4, h5, k4, k5, e2, hc]
  have n1 : ∀ x : ℝ, f.round ((FVal.inf true).sub (.fin x)) = .inf true := fun x => rfl
  rw [show f.round ((FVal.fin l0).add (.inf true)) = .inf true from rfl, n1, n1, n1, n1]
  have e5 : f.round ((FVal.fin c).mul (.inf true)) = .inf true := by
    simp only [FVal.mul]
    rw [if_neg hc0.ne', decide_eq_false (not_lt.2 hc0.le)]
    rfl
  rw [e5]
  rfl

private theorem ieee32 : binary32.Ieee := by unfold Fmt.Ieee binary32; norm_num

private theorem u32 : binary32.u = 1 / 2 ^ 24 := by
  show (2 : ℝ) ^ (-((24 : ℕ) : ℤ)) = _
  rw [zpow_neg, zpow_natCast, one_div]

private theorem min32 : binary32.minNormal ≤ (2 : ℝ) ^ (-39 : ℤ) := by
  show (2 : ℝ) ^ ((-149 : ℤ) + ((24 : ℕ) : ℤ) - 1) ≤ _
  exact zpow_le_zpow_right₀ (by norm_num) (by norm_num)

/-- **C120** (single precision).  With a logarithm of an error of at most `2⁻¹⁹`, the computed weighting of every
frequency from `2⁻¹⁹` Hz to `2¹⁹` Hz is within a thousandth of a decibel; from `2⁶⁴` Hz on it is NaN and below `2⁻⁷⁵` Hz it is
`-∞`. -/
theorem C120_float {log10 : FVal → FVal} {κ : ℝ} (hl : LogNear log10 κ) (hκ : κ ≤ 1 / 2 ^ 19)
    (hi : log10 (.inf false) = .inf false) (hz : log10 (.fin 0) = .inf true) :
    (∀ g : ℝ, (2 : ℝ) ^ (-19 : ℤ) ≤ g → g ≤ (2 : ℝ) ^ (19 : ℤ) →
      ∃ y, aWeightingI binary32 log10 (.fin g) = .fin y ∧ |y - aWeight g| < 1 / 1000) ∧
    (∀ g : ℝ, (2 : ℝ) ^ (64 : ℕ) ≤ g → aWeightingI binary32 log10 (.fin g) = .nan) ∧
    (∀ g : ℝ, 0 ≤ g → g < (2 : ℝ) ^ (-75 : ℤ) → aWeightingI binary32 log10 (.fin g) = .inf true) := by
  have h2 : κ ≤ 1 / 2 := hκ.trans (by norm_num)
  refine ⟨fun g h1 h3 => ?_, fun g h1 => ?_, fun g h0 h1 => ?_⟩
  · obtain ⟨y, e, h⟩ := C120_accuracy ieee32 (by norm_num [binary32]) (by norm_num [binary32]) min32 (by norm_num [binary32]) hl h2 h1 h3
    refine ⟨y, e, h.trans_lt ?_⟩
    rw [u32]
    norm_num at hκ ⊢
    linarith
  · refine C120_large ieee32 (by norm_num [binary32]) (by norm_num [binary32]) min32 (by norm_num [binary32]) hl h2 hi ?_
    show (2 : ℝ) ^ (128 : ℤ) ≤ g * g
    rw [show (2 : ℝ) ^ (128 : ℤ) = 2 ^ (64 : ℕ) * 2 ^ (64 : ℕ) by norm_num]
    exact mul_le_mul h1 h1 (by positivity) (le_trans (by positivity) h1)
  · refine C120_small ieee32 (by norm_num [binary32]) (by norm_num [binary32]) min32 (by norm_num [binary32]) hl h2 hz ?_
    show |g * g| < (2 : ℝ) ^ (-149 : ℤ) / 2
    rw [abs_of_nonneg (mul_nonneg h0 h0), show (2 : ℝ) ^ (-149 : ℤ) / 2 = (2 : ℝ) ^ (-75 : ℤ) * (2 : ℝ) ^ (-75 : ℤ) by norm_num]
    exact mul_lt_mul'' h1 h1 h0 h0

/-! ## The hypotheses are met -/

/-- The correctly rounded logarithm, `-∞` at 0. -/
noncomputable def log10Z (f : Fmt) : FVal → FVal
  | .fin x => if x = 0 then .inf true else log10R f (.fin x)
  | v => log10R f v

theorem log10Z_near (hf : f.Ieee) (hE : 40 ≤ f.emax) : LogNear (log10Z f) (13 * f.u) := by
  intro x h1 h2
  have hx : 0 < x := (two_zpow_pos _).trans_le h1
  have hE' : (2 : ℝ) ^ (40 : ℤ) ≤ (2 : ℝ) ^ f.emax := zpow_le_zpow_right₀ (by norm_num) hE
  have hb : |Real.logb 10 x| ≤ 13 := by
    rw [abs_le]
    constructor
    · rw [Real.le_logb_iff_rpow_le (by norm_num) hx]
      refine le_trans ?_ h1
      rw [show (-13 : ℝ) = ((-13 : ℤ) : ℝ) by norm_num, Real.rpow_intCast]
      norm_num
    · rw [Real.logb_le_iff_le_rpow (by norm_num) hx]
      refine h2.trans ?_
      rw [show (13 : ℝ) = ((13 : ℤ) : ℝ) by norm_num, Real.rpow_intCast]
      norm_num
  have hν := minNormal_le_one hf
  have h8 := u_le hf
  obtain ⟨r, e, h⟩ := round_ok hf hb (by linarith) (by norm_num at hE'; linarith)
  refine ⟨r, ?_, by rw [mul_comm] at h; exact h⟩
  show (if x = 0 then FVal.inf true else log10R f (.fin x)) = _
  rw [if_neg hx.ne']
  show (if 0 < x then f.round (.fin (Real.logb 10 x)) else .nan) = _
  rw [if_pos hx, e]

private theorem near32 : LogNear (log10Z binary32) (13 * binary32.u) := log10Z_near ieee32 (by norm_num [binary32])

/-- 1 kHz in single precision with a correctly rounded logarithm. -/
example : ∃ y, aWeightingI binary32 (log10Z binary32) (.fin 1000) = .fin y ∧ |y - aWeight 1000| < 1 / 1000 := by
  refine (C120_float near32 ?_ rfl ?_).1 1000 (by norm_num) (by norm_num)
  · rw [u32]; norm_num
  · exact if_pos rfl

/-- A positive frequency with NaN as its weighting, and one with `-∞`. -/
example : aWeightingI binary32 (log10Z binary32) (.fin (2 ^ 64)) = .nan ∧
    aWeightingI binary32 (log10Z binary32) (.fin (2 ^ (-80 : ℤ))) = .inf true := by
  obtain ⟨-, h1, h2⟩ := C120_float near32 (by rw [u32]; norm_num) rfl (if_pos rfl)
  exact ⟨h1 _ le_rfl, h2 _ (by positivity) (zpow_lt_zpow_right₀ (by norm_num) (by norm_num))⟩

end Neo.Props
