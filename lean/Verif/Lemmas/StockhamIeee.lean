import Verif.Lemmas.StockhamErr
import Mathlib.Analysis.Real.Pi.Bounds

/-! # The operations of the Stockham plans on `scalar_complex` and `std::complex` -/

namespace Neo

open Finset Spec

variable {f : Fmt}

/-- A finite complex number. -/
def IC.pt (z : ℂ) : IC f := ⟨.fin z.re, .fin z.im⟩

theorem nearP_pt {z : IC f} {ζ : ℂ} {M γ : ℝ} : NearP IC.pt z ζ M γ ↔ NearC z ζ M γ :=
  ⟨fun ⟨y, e, h1, h2⟩ => ⟨y.re, y.im, e, h1, h2⟩, fun ⟨a, b, e, h1, h2⟩ => ⟨⟨a, b⟩, e, h1, h2⟩⟩

theorem nearP_std {z : SC f} {ζ : ℂ} {M γ : ℝ} :
    NearP (fun y => (IC.pt y : IC f).std) z ζ M γ ↔ ∃ w : IC f, z = w.std ∧ NearC w ζ M γ :=
  ⟨fun ⟨y, e, h1, h2⟩ => ⟨IC.pt y, e, y.re, y.im, rfl, h1, h2⟩,
    fun ⟨_, e, a, b, e', h1, h2⟩ => ⟨⟨a, b⟩, by rw [e, e']; rfl, h1, h2⟩⟩

/-- The values of the real constants are finite and within `δ` of the constants. -/
def StockConst.Accurate (k : StockConst) (δ : ℝ) : Prop :=
  (∃ c, k.sinPiBy3 = .fin c ∧ |c - Real.sin (Real.pi / 3)| ≤ δ) ∧
  (∃ c, k.sqrt5By4 = .fin c ∧ |c - Real.sqrt 5 / 4| ≤ δ) ∧
  (∃ c, k.sinPiBy5 = .fin c ∧ |c - Real.sin (Real.pi / 5)| ≤ δ) ∧
  (∃ c, k.sin2PiBy5 = .fin c ∧ |c - Real.sin (2 * Real.pi / 5)| ≤ δ) ∧
  (∃ c, k.sqrt2By2 = .fin c ∧ |c - Real.sqrt 2 / 2| ≤ δ)

/-- The twiddles of size `n` are finite and within `ε` of the roots of unity. -/
def StockTw (tw : ℕ → ℕ → Direction → IC f) (dir : Direction) (ε : ℝ) (n : ℕ) : Prop :=
  ∀ k < n, ∃ c : ℂ, tw n k dir = IC.pt c ∧ ‖c - twiddle n k dir‖ ≤ ε

theorem nearC_real {c ρ K κ : ℝ} (h1 : |ρ| ≤ K) (h2 : |c - ρ| ≤ (κ - 1) * K) :
    NearC (⟨.fin c, .fin 0⟩ : IC f) (ρ : ℂ) K κ := by
  refine ⟨c, 0, rfl, by rwa [Complex.norm_real, Real.norm_eq_abs], ?_⟩
  have e : (⟨c, 0⟩ : ℂ) - (ρ : ℂ) = ((c - ρ : ℝ) : ℂ) := by
    apply Complex.ext <;> simp
  rwa [e, Complex.norm_real, Real.norm_eq_abs]

/-- Product of both parts with a real number. -/
theorem NearC.scaleReal {z : IC f} {ζ : ℂ} {M γ K κ c ρ : ℝ} (hf : f.Ieee) (hz : NearC z ζ M γ) (h1 : |ρ| ≤ K)
    (h2 : |c - ρ| ≤ (κ - 1) * K) (hγ : 1 ≤ γ) (hκ : 1 ≤ κ) (hn : f.minNormal ≤ M * K)
    (ho : γ * κ * (1 + 5 * f.u) * (M * K) < (2 : ℝ) ^ f.emax) :
    NearC (⟨f.round (z.re.mul (.fin c)), f.round (z.im.mul (.fin c))⟩ : IC f) (ζ * (ρ : ℂ)) (M * K)
      (γ * κ * (1 + 5 * f.u)) := by
  obtain ⟨a, b, rfl, z1, z2⟩ := hz
  have hu := u_pos f
  have hν := minNormal_pos f
  have hM : 0 ≤ M := (norm_nonneg _).trans z1
  have hK : 0 ≤ K := (abs_nonneg _).trans h1
  have nz := NearC.norm_le (z := (0 : IC f)) z1 z2
  have nc : |c| ≤ κ * K := by
    have := abs_add_le (c - ρ) ρ
    rw [sub_add_cancel] at this
    linarith
  have hMK : 0 ≤ M * K := mul_nonneg hM hK
  have hgk : 1 ≤ γ * κ := one_le_mul_of_one_le_of_one_le hγ hκ
  set T := γ * κ * (M * K) with hT
  have hT1 : M * K ≤ T := le_mul_of_one_le_left hMK hgk
  have hT0 : 0 ≤ T := hMK.trans hT1
  have part : ∀ t : ℝ, |t| ≤ ‖(⟨a, b⟩ : ℂ)‖ → |t * c| ≤ T := fun t ht => by
    rw [abs_mul]
    calc |t| * |c| ≤ γ * M * (κ * K) := mul_le_mul (ht.trans nz) nc (abs_nonneg _) (by positivity)
      _ = T := by rw [hT]; ring
  have hTo : (1 + f.u) * T < (2 : ℝ) ^ f.emax := by
    refine lt_of_le_of_lt ?_ ho
    have e : γ * κ * (1 + 5 * f.u) * (M * K) = (1 + 5 * f.u) * T := by rw [hT]; ring
    rw [e]
    exact mul_le_mul_of_nonneg_right (by linarith) hT0
  obtain ⟨r, er, hr⟩ := round_ok hf (part a (Complex.abs_re_le_norm ⟨a, b⟩)) (hn.trans hT1) hTo
  obtain ⟨s, es, hs⟩ := round_ok hf (part b (Complex.abs_im_le_norm ⟨a, b⟩)) (hn.trans hT1) hTo
  refine ⟨r, s, ?_, ?_, ?_⟩
  · show (⟨f.round (.fin (a * c)), f.round (.fin (b * c))⟩ : IC f) = _
    rw [er, es]
  · rw [norm_mul, Complex.norm_real, Real.norm_eq_abs]
    exact mul_le_mul z1 h1 (abs_nonneg _) hM
  · have k1 : ‖(⟨r, s⟩ : ℂ) - ⟨a, b⟩ * (c : ℂ)‖ ≤ 3 / 2 * (f.u * T) := by
      apply norm_le_of_parts_abs
      · simpa using hr
      · simpa using hs
    have k2 : ‖(⟨a, b⟩ : ℂ) * (c : ℂ) - ζ * (ρ : ℂ)‖ ≤ (γ * κ - 1) * (M * K) := by
      have e : (⟨a, b⟩ : ℂ) * (c : ℂ) - ζ * (ρ : ℂ) = (⟨a, b⟩ - ζ) * (c : ℂ) + ζ * ((c - ρ : ℝ) : ℂ) := by
        push_cast; ring
      rw [e]
      refine (norm_add_le _ _).trans ?_
      rw [norm_mul, norm_mul, Complex.norm_real, Complex.norm_real, Real.norm_eq_abs, Real.norm_eq_abs]
      have a1 : ‖(⟨a, b⟩ : ℂ) - ζ‖ * |c| ≤ (γ - 1) * M * (κ * K) :=
        mul_le_mul z2 nc (abs_nonneg _) (mul_nonneg (by linarith) hM)
      have a2 : ‖ζ‖ * |c - ρ| ≤ M * ((κ - 1) * K) := mul_le_mul z1 h2 (abs_nonneg _) hM
      have : (γ * κ - 1) * (M * K) = (γ - 1) * M * (κ * K) + M * ((κ - 1) * K) := by ring
      linarith
    have k3 := norm_sub_le_norm_sub_add_norm_sub (⟨r, s⟩ : ℂ) (⟨a, b⟩ * (c : ℂ)) (ζ * (ρ : ℂ))
    have e : (γ * κ * (1 + 5 * f.u) - 1) * (M * K) = 5 * (f.u * T) + (γ * κ - 1) * (M * K) := by rw [hT]; ring
    have := mul_nonneg hu.le hT0
    rw [e]
    linarith

/-! ## Products with constants -/

theorem scaleBy_mul (hf : f.Ieee) {w : IC f} {ρ : ℂ} {K κ b : ℝ} (hw : NearC w ρ K κ) (hκ : 1 ≤ κ)
    (hb : κ * (1 + 5 * f.u) ≤ b) : ScaleBy f IC.pt b (fun z : IC f => z * w) ρ K := by
  intro z ζ M γ hz hγ hn ho
  have hν := minNormal_pos f
  have h : γ * κ * (1 + 5 * f.u) ≤ γ * b := by
    rw [mul_assoc]
    exact mul_le_mul_of_nonneg_left hb (by linarith)
  exact nearP_pt.2 ((NearC.mul hf (nearP_pt.1 hz) hw hγ hκ hn
    (lt_of_le_of_lt (mul_le_mul_of_nonneg_right h (by linarith)) ho)).mono h)

theorem scaleBy_std_mul (hf : f.Ieee) {w : IC f} {ρ : ℂ} {K κ b : ℝ} (hw : NearC w ρ K κ) (hκ : 1 ≤ κ)
    (hb : κ * (1 + 5 * f.u) ≤ b) :
    ScaleBy f (fun y => (IC.pt y : IC f).std) b (fun z : SC f => z * w.std) ρ K := by
  intro z ζ M γ hz hγ hn ho
  obtain ⟨z, rfl, kz⟩ := nearP_std.1 hz
  have hν := minNormal_pos f
  have h : γ * κ * (1 + 5 * f.u) ≤ γ * b := by
    rw [mul_assoc]
    exact mul_le_mul_of_nonneg_left hb (by linarith)
  have hm := (NearC.mul hf kz hw hγ hκ hn (lt_of_le_of_lt (mul_le_mul_of_nonneg_right h (by linarith)) ho)).mono h
  refine nearP_std.2 ⟨z * w, ?_, hm⟩
  rcases annexMul_cases z w with e | ⟨e, -, -⟩
  · exact e
  · obtain ⟨a, b, e', -, -⟩ := hm
    rw [e'] at e
    exact absurd e (by simp)

theorem scaleBy_std_real (hf : f.Ieee) {c ρ K κ b : ℝ} (h1 : |ρ| ≤ K) (h2 : |c - ρ| ≤ (κ - 1) * K) (hκ : 1 ≤ κ)
    (hb : κ * (1 + 5 * f.u) ≤ b) :
    ScaleBy f (fun y => (IC.pt y : IC f).std) b
      (fun z : SC f => ⟨f.round (z.re.mul (.fin c)), f.round (z.im.mul (.fin c))⟩) (ρ : ℂ) K := by
  intro z ζ M γ hz hγ hn ho
  obtain ⟨z, rfl, kz⟩ := nearP_std.1 hz
  have hν := minNormal_pos f
  have h : γ * κ * (1 + 5 * f.u) ≤ γ * b := by
    rw [mul_assoc]
    exact mul_le_mul_of_nonneg_left hb (by linarith)
  exact nearP_std.2 ⟨_, rfl, (NearC.scaleReal hf kz h1 h2 hγ hκ hn
    (lt_of_le_of_lt (mul_le_mul_of_nonneg_right h (by linarith)) ho)).mono h⟩

/-! ## The constants -/

theorem sin_two_pi_div_five_ge : (9 / 10 : ℝ) ≤ Real.sin (2 * Real.pi / 5) := by
  have e : 2 * Real.pi / 5 = Real.pi / 2 - Real.pi / 10 := by ring
  rw [e, Real.sin_pi_div_two_sub]
  have h1 := Real.one_sub_sq_div_two_le_cos (x := Real.pi / 10)
  have h2 := Real.pi_lt_d2
  have h3 := Real.pi_pos
  nlinarith

theorem sin_ratio_bounds : 0 ≤ Real.sin (Real.pi / 5) ∧ Real.sin (Real.pi / 5) ≤ 13 / 20 := by
  have h2 := Real.pi_lt_d2
  have h3 := Real.pi_pos
  refine ⟨Real.sin_nonneg_of_nonneg_of_le_pi (by positivity) (by linarith), ?_⟩
  have := Real.sin_le (x := Real.pi / 5) (by positivity)
  linarith

/-- The rounded quotient of the two sines. -/
theorem sinRatio_ok (hf : f.Ieee) {k : StockConst} {δ : ℝ} (hk : k.Accurate δ) (hδ : δ ≤ 1 / 10) :
    ∃ c, f.round (k.sinPiBy5.div k.sin2PiBy5) = .fin c ∧
      |c - Real.sin (Real.pi / 5) / Real.sin (2 * Real.pi / 5)| ≤ 3 * δ + f.u ∧
      |Real.sin (Real.pi / 5) / Real.sin (2 * Real.pi / 5)| ≤ 1 := by
  obtain ⟨-, -, ⟨a, ea, ha⟩, ⟨b, eb, hb⟩, -⟩ := hk
  have hB := sin_two_pi_div_five_ge
  obtain ⟨hA0, hA⟩ := sin_ratio_bounds
  have hB1 := Real.sin_le_one (2 * Real.pi / 5)
  generalize Real.sin (Real.pi / 5) = A at *
  generalize Real.sin (2 * Real.pi / 5) = B at *
  have hδ0 : 0 ≤ δ := (abs_nonneg _).trans ha
  rw [abs_le] at ha hb
  have hb' : 4 / 5 ≤ b := by linarith
  have hb0 : 0 < b := by linarith
  have hB0 : 0 < B := by linarith
  have hAB : A / B ≤ 13 / 18 := by
    rw [div_le_iff₀ hB0]; linarith
  have hAB0 : 0 ≤ A / B := div_nonneg hA0 hB0.le
  have hq : |a / b - A / B| ≤ 5 / 2 * δ := by
    have e : a / b - A / B = ((a - A) + A / B * (B - b)) / b := by
      field_simp
      ring
    rw [e, abs_div, abs_of_pos hb0, div_le_iff₀ hb0]
    have h1 : |(a - A) + A / B * (B - b)| ≤ δ + 1 * δ := by
      refine (abs_add_le _ _).trans (add_le_add (abs_le.2 ⟨by linarith, by linarith⟩) ?_)
      rw [abs_mul, abs_of_nonneg hAB0]
      exact mul_le_mul (by linarith) (abs_le.2 ⟨by linarith, by linarith⟩) (abs_nonneg _) (by norm_num)
    nlinarith
  have hq1 : |a / b| ≤ 1 := by
    have := abs_add_le (a / b - A / B) (A / B)
    rw [sub_add_cancel, abs_of_nonneg hAB0] at this
    linarith
  have hν1 : f.minNormal ≤ 1 := by
    unfold Fmt.minNormal
    apply zpow_le_one_of_nonpos₀ (by norm_num)
    obtain ⟨h1, h2, h3⟩ := hf
    omega
  have ho : (1 + f.u) * 1 < (2 : ℝ) ^ f.emax := by
    have hu := u_le hf
    have : (2 : ℝ) ^ (3 : ℤ) ≤ (2 : ℝ) ^ f.emax := zpow_le_zpow_right₀ (by norm_num) hf.2.1
    have e8 : (2 : ℝ) ^ (3 : ℤ) = 8 := by norm_num
    linarith
  obtain ⟨c, ec, hc⟩ := round_ok hf hq1 hν1 ho
  refine ⟨c, ?_, ?_, by rw [abs_of_nonneg hAB0]; linarith⟩
  · rw [ea, eb, ← ec]
    show f.round (FVal.div (.fin a) (.fin b)) = _
    unfold FVal.div
    simp [hb0.ne']
  · have := abs_sub_le c (a / b) (A / B)
    linarith

section instances
variable {tw : ℕ → ℕ → Direction → IC f} {k : StockConst} {δ ε : ℝ} {dir : Direction}

private theorem norm_signedI (dir : Direction) : ‖signedI dir‖ ≤ 1 := by
  have h := congrArg norm (signedI_sq dir)
  rw [norm_pow, norm_neg, norm_one] at h
  nlinarith [norm_nonneg (signedI dir)]

private theorem near_i (dir : Direction) :
    NearC (⟨.fin 0, .fin (if dir = .forward then -1 else 1)⟩ : IC f) (signedI dir) 1 1 :=
  ⟨_, _, rfl, norm_signedI dir, by
    rw [show (⟨0, if dir = .forward then -1 else 1⟩ : ℂ) = signedI dir from rfl, sub_self, norm_zero, sub_self, zero_mul]⟩

private theorem near_tw {n j : ℕ} (h : StockTw tw dir ε n) (hj : j < n) {κ : ℝ} (hκ : 1 + ε ≤ κ) :
    NearC (tw n j dir) (twiddle n j dir) 1 κ := by
  obtain ⟨c, e, hc⟩ := h j hj
  refine ⟨c.re, c.im, e, ?_, ?_⟩
  · rw [twiddle_eq, norm_pow, norm_root, one_pow]
  · rw [mul_one, show (⟨c.re, c.im⟩ : ℂ) = c from rfl]
    linarith

private theorem sqrt5_le : |Real.sqrt 5 / 4| ≤ 3 / 5 := by
  rw [abs_of_nonneg (by positivity)]
  have : Real.sqrt 5 ≤ 12 / 5 := Real.sqrt_le_iff.2 ⟨by norm_num, by norm_num⟩
  linarith

private theorem sqrt2_le : |Real.sqrt 2 / 2| ≤ 3 / 4 := by
  rw [abs_of_nonneg (by positivity)]
  have : Real.sqrt 2 ≤ 3 / 2 := Real.sqrt_le_iff.2 ⟨by norm_num, by norm_num⟩
  linarith

/-- Both complex types have the rules, if there is an operation for real factors. -/
private theorem stockNear_of {C : Type} [Add C] [Sub C] [Mul C] {inj : ℂ → C} {A : StockArith (IR f) C} (hf : f.Ieee)
    (hk : k.Accurate δ) (hδ : δ ≤ 1 / 10) (hε : 0 ≤ ε)
    (hadd : ∀ {z w : C} {ζ ξ : ℂ} {M K γ : ℝ}, NearP inj z ζ M γ → NearP inj w ξ K γ → 1 ≤ γ → f.minNormal ≤ M + K →
      γ * (1 + 2 * f.u) * (M + K) < (2 : ℝ) ^ f.emax → NearP inj (z + w) (ζ + ξ) (M + K) (γ * (1 + 2 * f.u)))
    (hsub : ∀ {z w : C} {ζ ξ : ℂ} {M K γ : ℝ}, NearP inj z ζ M γ → NearP inj w ξ K γ → 1 ≤ γ → f.minNormal ≤ M + K →
      γ * (1 + 2 * f.u) * (M + K) < (2 : ℝ) ^ f.emax → NearP inj (z - w) (ζ - ξ) (M + K) (γ * (1 + 2 * f.u)))
    (hi : ScaleBy f inj ((1 + ε + 3 * δ + f.u) * (1 + 5 * f.u)) (fun z => z * A.i) (signedI dir) 1)
    (hreal : ∀ {c ρ K κ : ℝ}, |ρ| ≤ K → |c - ρ| ≤ (κ - 1) * K → 1 ≤ κ → κ ≤ 1 + ε + 3 * δ + f.u →
      ScaleBy f inj ((1 + ε + 3 * δ + f.u) * (1 + 5 * f.u)) (fun z => A.scale z ⟨.fin c⟩) (ρ : ℂ) K)
    (htw : ∀ n j, StockTw tw dir ε n → j < n →
      ScaleBy f inj ((1 + ε + 3 * δ + f.u) * (1 + 5 * f.u)) (fun z => z * A.tw n j) (twiddle n j dir) 1)
    (e1 : A.half = ⟨.fin (1 / 2)⟩) (e2 : A.quarter = ⟨.fin (1 / 4)⟩) (e3 : A.sinPiBy3 = ⟨k.sinPiBy3⟩)
    (e4 : A.sqrt5By4 = ⟨k.sqrt5By4⟩) (e5 : A.sin2PiBy5 = ⟨k.sin2PiBy5⟩)
    (e6 : A.sinRatio = ⟨f.round (k.sinPiBy5.div k.sin2PiBy5)⟩) (e7 : A.sqrt2By2 = ⟨k.sqrt2By2⟩) :
    StockNear f inj A dir (StockTw tw dir ε) ((1 + ε + 3 * δ + f.u) * (1 + 5 * f.u)) := by
  have hu := u_pos f
  obtain ⟨r, er, hr1, hr2⟩ := sinRatio_ok hf hk hδ
  obtain ⟨⟨a, ea, ha⟩, ⟨b, eb, hb⟩, -, ⟨c, ec, hc⟩, ⟨d, ed, hd⟩⟩ := hk
  have hδ0 : 0 ≤ δ := (abs_nonneg _).trans ha
  refine ⟨one_le_mul_of_one_le_of_one_le (by linarith) (by linarith), hadd, hsub, hi, ?_, ?_, ?_, ?_, ?_, ?_, ?_, htw⟩
  · rw [e1]
    exact hreal (κ := 1) (by rw [show (exactStock dir).half = (0.5 : ℝ) from rfl]; norm_num)
      (by rw [show (exactStock dir).half = (0.5 : ℝ) from rfl]; norm_num) le_rfl (by linarith)
  · rw [e2]
    exact hreal (κ := 1) (by rw [show (exactStock dir).quarter = (0.25 : ℝ) from rfl]; norm_num [abs_of_pos])
      (by rw [show (exactStock dir).quarter = (0.25 : ℝ) from rfl]; norm_num) le_rfl (by linarith)
  · rw [e3, ea]
    exact hreal (κ := 1 + ε + 3 * δ + f.u) (Real.abs_sin_le_one _) (ha.trans (by linarith)) (by linarith) le_rfl
  · rw [e4, eb]
    exact hreal (κ := 1 + ε + 3 * δ + f.u) sqrt5_le (hb.trans (by linarith)) (by linarith) le_rfl
  · rw [e5, ec]
    exact hreal (κ := 1 + ε + 3 * δ + f.u) (Real.abs_sin_le_one _) (hc.trans (by linarith)) (by linarith) le_rfl
  · rw [e6, er]
    exact hreal (κ := 1 + ε + 3 * δ + f.u) hr2 (hr1.trans (by linarith)) (by linarith) le_rfl
  · rw [e7, ed]
    exact hreal (κ := 1 + ε + 3 * δ + f.u) sqrt2_le (hd.trans (by linarith)) (by linarith) le_rfl

theorem ieeeStock_near (hf : f.Ieee) (hk : k.Accurate δ) (hδ : δ ≤ 1 / 10) (hε : 0 ≤ ε) :
    StockNear f IC.pt (ieeeStock f tw k dir) dir (StockTw tw dir ε) ((1 + ε + 3 * δ + f.u) * (1 + 5 * f.u)) := by
  have hu := u_pos f
  have hδ0 : 0 ≤ δ := by obtain ⟨⟨a, -, ha⟩, -⟩ := hk; exact (abs_nonneg _).trans ha
  refine stockNear_of hf hk hδ hε ?_ ?_ ?_ ?_ ?_ rfl rfl rfl rfl rfl rfl rfl
  · intro z w ζ ξ M K γ hz hw hγ hn ho
    exact nearP_pt.2 (NearC.add hf (nearP_pt.1 hz) (nearP_pt.1 hw) hγ hn ho)
  · intro z w ζ ξ M K γ hz hw hγ hn ho
    exact nearP_pt.2 (NearC.sub hf (nearP_pt.1 hz) (nearP_pt.1 hw) hγ hn ho)
  · exact scaleBy_mul hf (near_i dir) le_rfl (mul_le_mul_of_nonneg_right (by linarith) (by linarith))
  · intro c ρ K κ h1 h2 hκ hκ2
    exact scaleBy_mul hf (nearC_real h1 h2) hκ (mul_le_mul_of_nonneg_right hκ2 (by linarith))
  · intro n j hn hj
    exact scaleBy_mul hf (near_tw hn hj (by linarith)) (by linarith) le_rfl

theorem stdStock_near (hf : f.Ieee) (hk : k.Accurate δ) (hδ : δ ≤ 1 / 10) (hε : 0 ≤ ε) :
    StockNear f (fun y => (IC.pt y : IC f).std) (stdStock f tw k dir) dir (StockTw tw dir ε)
      ((1 + ε + 3 * δ + f.u) * (1 + 5 * f.u)) := by
  have hu := u_pos f
  have hδ0 : 0 ≤ δ := by obtain ⟨⟨a, -, ha⟩, -⟩ := hk; exact (abs_nonneg _).trans ha
  refine stockNear_of hf hk hδ hε ?_ ?_ ?_ ?_ ?_ rfl rfl rfl rfl rfl rfl rfl
  · intro z w ζ ξ M K γ hz hw hγ hn ho
    obtain ⟨z, rfl, kz⟩ := nearP_std.1 hz
    obtain ⟨w, rfl, kw⟩ := nearP_std.1 hw
    exact nearP_std.2 ⟨z + w, rfl, NearC.add hf kz kw hγ hn ho⟩
  · intro z w ζ ξ M K γ hz hw hγ hn ho
    obtain ⟨z, rfl, kz⟩ := nearP_std.1 hz
    obtain ⟨w, rfl, kw⟩ := nearP_std.1 hw
    exact nearP_std.2 ⟨z - w, rfl, NearC.sub hf kz kw hγ hn ho⟩
  · exact scaleBy_std_mul hf (near_i dir) le_rfl (mul_le_mul_of_nonneg_right (by linarith) (by linarith))
  · intro c ρ K κ h1 h2 hκ hκ2
    exact scaleBy_std_real hf h1 h2 hκ (mul_le_mul_of_nonneg_right hκ2 (by linarith))
  · intro n j hn hj
    exact scaleBy_std_mul hf (near_tw hn hj (by linarith)) (by linarith) le_rfl

end instances

end Neo
