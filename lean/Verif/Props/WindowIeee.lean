import Verif.Lemmas.UnitsIeee
import Verif.Lemmas.Ieee
import Mathlib.Analysis.Real.Pi.Bounds
import Mathlib.Analysis.SpecialFunctions.Trigonometric.Bounds

/-! # C111: windows in IEEE 754 arithmetic -/

namespace Neo.Props

open Neo Spec

variable {f : Fmt}

/-- What is assumed of `std::cos`: for finite arguments the result is a value of the format in `[-1, 1]` within `κ` of the
cosine; the cosine of 0 is 1; the cosine of NaN is NaN. -/
structure CosOk (f : Fmt) (cos : FVal → FVal) (κ : ℝ) : Prop where
  fin : ∀ x, f.Mem (.fin x) → ∃ c, cos (.fin x) = .fin c ∧ f.OnGrid c ∧ |c| ≤ 1 ∧ |c - Real.cos x| ≤ κ
  zero : cos (.fin 0) = .fin 1
  nan : cos .nan = .nan

/-- The window functions of the literature. -/
noncomputable def windowValue (w : Window) (i n : ℕ) : ℝ :=
  match w with
  | .rectangular => 1
  | .hann => (1 - Real.cos (2 * Real.pi * i / (n - 1))) / 2
  | .hamming => 54 / 100 - 46 / 100 * Real.cos (2 * Real.pi * i / (n - 1))

/-- The formats in which the constants of the Hamming window add up to less than one plus the unit roundoff: narrower than
`double` by at least three bits, or `double`. -/
def WindowFmt (f : Fmt) : Prop := f.Ieee ∧ 6 ≤ f.p ∧ (f.p ≤ 50 ∨ f = binary64)

example : WindowFmt binary16 ∧ WindowFmt binary32 ∧ WindowFmt binary64 := by
  refine ⟨⟨?_, ?_, ?_⟩, ⟨?_, ?_, ?_⟩, ⟨?_, ?_, ?_⟩⟩ <;> first
    | exact Or.inr rfl
    | (unfold Fmt.Ieee binary16; norm_num)
    | (unfold Fmt.Ieee binary32; norm_num)
    | (unfold Fmt.Ieee binary64; norm_num)
    | (left; unfold binary16; norm_num)
    | (left; unfold binary32; norm_num)
    | (unfold binary16; norm_num)
    | (unfold binary32; norm_num)
    | (unfold binary64; norm_num)

private theorem WindowFmt.p53 (h : WindowFmt f) : f.p ≤ 53 := by
  obtain ⟨-, -, h | rfl⟩ := h
  · omega
  · exact le_rfl

private theorem WindowFmt.u64 (h : WindowFmt f) : f.u ≤ 1 / 64 := by
  have : (2 : ℝ) ^ (-(f.p : ℤ)) ≤ (2 : ℝ) ^ (-6 : ℤ) := zpow_le_zpow_right₀ (by norm_num) (by have := h.2.1; omega)
  have e : (2 : ℝ) ^ (-6 : ℤ) = 1 / 64 := by norm_num
  rw [e] at this
  exact this

private theorem arg_ok (hw : WindowFmt f) {i n : ℕ} (hn : 2 ≤ n) (hi : i < n) (ho : 16 * (n : ℝ) ≤ (2 : ℝ) ^ f.emax) :
    ∃ a, windowArgI f i n = .fin a ∧ f.Mem (.fin a) ∧ (i = 0 → a = 0) ∧
      |a - 2 * Real.pi * i / (n - 1)| ≤ 51 * f.u := by
  have hf := hw.1
  have hp : 1 ≤ f.p := by have := hf.1; omega
  have hu := hw.u64
  have hu0 := u_pos f
  have hν := minNormal_pos f
  have hν1 := minNormal_le_one hf
  have hmn := minNormal_mul_emax hf
  have hπ1 := Real.pi_gt_three
  have hπ2 := Real.pi_lt_d2
  have hn2 : (2 : ℝ) ≤ n := by exact_mod_cast hn
  obtain ⟨m, rfl⟩ : ∃ m, n = m + 1 := ⟨n - 1, by omega⟩
  have hm : 1 ≤ m := by omega
  have hm' : (1 : ℝ) ≤ m := by exact_mod_cast hm
  have hm0 : (0 : ℝ) < m := by linarith
  push_cast at ho hn2 ⊢
  rw [add_sub_cancel_right]
  have hk : ∀ k : ℕ, k ≤ 6 → (k : ℝ) * f.u ≤ 1 / 8 := fun k hk => by
    have : (k : ℝ) ≤ 6 := by exact_mod_cast hk
    nlinarith
  have hP := ofDouble_ap hf hw.p53 (x := Real.pi) (by linarith) (by linarith) (by linarith) (by linarith)
  have hT := Ap.mul hf hP (Ap.exact hf 2) (hk _ (by norm_num)) (by linarith) (by linarith)
  have hM := ofNat_ap hf hm (by linarith)
  have h0 : f.round (.fin 0) = .fin 0 := round_mem (onGrid_zero f) (by rw [abs_zero]; exact two_zpow_pos _)
  unfold windowArgI
  rw [show m + 1 - 1 = m by omega]
  rcases Nat.eq_zero_or_pos i with rfl | hi0
  · obtain ⟨a, ea, -⟩ := hT
    obtain ⟨b, eb, hb⟩ := hM
    refine ⟨0, ?_, ⟨onGrid_zero f, by rw [abs_zero]; exact two_zpow_pos _⟩, fun _ => rfl, ?_⟩
    · rw [ofNat_zero]
      have hd : ∀ y : ℝ, y ≠ 0 → (FVal.fin 0).div (.fin y) = .fin 0 := fun y hy => by simp [FVal.div, hy]
      dsimp only
      rw [ea, eb, show (FVal.fin (Real.pi * 2 * a)).mul (.fin 0) = .fin (Real.pi * 2 * a * 0) from rfl, mul_zero, h0,
        hd _ (mul_pos hm0 (hb.pos hf)).ne', h0]
    · simp
      positivity
  have hi' : (1 : ℝ) ≤ i := by exact_mod_cast hi0
  have him : (i : ℝ) ≤ m := by exact_mod_cast (by omega : i ≤ m)
  have hI := ofNat_ap hf hi0 (by linarith)
  have b1 : 2 * f.minNormal ≤ Real.pi * 2 * i := by nlinarith
  have b2 : 2 * (Real.pi * 2 * i) ≤ (2 : ℝ) ^ f.emax := by nlinarith
  have hQ := Ap.mul hf hT hI (hk _ (by norm_num)) b1 b2
  have b3 : 2 * f.minNormal ≤ Real.pi * 2 * i / m := by
    rw [le_div_iff₀ hm0]
    have : f.minNormal * (16 * m) ≤ f.minNormal * (2 : ℝ) ^ f.emax := mul_le_mul_of_nonneg_left (by linarith) hν.le
    nlinarith
  have b4 : 2 * (Real.pi * 2 * i / m) ≤ (2 : ℝ) ^ f.emax := by
    have : Real.pi * 2 * i / m ≤ Real.pi * 2 := by
      rw [div_le_iff₀ hm0]
      exact mul_le_mul_of_nonneg_left him (by linarith)
    linarith
  have hA := Ap.div hf hQ hM hm0 (hk _ (by norm_num)) b3 b4
  have h7 : ((2 + 0 + 1 + 1 + 1 + 1 + 1 : ℕ) : ℝ) = 7 := by norm_num
  obtain ⟨a, ea, ha⟩ := hA.err hf (e := 8 * f.u) (by positivity) (by rw [h7]; linarith) (by rw [h7]; nlinarith)
  refine ⟨a, ea, round_eq_fin hp ea, fun h => by omega, ?_⟩
  rw [show 2 * Real.pi * i / m = Real.pi * 2 * i / m by ring]
  refine ha.trans ?_
  have : Real.pi * 2 * i / m ≤ Real.pi * 2 := by
    rw [div_le_iff₀ hm0]
    exact mul_le_mul_of_nonneg_left him (by linarith)
  nlinarith

/-- Absolute error of rounding below `2 ^ (k + p)`. -/
private theorem rndInf_err_of (hf : f.Ieee) {x : ℝ} {k : ℤ} (hk : f.emin ≤ k) (h : |x| < (2 : ℝ) ^ (k + f.p)) (h0 : x ≠ 0) :
    |f.rndInf x - x| ≤ (2 : ℝ) ^ k / 2 := by
  have := zpow_le_zpow_right₀ (a := (2 : ℝ)) (by norm_num) (ulpExp_le hk h h0)
  have := rndInf_err f x
  linarith

private theorem ofDouble_small (hf : f.Ieee) {x : ℝ} (h0 : 0 < x) (h1 : x ≤ 6 / 10) :
    ofDouble f x = .fin (f.rndInf (binary64.rndInf x)) ∧ 0 ≤ binary64.rndInf x ∧ |binary64.rndInf x - x| ≤ 1 / 2 ^ 54 := by
  have e := rndInf_err_of binary64_ieee (x := x) (k := -53) (by norm_num [binary64]) (by
    rw [abs_of_pos h0]
    norm_num [binary64]
    linarith) h0.ne'
  have e' : |binary64.rndInf x - x| ≤ 1 / 2 ^ 54 := by
    refine e.trans (le_of_eq ?_)
    norm_num
  have hb0 : 0 ≤ binary64.rndInf x := grid_le_rndInf (by norm_num [binary64]) (onGrid_zero _) h0.le
  refine ⟨?_, hb0, e'⟩
  have hlt : binary64.rndInf x < 1 := by
    rw [abs_le] at e'
    have : (1 : ℝ) / 2 ^ 54 ≤ 1 / 10 := by norm_num
    linarith [e'.2]
  unfold ofDouble
  rw [round_fin_of_lt (f := binary64) (by
    rw [abs_of_nonneg hb0]
    have : (2 : ℝ) ^ (0 : ℤ) ≤ (2 : ℝ) ^ binary64.emax := zpow_le_zpow_right₀ (by norm_num) (by norm_num [binary64])
    rw [zpow_zero] at this
    linarith)]
  refine round_fin_of_lt ?_
  have hp : 1 ≤ f.p := by have := hf.1; omega
  rw [abs_of_nonneg (grid_le_rndInf hp (onGrid_zero f) hb0)]
  have := rndInf_le_grid hp (one_onGrid hf) hlt.le
  have := eight_le_emax hf
  linarith

private theorem constants (hw : WindowFmt f) (h4 : 4 ≤ f.emax) : ∃ a b : ℝ, ofDouble f 0.54 = .fin a ∧ ofDouble f 0.46 = .fin b ∧ f.OnGrid b ∧
    0 ≤ b ∧ b ≤ a ∧ a + b < 1 + f.u ∧ |a - 54 / 100| ≤ f.u ∧ |b - 46 / 100| ≤ f.u := by
  have hf := hw.1
  have hp : 1 ≤ f.p := by have := hf.1; omega
  have hu0 := u_pos f
  have hu := hw.u64
  obtain ⟨e1, p1, h1⟩ := ofDouble_small hf (x := 0.54) (by norm_num) (by norm_num)
  obtain ⟨e2, p2, h2⟩ := ofDouble_small hf (x := 0.46) (by norm_num) (by norm_num)
  have hle : binary64.rndInf 0.46 ≤ binary64.rndInf 0.54 := rndInf_mono _ (by norm_num [binary64]) (by norm_num)
  have ht : (1 : ℝ) / 2 ^ 54 ≤ 1 / 100 := by norm_num
  refine ⟨_, _, e1, e2, (rndInf_nearest f hp _).1, grid_le_rndInf hp (onGrid_zero f) p2, rndInf_mono f hp hle, ?_⟩
  rw [abs_le] at h1 h2
  have ge : (2 : ℝ) ^ (-(f.p : ℤ)) = f.u := rfl
  have r1 : |f.rndInf (binary64.rndInf 0.54) - binary64.rndInf 0.54| ≤ f.u / 2 := by
    have := rndInf_err_of hf (x := binary64.rndInf 0.54) (k := -(f.p : ℤ)) (by have := hf.2.2; have := hf.2.1; omega) (by
      rw [neg_add_cancel, zpow_zero, abs_of_nonneg p1]
      norm_num at h1 ⊢
      linarith [h1.2]) (by norm_num at h1 ⊢; intro h0; rw [h0] at h1; linarith [h1.1])
    rwa [ge] at this
  have r2 : |f.rndInf (binary64.rndInf 0.46) - binary64.rndInf 0.46| ≤ f.u / 4 := by
    have := rndInf_err_of hf (x := binary64.rndInf 0.46) (k := -(f.p : ℤ) - 1) (by have := hf.2.2; have := hf.2.1; omega) (by
      rw [show -(f.p : ℤ) - 1 + f.p = -1 by ring, abs_of_nonneg p2]
      norm_num at h2 ⊢
      linarith [h2.2]) (by norm_num at h2 ⊢; intro h0; rw [h0] at h2; linarith [h2.1])
    rw [zpow_sub_one₀ (by norm_num), ge] at this
    linarith
  rw [abs_le] at r1 r2
  have hb : (1 : ℝ) / 2 ^ 53 ≤ f.u := by rw [← u_binary64]; exact u_coarser hw.p53
  have hb' : (1 : ℝ) / 2 ^ 54 = 1 / 2 ^ 53 / 2 := by norm_num
  have c1 : (0.54 : ℝ) = 54 / 100 := by norm_num
  have c2 : (0.46 : ℝ) = 46 / 100 := by norm_num
  rw [c1] at h1 r1 ⊢
  rw [c2] at h2 r2 ⊢
  rw [hb'] at h1 h2
  refine ⟨?_, abs_le.2 ⟨by linarith [h1.1, r1.1], by linarith [h1.2, r1.2]⟩,
    abs_le.2 ⟨by linarith [h2.1, r2.1], by linarith [h2.2, r2.2]⟩⟩
  obtain ⟨-, -, h50 | rfl⟩ := hw
  · have : (8 : ℝ) * (1 / 2 ^ 53) ≤ f.u := by
      have : (2 : ℝ) ^ (-50 : ℤ) ≤ (2 : ℝ) ^ (-(f.p : ℤ)) := zpow_le_zpow_right₀ (by norm_num) (by omega)
      rw [ge] at this
      refine le_trans (le_of_eq ?_) this
      norm_num
    linarith [h1.2, h2.2, r1.2, r2.2]
  · -- the second rounding is exact
    have hp64 : 1 ≤ binary64.p := by norm_num [binary64]
    rw [rndInf_exact (rndInf_nearest binary64 hp64 _).1, rndInf_exact (rndInf_nearest binary64 hp64 _).1]
    have h3 := rndInf_err_of binary64_ieee (x := 46 / 100) (k := -54) (by norm_num [binary64]) (by
      rw [abs_of_pos (by norm_num)]
      norm_num [binary64]) (by norm_num)
    rw [abs_le] at h3
    have e3 : (2 : ℝ) ^ (-54 : ℤ) / 2 = 1 / 2 ^ 53 / 4 := by norm_num
    rw [e3] at h3
    have : (0 : ℝ) < 1 / 2 ^ 53 := by positivity
    linarith [h1.2, h3.2]

private theorem round_unit {t : ℝ} (hf : f.Ieee) (h0 : 0 ≤ t) (h1 : t < 1 + f.u) :
    f.round (.fin t) = .fin (f.rndInf t) ∧ 0 ≤ f.rndInf t ∧ f.rndInf t ≤ 1 := by
  have hp : 1 ≤ f.p := by have := hf.1; omega
  have a := grid_le_rndInf hp (onGrid_zero f) h0
  have b := rndInf_le_one hf h1
  have := eight_le_emax hf
  exact ⟨round_fin_of_lt (by rw [abs_of_nonneg a]; linarith), a, b⟩

/-- One value of a window. -/
private theorem window_ok (hw : WindowFmt f) {cos : FVal → FVal} {κ : ℝ} (hc : CosOk f cos κ) (w : Window) {i n : ℕ}
    (hn : 2 ≤ n) (hi : i < n) (ho : 16 * (n : ℝ) ≤ (2 : ℝ) ^ f.emax) :
    ∃ y, windowI f cos w i n = .fin y ∧ 0 ≤ y ∧ y ≤ 1 ∧ |y - windowValue w i n| ≤ κ + 29 * f.u ∧
      (w = .hann → i = 0 → y = 0) := by
  have hf := hw.1
  have hp : 1 ≤ f.p := by have := hf.1; omega
  have hu0 := u_pos f
  have hu := hw.u64
  have h8 := eight_le_emax hf
  have hν := minNormal_le_one hf
  obtain ⟨a, ea, hm, hz, herr⟩ := arg_ok hw hn hi ho
  obtain ⟨c, ec, hg, hc1, hκ⟩ := hc.fin a hm
  have hκ0 : 0 ≤ κ := (abs_nonneg _).trans hκ
  have hcx : |c - Real.cos (2 * Real.pi * i / (n - 1))| ≤ κ + 51 * f.u := by
    have h1 := Real.abs_cos_sub_cos_le a (2 * Real.pi * i / (n - 1))
    have h2 := abs_sub_le c (Real.cos a) (Real.cos (2 * Real.pi * i / (n - 1)))
    linarith
  rw [abs_le] at hc1 hcx
  cases w with
  | rectangular =>
    exact ⟨1, rfl, by norm_num, le_rfl, by unfold windowValue; rw [sub_self, abs_zero]; positivity, fun h => by cases h⟩
  | hann =>
    have e1 : (FVal.fin 1).sub (.fin c) = .fin (1 - c) := by simp only [FVal.sub, FVal.neg, FVal.add, sub_eq_add_neg]
    have g2 : f.OnGrid 2 := by
      have := two_zpow_onGrid (f := f) hp (k := 1) (by have := hf.2.2; have := hf.2.1; omega)
      rwa [zpow_one] at this
    have s0 : 0 ≤ f.rndInf (1 - c) := grid_le_rndInf hp (onGrid_zero f) (by linarith)
    have s2 : f.rndInf (1 - c) ≤ 2 := rndInf_le_grid hp g2 (by linarith)
    have hs : f.round (.fin (1 - c)) = .fin (f.rndInf (1 - c)) := round_fin_of_lt (by rw [abs_of_nonneg s0]; linarith)
    have serr := rndInf_abs_err hf (t := 1 - c) (T := 2) (abs_le.2 ⟨by linarith, by linarith⟩) (by linarith)
    obtain ⟨r1, r2, r3⟩ := round_unit hf (t := 0.5 * f.rndInf (1 - c)) (by linarith) (by linarith)
    have rerr := rndInf_abs_err hf (t := 0.5 * f.rndInf (1 - c)) (T := 1) (abs_le.2 ⟨by linarith, by linarith⟩) hν
    refine ⟨_, ?_, r2, r3, ?_, fun _ h => ?_⟩
    · unfold windowI
      dsimp only
      rw [ea, ec, e1, hs]
      exact r1
    · unfold windowValue
      dsimp only
      rw [abs_le] at serr rerr ⊢
      constructor <;> linarith
    · have h0 := hz h
      rw [h0, hc.zero] at ec
      injection ec with ec
      rw [← ec, sub_self, rndInf_zero, mul_zero, rndInf_zero]
  | hamming =>
    have h4 : 4 ≤ f.emax := by
      by_contra h
      have h1 : (2 : ℝ) ^ f.emax ≤ (2 : ℝ) ^ (3 : ℤ) := zpow_le_zpow_right₀ (by norm_num) (by omega)
      have h2 : (2 : ℝ) ≤ n := by exact_mod_cast hn
      norm_num at h1
      linarith
    obtain ⟨A, B, eA, eB, gB, hB0, hBA, hAB, hA, hB⟩ := constants hw h4
    rw [abs_le] at hA hB
    have hB1 : B ≤ 1 := by linarith [hB.2]
    have q1 : |f.rndInf (B * c)| ≤ B := by
      rw [rndInf_abs f hp]
      refine rndInf_le_grid hp gB ?_
      rw [abs_mul, abs_of_nonneg hB0]
      exact mul_le_of_le_one_right hB0 (abs_le.2 hc1)
    have hs : f.round (.fin (B * c)) = .fin (f.rndInf (B * c)) := round_fin_of_lt (by linarith)
    rw [abs_le] at q1
    have qerr := rndInf_abs_err hf (t := B * c) (T := 1) (by
      rw [abs_mul, abs_of_nonneg hB0]
      exact mul_le_one₀ hB1 (abs_nonneg _) (abs_le.2 hc1)) hν
    have e1 : (FVal.fin A).sub (.fin (f.rndInf (B * c))) = .fin (A - f.rndInf (B * c)) := by
      simp only [FVal.sub, FVal.neg, FVal.add, sub_eq_add_neg]
    obtain ⟨r1, r2, r3⟩ := round_unit hf (t := A - f.rndInf (B * c)) (by linarith) (by linarith)
    have rerr := rndInf_abs_err hf (t := A - f.rndInf (B * c)) (T := 2) (abs_le.2 ⟨by linarith, by linarith⟩) (by linarith)
    refine ⟨_, ?_, r2, r3, ?_, fun h => by cases h⟩
    · unfold windowI
      dsimp only
      rw [ea, ec, eA, eB, show (FVal.fin B).mul (.fin c) = .fin (B * c) from rfl, hs, e1]
      exact r1
    · unfold windowValue
      dsimp only
      have hBc : |(B - 46 / 100) * c| ≤ f.u := by
        rw [abs_mul]
        calc _ ≤ f.u * 1 := mul_le_mul (abs_le.2 hB) (abs_le.2 hc1) (abs_nonneg _) hu0.le
          _ = f.u := mul_one _
      rw [abs_le] at qerr rerr hBc ⊢
      have e2 : (B - 46 / 100) * c = B * c - 46 / 100 * c := by ring
      rw [e2] at hBc
      constructor <;> linarith

/-- **C111** (windows).  In the formats half, float and double (and others), for every size from 2 up to a sixteenth of
`2 ^ emax`: the generated window is finite, all values are in `[0, 1]`, also where roundings of the constants of the Hamming
window might push the sum above one; every value is within `κ + 29 u` of the exact window, where `κ` is the error of
`std::cos`; opposite values differ by at most twice that; and the Hann window starts with 0. -/
theorem C111_window (hw : WindowFmt f) {cos : FVal → FVal} {κ : ℝ} (hc : CosOk f cos κ) (w : Window) {n : ℕ} (hn : 2 ≤ n)
    (ho : 16 * (n : ℝ) ≤ (2 : ℝ) ^ f.emax) :
    ∃ v : ℕ → ℝ, generateWindowI f cos w n = .ok (vec n fun i => .fin (v i)) ∧
      (∀ i < n, 0 ≤ v i ∧ v i ≤ 1) ∧ (∀ i < n, |v i - windowValue w i n| ≤ κ + 29 * f.u) ∧
      (∀ i < n, |v (n - 1 - i) - v i| ≤ 2 * (κ + 29 * f.u)) ∧ (w = .hann → v 0 = 0) := by
  have key : ∀ i, ∃ y, i < n → windowI f cos w i n = .fin y ∧ 0 ≤ y ∧ y ≤ 1 ∧ |y - windowValue w i n| ≤ κ + 29 * f.u ∧
      (w = .hann → i = 0 → y = 0) := fun i => by
    by_cases hi : i < n
    · obtain ⟨y, h⟩ := window_ok hw hc w hn hi ho
      exact ⟨y, fun _ => h⟩
    · exact ⟨0, fun h => absurd h hi⟩
  choose v hv using key
  have hsym : ∀ i < n, windowValue w (n - 1 - i) n = windowValue w i n := fun i hi => by
    have hn1 : ((n : ℝ) - 1) ≠ 0 := by
      have : (2 : ℝ) ≤ n := by exact_mod_cast hn
      intro h
      linarith
    have e : 2 * Real.pi * ((n - 1 - i : ℕ) : ℝ) / (n - 1) = 2 * Real.pi - 2 * Real.pi * i / (n - 1) := by
      rw [Nat.cast_sub (by omega), Nat.cast_sub (by omega)]
      field_simp
      push_cast
      ring
    unfold windowValue
    cases w
    · rfl
    · dsimp only
      rw [e, Real.cos_two_pi_sub]
    · dsimp only
      rw [e, Real.cos_two_pi_sub]
  refine ⟨v, ?_, fun i hi => ⟨(hv i hi).2.1, (hv i hi).2.2.1⟩, fun i hi => (hv i hi).2.2.2.1, fun i hi => ?_,
    fun h => (hv 0 (by omega)).2.2.2.2 h rfl⟩
  · unfold generateWindowI fillWindowI
    rw [show List.replicate n (FVal.fin 0) = vec n (fun _ => .fin 0) by simp [vec], length_vec]
    exact forN_map (fun _ => FVal.fin 0) (fun i _ => FVal.fin (v i)) _ (fun i hi h _ => by
      beta_reduce
      rw [(hv i hi).1, wr_vec_ok hi])
  · have h1 := (hv i hi).2.2.2.1
    have h2 := (hv (n - 1 - i) (by omega)).2.2.2.1
    rw [hsym i hi] at h2
    rw [abs_le] at h1 h2 ⊢
    constructor <;> linarith

/-- **C111** (the window of size one).  The Hann and Hamming windows of size one are NaN: zero is divided by zero. -/
theorem C111_window_one (hf : f.Ieee) {cos : FVal → FVal} {κ : ℝ} (hc : CosOk f cos κ) :
    generateWindowI f cos .hann 1 = .ok [.nan] ∧ generateWindowI f cos .hamming 1 = .ok [.nan] ∧
      generateWindowI f cos .rectangular 1 = .ok [.fin 1] := by
  have h0 : f.round (.fin 0) = .fin 0 := round_mem (onGrid_zero f) (by rw [abs_zero]; exact two_zpow_pos _)
  have harg : windowArgI f 0 1 = .nan := by
    unfold windowArgI
    dsimp only
    rw [ofNat_zero]
    have hz : ∀ v : FVal, (f.round (v.mul (.fin 0))).div (.fin 0) = .nan := fun v => by
      cases v with
      | fin x => simp only [FVal.mul, mul_zero, h0, FVal.div, if_true]
      | inf s => simp [FVal.mul, Fmt.round, FVal.div]
      | nan => rfl
    rw [hz]
    rfl
  have hsub : ∀ v : FVal, v.sub .nan = .nan := fun v => by cases v <;> rfl
  have hmul : ∀ v : FVal, v.mul .nan = .nan := fun v => by cases v <;> rfl
  have rn : f.round .nan = .nan := rfl
  have hA : windowI f cos .hann 0 1 = .nan := by
    unfold windowI
    dsimp only
    rw [harg, hc.nan, hsub, rn, hmul, rn]
  have hB : windowI f cos .hamming 0 1 = .nan := by
    unfold windowI
    dsimp only
    rw [harg, hc.nan, hmul, rn, hsub, rn]
  have hR : windowI f cos .rectangular 0 1 = .fin 1 := rfl
  refine ⟨?_, ?_, ?_⟩ <;> unfold generateWindowI fillWindowI <;> simp [forN, hA, hB, hR, wr]

/-- The correctly rounded cosine. -/
noncomputable def cosR (f : Fmt) : FVal → FVal
  | .fin x => f.round (.fin (Real.cos x))
  | _ => .nan

/-- The correctly rounded cosine meets the assumptions with `κ` the unit roundoff. -/
theorem cosR_ok (hf : f.Ieee) : CosOk f (cosR f) f.u := by
  have hp : 1 ≤ f.p := by have := hf.1; omega
  have h8 := eight_le_emax hf
  have key : ∀ x, f.round (.fin (Real.cos x)) = .fin (f.rndInf (Real.cos x)) ∧ |f.rndInf (Real.cos x)| ≤ 1 := fun x => by
    have h1 : |f.rndInf (Real.cos x)| ≤ 1 := by
      rw [rndInf_abs f hp]
      exact rndInf_le_grid hp (one_onGrid hf) (Real.abs_cos_le_one x)
    exact ⟨round_fin_of_lt (by linarith), h1⟩
  refine ⟨fun x _ => ⟨_, (key x).1, (rndInf_nearest f hp _).1, (key x).2, ?_⟩, ?_, rfl⟩
  · have := rndInf_abs_err hf (t := Real.cos x) (T := 1) (Real.abs_cos_le_one x) (minNormal_le_one hf)
    rwa [mul_one] at this
  · show f.round (.fin (Real.cos 0)) = _
    rw [Real.cos_zero]
    exact round_mem (one_onGrid hf) (by rw [abs_one]; linarith)

/-- A Hamming window of 1024 values in single precision with a correctly rounded cosine. -/
example : ∃ v : ℕ → ℝ, generateWindowI binary32 (cosR binary32) .hamming 1024 = .ok (vec 1024 fun i => .fin (v i)) ∧
    (∀ i < 1024, 0 ≤ v i ∧ v i ≤ 1) ∧
    ∀ i < 1024, |v i - windowValue .hamming i 1024| ≤ binary32.u + 29 * binary32.u := by
  have hf : binary32.Ieee := by unfold Fmt.Ieee binary32; norm_num
  have hw : WindowFmt binary32 := ⟨hf, by norm_num [binary32], Or.inl (by norm_num [binary32])⟩
  obtain ⟨v, h1, h2, h3, -⟩ := C111_window hw (cosR_ok hf) .hamming (n := 1024) (by norm_num) (by
    have : (2 : ℝ) ^ (14 : ℤ) ≤ (2 : ℝ) ^ binary32.emax := zpow_le_zpow_right₀ (by norm_num) (by norm_num [binary32])
    norm_num at this ⊢
    linarith)
  exact ⟨v, h1, h2, h3⟩

example : generateWindowI binary64 (cosR binary64) .hann 1 = .ok [.nan] :=
  (C111_window_one binary64_ieee (cosR_ok binary64_ieee)).1

end Neo.Props
