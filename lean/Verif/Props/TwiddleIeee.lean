import Verif.Model.TwiddleIeee
import Verif.Props.WindowIeee
import Verif.Props.IeeeFft
import Verif.Props.StockhamIeee
import Verif.Props.RadixIeee
import Verif.Lemmas.ArithLin

/-! # C113: the twiddles the code computes in IEEE 754 arithmetic, and the transforms that use them -/

namespace Neo.Props

open Neo Spec Finset

variable {f : Fmt}

/-- What is assumed of `std::sin`: on arguments of the format it is a number of the format, at most one in magnitude and
within `κ` of the sine; and it is exact at zero. -/
structure SinOk (f : Fmt) (sin : FVal → FVal) (κ : ℝ) : Prop where
  fin : ∀ x, f.Mem (.fin x) → ∃ s, sin (.fin x) = .fin s ∧ f.OnGrid s ∧ |s| ≤ 1 ∧ |s - Real.sin x| ≤ κ
  zero : sin (.fin 0) = .fin 0

/-- The formats considered: IEEE formats of at least six digits and no more digits than `double`. -/
def TwiddleFmt (f : Fmt) : Prop := f.Ieee ∧ 6 ≤ f.p ∧ f.p ≤ 53

example : TwiddleFmt binary16 ∧ TwiddleFmt binary32 ∧ TwiddleFmt binary64 := by
  refine ⟨⟨?_, ?_, ?_⟩, ⟨?_, ?_, ?_⟩, ⟨?_, ?_, ?_⟩⟩ <;> first
    | (unfold Fmt.Ieee binary16; norm_num)
    | (unfold Fmt.Ieee binary32; norm_num)
    | (unfold Fmt.Ieee binary64; norm_num)
    | (unfold binary16; norm_num)
    | (unfold binary32; norm_num)
    | (unfold binary64; norm_num)

theorem TwiddleFmt.u64 (h : TwiddleFmt f) : f.u ≤ 1 / 64 := by
  have : (2 : ℝ) ^ (-(f.p : ℤ)) ≤ (2 : ℝ) ^ (-6 : ℤ) := zpow_le_zpow_right₀ (by norm_num) (by have := h.2.1; omega)
  have e : (2 : ℝ) ^ (-6 : ℤ) = 1 / 64 := by norm_num
  rw [e] at this
  exact this

private theorem u_double (h : TwiddleFmt f) : binary64.u ≤ f.u :=
  zpow_le_zpow_right₀ (by norm_num) (by have := h.2.2; norm_num [binary64]; omega)

private theorem onGrid_two {g : Fmt} {x : ℝ} (h : g.OnGrid x) : g.OnGrid (x * 2) := by
  obtain ⟨m, e, h1, h2, h3⟩ := h
  refine ⟨m, e + 1, h1, by omega, ?_⟩
  rw [h3, zpow_add₀ (by norm_num), zpow_one]
  ring

theorem twoPi_ok (hw : TwiddleFmt f) (h16' : (16 : ℝ) ≤ (2 : ℝ) ^ f.emax) : Ap f 2 (Real.pi * 2) (twoPiI f) ∧
    f.round ((FVal.fin 1).mul (twoPiI f)) = twoPiI f := by
  have hf := hw.1
  have hp : 1 ≤ f.p := by have := hf.1; omega
  have hu := hw.u64
  have hu0 := u_pos f
  have hπ1 := Real.pi_gt_three
  have hπ2 := Real.pi_lt_d2
  have hν1 := minNormal_le_one hf
  have h16 : (16 : ℝ) ≤ (2 : ℝ) ^ binary64.emax := by
    have : (2 : ℝ) ^ (4 : ℤ) ≤ (2 : ℝ) ^ binary64.emax := zpow_le_zpow_right₀ (by norm_num) (by norm_num [binary64])
    norm_num at this ⊢
    exact this
  obtain ⟨φ, e, h⟩ := rndInf_fac binary64_ieee (t := Real.pi) ((minNormal_le_one binary64_ieee).trans (by linarith))
  have hφ := h.coarser binary64_ieee (u_double hw)
  have h67 := hφ.near_one hf (by norm_num; linarith)
  have hg : binary64.OnGrid (Real.pi * φ) := e ▸ (rndInf_nearest binary64 (by norm_num [binary64]) Real.pi).1
  have hpos : 0 ≤ Real.pi * φ := by nlinarith
  have hlt : Real.pi * φ < 4 := by nlinarith
  have e1 : binary64.round (.fin Real.pi) = .fin (Real.pi * φ) := by
    rw [round_fin_of_lt (by rw [e, abs_of_nonneg hpos]; linarith), e]
  have e2 : binary64.round (.fin (Real.pi * φ * 2)) = .fin (Real.pi * φ * 2) :=
    round_mem (onGrid_two hg) (by rw [abs_of_nonneg (by linarith)]; linarith)
  have e3 : twoPiI f = f.round (.fin (Real.pi * 2 * φ)) := by
    unfold twoPiI
    rw [e1, show (FVal.fin (Real.pi * φ)).mul (.fin 2) = .fin (Real.pi * φ * 2) from rfl, e2,
      show Real.pi * φ * 2 = Real.pi * 2 * φ by ring]
  have hA : Ap f 2 (Real.pi * 2) (twoPiI f) := by
    rw [e3]
    exact Ap.round hf hφ (by norm_num; linarith) (by linarith) (by linarith)
  refine ⟨hA, ?_⟩
  obtain ⟨ψ, e4, -⟩ := hA
  have hm := round_eq_fin hp (e3 ▸ e4)
  rw [e4, show (FVal.fin 1).mul (.fin (Real.pi * 2 * ψ)) = .fin (1 * (Real.pi * 2 * ψ)) from rfl, one_mul]
  exact round_mem hm.1 hm.2

private theorem back_ok (hw : TwiddleFmt f) {k n : ℕ} (hn : 1 ≤ n) (hk : k ≤ n) (ho : 16 * (n : ℝ) ≤ (2 : ℝ) ^ f.emax) :
    ∃ a, twiddleAngleI f n k .backward = .fin a ∧ f.Mem (.fin a) ∧ (k = 0 → a = 0) ∧
      |a - 2 * Real.pi * k / n| ≤ 44 * f.u := by
  have hf := hw.1
  have hp : 1 ≤ f.p := by have := hf.1; omega
  have hu := hw.u64
  have hu0 := u_pos f
  have hν := minNormal_pos f
  have hν1 := minNormal_le_one hf
  have hmn := minNormal_mul_emax hf
  have hπ1 := Real.pi_gt_three
  have hπ2 := Real.pi_lt_d4
  have hn' : (1 : ℝ) ≤ n := by exact_mod_cast hn
  have hn0 : (0 : ℝ) < n := by linarith
  have hku : ∀ j : ℕ, j ≤ 6 → (j : ℝ) * f.u ≤ 1 / 8 := fun j hj => by
    have : (j : ℝ) ≤ 6 := by exact_mod_cast hj
    nlinarith
  obtain ⟨hT, h1⟩ := twoPi_ok hw (by linarith)
  have hM := ofNat_ap hf hn (by linarith)
  have h0 : f.round (.fin 0) = .fin 0 := round_mem (onGrid_zero f) (by rw [abs_zero]; exact two_zpow_pos _)
  unfold twiddleAngleI
  dsimp only
  rw [if_neg (by decide), h1]
  rcases Nat.eq_zero_or_pos k with rfl | hk0
  · obtain ⟨a, ea, -⟩ := hT
    obtain ⟨b, eb, hb⟩ := hM
    refine ⟨0, ?_, ⟨onGrid_zero f, by rw [abs_zero]; exact two_zpow_pos _⟩, fun _ => rfl, ?_⟩
    · rw [ofNat_zero]
      have hd : ∀ y : ℝ, y ≠ 0 → (FVal.fin 0).div (.fin y) = .fin 0 := fun y hy => by simp [FVal.div, hy]
      rw [ea, eb, show (FVal.fin (Real.pi * 2 * a)).mul (.fin 0) = .fin (Real.pi * 2 * a * 0) from rfl, mul_zero, h0,
        hd _ (mul_pos hn0 (hb.pos hf)).ne', h0]
    · simp
      positivity
  have hk' : (1 : ℝ) ≤ k := by exact_mod_cast hk0
  have hkn : (k : ℝ) ≤ n := by exact_mod_cast hk
  have hI := ofNat_ap hf hk0 (by linarith)
  have b1 : 2 * f.minNormal ≤ Real.pi * 2 * k := by nlinarith
  have b2 : 2 * (Real.pi * 2 * k) ≤ (2 : ℝ) ^ f.emax := by nlinarith
  have hQ := Ap.mul hf hT hI (hku _ (by norm_num)) b1 b2
  have b3 : 2 * f.minNormal ≤ Real.pi * 2 * k / n := by
    rw [le_div_iff₀ hn0]
    have : f.minNormal * (16 * n) ≤ f.minNormal * (2 : ℝ) ^ f.emax := mul_le_mul_of_nonneg_left (by linarith) hν.le
    nlinarith
  have b5 : Real.pi * 2 * k / n ≤ Real.pi * 2 := by
    rw [div_le_iff₀ hn0]
    exact mul_le_mul_of_nonneg_left hkn (by linarith)
  have hA := Ap.div hf hQ hM hn0 (hku _ (by norm_num)) b3 (by linarith)
  have h6 : ((2 + 1 + 1 + 1 + 1 : ℕ) : ℝ) = 6 := by norm_num
  obtain ⟨a, ea, ha⟩ := hA.err hf (e := 7 * f.u) (by positivity) (by rw [h6]; linarith) (by rw [h6]; nlinarith)
  refine ⟨a, ea, round_eq_fin hp ea, fun h => by omega, ?_⟩
  rw [show 2 * Real.pi * k / n = Real.pi * 2 * k / n by ring]
  refine ha.trans ?_
  nlinarith

theorem neg_div' (a b : FVal) : a.neg.div b = (a.div b).neg := by
  cases a with
  | nan => cases b <;> rfl
  | inf s =>
    cases b with
    | nan => rfl
    | inf t => rfl
    | fin y => simp [FVal.neg, FVal.div]
  | fin x =>
    cases b with
    | nan => rfl
    | inf t => simp [FVal.neg, FVal.div]
    | fin y =>
      simp only [FVal.neg, FVal.div, neg_eq_zero]
      by_cases hy : y = 0
      · by_cases hx : x = 0
        · simp [hy, hx]
        · rcases lt_or_gt_of_ne hx with h | h
          · have : ¬ 0 < x := by linarith
            simp [hy, hx, h, this]
          · have : ¬ x < 0 := by linarith
            simp [hy, hx, h, this]
      · simp [hy, neg_div]

/-- The angles of the two directions are opposite, whatever the arguments. -/
private theorem forward_eq (n k : ℕ) :
    twiddleAngleI f n k .forward = (twiddleAngleI f n k .backward).neg := by
  unfold twiddleAngleI
  dsimp only
  rw [if_pos rfl, if_neg (by decide), show (FVal.fin (-1)) = (FVal.fin 1).neg from rfl, FVal.neg_mul, Fmt.round_neg, FVal.neg_mul,
    Fmt.round_neg, neg_div', Fmt.round_neg]

/-- The exact angle. -/
private noncomputable def angle (n k : ℕ) (dir : Direction) : ℝ := (if dir = .forward then -1 else 1) * (2 * Real.pi * k / n)

private theorem angle_ok (hw : TwiddleFmt f) {k n : ℕ} (hn : 1 ≤ n) (hk : k ≤ n) (ho : 16 * (n : ℝ) ≤ (2 : ℝ) ^ f.emax)
    (dir : Direction) : ∃ a, twiddleAngleI f n k dir = .fin a ∧ f.Mem (.fin a) ∧ (k = 0 → a = 0) ∧
      |a - angle n k dir| ≤ 44 * f.u := by
  obtain ⟨a, e, h1, h2, h3⟩ := back_ok hw hn hk ho
  cases dir with
  | backward => exact ⟨a, e, h1, h2, by unfold angle; rwa [if_neg (by decide), one_mul]⟩
  | forward =>
    refine ⟨-a, by rw [forward_eq, e]; rfl, ⟨?_, by rw [abs_neg]; exact h1.2⟩, fun h => by rw [h2 h, neg_zero], ?_⟩
    · obtain ⟨m, j, g1, g2, g3⟩ := h1.1
      exact ⟨-m, j, by rwa [abs_neg], g2, by rw [g3]; push_cast; ring⟩
    · unfold angle
      rw [if_pos rfl, show -a - -1 * (2 * Real.pi * k / n) = -(a - 2 * Real.pi * k / n) by ring, abs_neg]
      exact h3

theorem exp_close (a b : ℝ) : ‖(⟨Real.cos a, Real.sin a⟩ : ℂ) - Complex.exp (b * Complex.I)‖ ≤ |a - b| := by
  have e : (⟨Real.cos a, Real.sin a⟩ : ℂ) = Complex.exp (a * Complex.I) := by
    apply Complex.ext
    · rw [Complex.exp_ofReal_mul_I_re]
    · rw [Complex.exp_ofReal_mul_I_im]
  have e2 : Complex.exp (a * Complex.I) - Complex.exp (b * Complex.I)
      = Complex.exp (b * Complex.I) * (Complex.exp (Complex.I * (a - b : ℝ)) - 1) := by
    rw [mul_sub, ← Complex.exp_add, mul_one]
    congr 2
    push_cast
    ring
  rw [e, e2, norm_mul, Complex.norm_exp_ofReal_mul_I, one_mul]
  exact Real.norm_exp_I_mul_ofReal_sub_one_le

/-- **C113** (the twiddles).  For every size `n` with `16 n` below the overflow threshold and every index up to `n`, in both
directions: the twiddle is finite, its parts are at most one, and it is within `44 u + 3/2 κ` of `exp(∓2πik/n)`, where `κ`
is the error of the cosine and sine of the library; at index zero it is exactly one. -/
theorem C113_twiddle (hw : TwiddleFmt f) {cos sin : FVal → FVal} {κ : ℝ} (hc : CosOk f cos κ) (hs : SinOk f sin κ) {n k : ℕ}
    (hn : 1 ≤ n) (hk : k ≤ n) (ho : 16 * (n : ℝ) ≤ (2 : ℝ) ^ f.emax) (dir : Direction) :
    (∃ c s : ℝ, twiddleI f cos sin n k dir = ⟨.fin c, .fin s⟩ ∧ |c| ≤ 1 ∧ |s| ≤ 1 ∧
      ‖(⟨c, s⟩ : ℂ) - Complex.exp ((if dir = .forward then -1 else 1) * (2 * Real.pi * Complex.I * k / n))‖
        ≤ 44 * f.u + 3 / 2 * κ) ∧ twiddleI f cos sin n 0 dir = ⟨.fin 1, .fin 0⟩ := by
  have hf := hw.1
  have h8 := eight_le_emax hf
  have r1 : ∀ y : ℝ, f.OnGrid y → |y| ≤ 1 → f.round ((FVal.fin 1).mul (.fin y)) = .fin y := fun y h1 h2 => by
    rw [show (FVal.fin 1).mul (.fin y) = .fin (1 * y) from rfl, one_mul]
    exact round_mem h1 (by linarith)
  constructor
  · obtain ⟨a, ea, hm, -, herr⟩ := angle_ok hw hn hk ho dir
    obtain ⟨c, ec, c1, c2, c3⟩ := hc.fin a hm
    obtain ⟨s, es, s1, s2, s3⟩ := hs.fin a hm
    refine ⟨c, s, ?_, c2, s2, ?_⟩
    · unfold twiddleI polarI
      rw [ea, ec, es, r1 c c1 c2, r1 s s1 s2]
    · have e : ((if dir = .forward then -1 else 1) * (2 * Real.pi * Complex.I * k / n) : ℂ)
          = (angle n k dir : ℂ) * Complex.I := by
        unfold angle
        split <;> push_cast <;> ring
      rw [e]
      have h1 := norm_le_of_parts_abs (z := (⟨c, s⟩ : ℂ) - ⟨Real.cos a, Real.sin a⟩) (e := κ) c3 s3
      have h2 := norm_sub_le_norm_sub_add_norm_sub (⟨c, s⟩ : ℂ) ⟨Real.cos a, Real.sin a⟩
        (Complex.exp (angle n k dir * Complex.I))
      have h3 := exp_close a (angle n k dir)
      linarith
  · obtain ⟨a, ea, -, h0, -⟩ := angle_ok hw hn (Nat.zero_le n) ho dir
    unfold twiddleI polarI
    rw [ea, h0 rfl, hc.zero, hs.zero, r1 1 (one_onGrid hf) (by rw [abs_one]), r1 0 (onGrid_zero f) (by rw [abs_zero]; norm_num)]

/-- **C113** (symmetry).  If the library's cosine is even and its sine odd, the twiddles of the two directions are exactly
conjugate: for all formats, sizes and indices, also where results overflow. -/
theorem C113_conj {cos sin : FVal → FVal} (hc : ∀ v : FVal, cos v.neg = cos v) (hs : ∀ v : FVal, sin v.neg = (sin v).neg)
    (n k : ℕ) : twiddleI f cos sin n k .forward
      = ⟨(twiddleI f cos sin n k .backward).re, (twiddleI f cos sin n k .backward).im.neg⟩ := by
  unfold twiddleI polarI
  rw [forward_eq, hc, hs, FVal.mul_neg', Fmt.round_neg]

/-- **C113** (the tables).  The code's twiddles are tables in the sense of the theorems about the transforms. -/
theorem C113_tables (hw : TwiddleFmt f) {cos sin : FVal → FVal} {κ : ℝ} (hc : CosOk f cos κ) (hs : SinOk f sin κ) {N : ℕ}
    (hN : 1 ≤ N) (ho : 16 * (N : ℝ) ≤ (2 : ℝ) ^ f.emax) :
    TwFull (twiddleI f cos sin) N (44 * f.u + 3 / 2 * κ) ∧ TwAccurate (twiddleI f cos sin) N (44 * f.u + 3 / 2 * κ) := by
  refine ⟨fun dir k hk => ?_, fun dir k hk => ?_⟩
  · obtain ⟨⟨c, s, h1, -, -, h2⟩, -⟩ := C113_twiddle hw hc hs hN hk.le ho dir
    exact ⟨c, s, h1, h2⟩
  · obtain ⟨⟨c, s, h1, -, -, h2⟩, -⟩ := C113_twiddle hw hc hs hN (k := k) (by omega) ho dir
    exact ⟨c, s, h1, h2⟩

/-- The sine rounded to the format. -/
noncomputable def sinR (f : Fmt) : FVal → FVal
  | .fin x => f.round (.fin (Real.sin x))
  | _ => .nan

/-- The correctly rounded sine meets the assumptions with `κ` the unit roundoff. -/
theorem sinR_ok (hf : f.Ieee) : SinOk f (sinR f) f.u := by
  have hp : 1 ≤ f.p := by have := hf.1; omega
  have h8 := eight_le_emax hf
  have key : ∀ x, f.round (.fin (Real.sin x)) = .fin (f.rndInf (Real.sin x)) ∧ |f.rndInf (Real.sin x)| ≤ 1 := fun x => by
    have h1 : |f.rndInf (Real.sin x)| ≤ 1 := by
      rw [rndInf_abs f hp]
      exact rndInf_le_grid hp (one_onGrid hf) (Real.abs_sin_le_one x)
    exact ⟨round_fin_of_lt (by linarith), h1⟩
  refine ⟨fun x _ => ⟨_, (key x).1, (rndInf_nearest f hp _).1, (key x).2, ?_⟩, ?_⟩
  · have := rndInf_abs_err hf (t := Real.sin x) (T := 1) (Real.abs_sin_le_one x) (minNormal_le_one hf)
    rwa [mul_one] at this
  · show f.round (.fin (Real.sin 0)) = _
    rw [Real.sin_zero]
    exact round_mem (onGrid_zero f) (by rw [abs_zero]; exact two_zpow_pos _)

/-- In single precision, with cosine and sine correctly rounded: the twiddle of index 3 of size 8 is within `46 u` of
`exp(-2πi 3/8)`, and the backward one is its conjugate. -/
example : (∃ c s : ℝ, twiddleI binary32 (cosR binary32) (sinR binary32) 8 3 .forward = ⟨.fin c, .fin s⟩ ∧
    |c| ≤ 1 ∧ |s| ≤ 1 ∧ ‖(⟨c, s⟩ : ℂ) - Complex.exp (-1 * (2 * Real.pi * Complex.I * (3 : ℕ) / (8 : ℕ)))‖ ≤ 46 * binary32.u) ∧
    (twiddleI binary32 (cosR binary32) (sinR binary32) 8 3 .forward).re
      = (twiddleI binary32 (cosR binary32) (sinR binary32) 8 3 .backward).re := by
  have hf : binary32.Ieee := by unfold Fmt.Ieee binary32; norm_num
  have hu := u_pos binary32
  constructor
  · obtain ⟨⟨c, s, h1, h2, h3, h4⟩, -⟩ := C113_twiddle (n := 8) (k := 3) ⟨hf, by norm_num [binary32], by norm_num [binary32]⟩
      (cosR_ok hf) (sinR_ok hf) (by norm_num) (by norm_num) (by
        have : (2 : ℝ) ^ (7 : ℤ) ≤ (2 : ℝ) ^ binary32.emax := zpow_le_zpow_right₀ (by norm_num) (by norm_num [binary32])
        norm_num at this ⊢
        linarith) .forward
    rw [if_pos rfl] at h4
    exact ⟨c, s, h1, h2, h3, by linarith⟩
  · rw [C113_conj (fun v => ?_) (fun v => ?_)]
    · cases v with
      | fin x => show binary32.round (.fin (Real.cos (-x))) = _; rw [Real.cos_neg]; rfl
      | inf s => rfl
      | nan => rfl
    · cases v with
      | fin x =>
        show binary32.round (.fin (Real.sin (-x))) = _
        rw [Real.sin_neg]
        exact Fmt.round_neg (.fin (Real.sin x))
      | inf s => rfl
      | nan => rfl

theorem exp_le {t : ℝ} (t0 : 0 ≤ t) (t1 : t ≤ 1 / 2) : Real.exp t ≤ 1 + 2 * t := by
  have := Real.abs_exp_sub_one_sub_id_le (x := t) (by rw [abs_of_nonneg t0]; linarith)
  have := (abs_le.1 this).2
  nlinarith

theorem le_exp (t : ℝ) : 1 + t ≤ Real.exp t := (add_comm _ _).trans_le (Real.add_one_le_exp t)

private theorem TwFull.mono {tw : ℕ → ℕ → Direction → IC f} {N : ℕ} {ε ε' : ℝ} (h : TwFull tw N ε) (he : ε ≤ ε') :
    TwFull tw N ε' := fun dir k hk => by
  obtain ⟨c, s, h1, h2⟩ := h dir k hk
  exact ⟨c, s, h1, h2.trans he⟩

private theorem tables46 (hw : TwiddleFmt f) {cos sin : FVal → FVal} (hc : CosOk f cos f.u) (hs : SinOk f sin f.u) {N : ℕ}
    (hN : 1 ≤ N) (ho : 16 * (N : ℝ) ≤ (2 : ℝ) ^ f.emax) :
    TwFull (twiddleI f cos sin) N (46 * f.u) ∧ TwAccurate (twiddleI f cos sin) N (46 * f.u) := by
  have hu := u_pos f
  obtain ⟨h1, h2⟩ := C113_tables hw hc hs hN ho
  refine ⟨h1.mono (by linarith), fun dir k hk => ?_⟩
  obtain ⟨c, s, h3, h4⟩ := h2 dir k hk
  exact ⟨c, s, h3, h4.trans (by linarith)⟩

private theorem fft_growth (f : Fmt) (b : ℕ) (h : 106 * b * f.u ≤ 1) :
    1 ≤ fftGrowth f (46 * f.u) b ∧ fftGrowth f (46 * f.u) b ≤ 1 + 106 * b * f.u := by
  have hu := u_pos f
  have h1 : fftGrowth f (46 * f.u) b ≤ Real.exp (b * (53 * f.u)) := by
    unfold fftGrowth
    rw [Real.exp_nat_mul]
    apply pow_le_pow_left₀ (by positivity)
    rw [show 53 * f.u = 46 * f.u + 5 * f.u + 2 * f.u by ring, Real.exp_add, Real.exp_add]
    gcongr <;> exact le_exp _
  have hbu : 0 ≤ b * f.u := by positivity
  refine ⟨?_, h1.trans ((exp_le (by positivity) (by nlinarith)).trans (by linarith))⟩
  unfold fftGrowth
  apply one_le_pow₀
  have a1 : 1 ≤ 1 + 46 * f.u := by linarith
  have a2 : 1 ≤ 1 + 5 * f.u := by linarith
  have a3 : 1 ≤ 1 + 2 * f.u := by linarith
  exact one_le_mul_of_one_le_of_one_le (one_le_mul_of_one_le_of_one_le a1 a2) a3

private theorem fft_growth_sq (f : Fmt) (b : ℕ) (h : 212 * b * f.u ≤ 1) : fftGrowth f (46 * f.u) b ^ 2 ≤ 1 + 212 * b * f.u := by
  have hu := u_pos f
  have h1 : fftGrowth f (46 * f.u) b ^ 2 ≤ Real.exp (b * (106 * f.u)) := by
    unfold fftGrowth
    rw [Real.exp_nat_mul, ← pow_mul, mul_comm b 2, pow_mul]
    apply pow_le_pow_left₀ (by positivity)
    rw [show 106 * f.u = (2 : ℕ) * (46 * f.u + 5 * f.u + 2 * f.u) by push_cast; ring, Real.exp_nat_mul, Real.exp_add, Real.exp_add]
    gcongr <;> exact le_exp _
  have hbu : 0 ≤ b * f.u := by positivity
  exact h1.trans ((exp_le (by positivity) (by nlinarith)).trans (by linarith))

/-- **C113** (radix 2, end to end).  The plan with the twiddles the code computes, on `2^b` points: if the cosine and sine of
the library are within one unit roundoff and `2 S` stays below the overflow threshold, where `S` is the sum of the magnitudes
of the inputs with an allowance for underflow, then the results are finite and within `106 b u S` of the transform. -/
theorem C113_radix2 (hw : TwiddleFmt f) {cos sin : FVal → FVal} (hc : CosOk f cos f.u) (hs : SinOk f sin f.u) {b : ℕ}
    (hb : 1 ≤ b) (hb2 : b ≤ 27) (hbe : (b : ℤ) + 4 ≤ f.emax) (hbu : 106 * b * f.u ≤ 1) (k : Kernel) (hk : k = .v4 → 2 ≤ b)
    (dir : Direction) (x : List ℂ) (hx : x.length = 2 ^ b) {η : ℝ} (hη : f.minNormal ≤ η)
    (ho : 2 * (∑ n ∈ range (2 ^ b), ‖x.getD n 0‖ + 2 ^ b * η) < (2 : ℝ) ^ f.emax) :
    ∃ (p : _) (y : List ℂ), Dit2Plan.makeG (ieeeArith f (twiddleI f cos sin)) b = .ok p ∧
      p.callWith k.runG (x.map point) dir = .ok (y.map point) ∧ y.length = 2 ^ b ∧
      ∀ i < 2 ^ b, ‖y.getD i 0 - fourier dir (2 ^ b) x i‖
        ≤ 106 * b * f.u * (∑ n ∈ range (2 ^ b), ‖x.getD n 0‖ + 2 ^ b * η) := by
  have hS : 0 ≤ ∑ n ∈ range (2 ^ b), ‖x.getD n 0‖ + 2 ^ b * η := by
    have := minNormal_pos f
    have : 0 ≤ η := by linarith
    have : 0 ≤ ∑ n ∈ range (2 ^ b), ‖x.getD n 0‖ := sum_nonneg fun _ _ => norm_nonneg _
    positivity
  obtain ⟨g1, g2⟩ := fft_growth f b hbu
  obtain ⟨p, y, h1, h2, h3, h4⟩ := C105_fft hw.1 hb hb2 k hk (tables46 hw hc hs (N := 2 ^ b) Nat.one_le_two_pow (by
    have : (2 : ℝ) ^ ((b : ℤ) + 4) ≤ (2 : ℝ) ^ f.emax := zpow_le_zpow_right₀ (by norm_num) hbe
    rw [zpow_add₀ (by norm_num), zpow_natCast] at this
    push_cast
    norm_num at this ⊢
    linarith)).2 dir x hx hη (lt_of_le_of_lt (mul_le_mul_of_nonneg_right (by linarith) hS) ho)
  exact ⟨p, y, h1, h2, h3, fun i hi => (h4 i hi).trans (mul_le_mul_of_nonneg_right (by linarith) hS)⟩

/-- **C113** (radix 2 with `std::complex`, there and back).  The same with the default complex type, whose products are those
of Annex G; and if `2 · 2^b S` stays below the threshold, the transform back of the results, divided by `2^b`, is within
`212 b u S` of the inputs. -/
theorem C113_radix2_std (hw : TwiddleFmt f) {cos sin : FVal → FVal} (hc : CosOk f cos f.u) (hs : SinOk f sin f.u) {b : ℕ}
    (hb : 1 ≤ b) (hb2 : b ≤ 27) (hbe : (b : ℤ) + 4 ≤ f.emax) (hbu : 212 * b * f.u ≤ 1) (k k' : Kernel) (hk : k = .v4 → 2 ≤ b)
    (hk' : k' = .v4 → 2 ≤ b) (dir : Direction) (x : List ℂ) (hx : x.length = 2 ^ b) {η : ℝ} (hη : f.minNormal ≤ η)
    (ho : 2 * (2 ^ b * (∑ n ∈ range (2 ^ b), ‖x.getD n 0‖ + 2 ^ b * η)) < (2 : ℝ) ^ f.emax) :
    ∃ (p : _) (y z : List ℂ), Dit2Plan.makeG (stdArith f (twiddleI f cos sin)) b = .ok p ∧
      p.callWith k.runG (x.map fun v => (point v).std) dir = .ok (y.map fun v => (point v).std) ∧
      p.callWith k'.runG (y.map fun v => (point v).std) (opposite dir) = .ok (z.map fun v => (point v).std) ∧
      y.length = 2 ^ b ∧ z.length = 2 ^ b ∧
      (∀ i < 2 ^ b, ‖y.getD i 0 - fourier dir (2 ^ b) x i‖
        ≤ 106 * b * f.u * (∑ n ∈ range (2 ^ b), ‖x.getD n 0‖ + 2 ^ b * η)) ∧
      ∀ i < 2 ^ b, ‖z.getD i 0 / 2 ^ b - x.getD i 0‖
        ≤ 212 * b * f.u * (∑ n ∈ range (2 ^ b), ‖x.getD n 0‖ + 2 ^ b * η) := by
  have hu := u_pos f
  have hbu0 : 0 ≤ b * f.u := by positivity
  have hS : 0 ≤ ∑ n ∈ range (2 ^ b), ‖x.getD n 0‖ + 2 ^ b * η := by
    have := minNormal_pos f
    have : 0 ≤ η := by linarith
    have : 0 ≤ ∑ n ∈ range (2 ^ b), ‖x.getD n 0‖ := sum_nonneg fun _ _ => norm_nonneg _
    positivity
  obtain ⟨g1, g2⟩ := fft_growth f b (by nlinarith)
  have g3 := fft_growth_sq f b hbu
  obtain ⟨p, y, z, h1, h2, h3, h4, h5, h6, h7⟩ := C105_std hw.1 hb hb2 k k' hk hk'
    (tables46 hw hc hs (N := 2 ^ b) Nat.one_le_two_pow (by
    have : (2 : ℝ) ^ ((b : ℤ) + 4) ≤ (2 : ℝ) ^ f.emax := zpow_le_zpow_right₀ (by norm_num) hbe
    rw [zpow_add₀ (by norm_num), zpow_natCast] at this
    push_cast
    norm_num at this ⊢
    linarith)).2 dir x hx hη (lt_of_le_of_lt (mul_le_mul_of_nonneg_right (by linarith) (by positivity)) ho)
  exact ⟨p, y, z, h1, h2, h3, h4, h5, fun i hi => (h6 i hi).trans (mul_le_mul_of_nonneg_right (by linarith) hS),
    fun i hi => (h7 i hi).trans (mul_le_mul_of_nonneg_right (by linarith) hS)⟩

private theorem pi64 : ∃ φ, binary64.round (.fin Real.pi) = .fin (Real.pi * φ) ∧ Fac binary64 1 φ ∧ binary64.OnGrid (Real.pi * φ) ∧
    binary64.round (.fin (2 * (Real.pi * φ))) = .fin (2 * (Real.pi * φ)) := by
  have hf := binary64_ieee
  have hπ1 := Real.pi_gt_three
  have hπ2 := Real.pi_lt_d2
  have h16 : (16 : ℝ) ≤ (2 : ℝ) ^ binary64.emax := by
    have : (2 : ℝ) ^ (4 : ℤ) ≤ (2 : ℝ) ^ binary64.emax := zpow_le_zpow_right₀ (by norm_num) (by norm_num [binary64])
    norm_num at this ⊢
    exact this
  obtain ⟨φ, e, h⟩ := rndInf_fac hf (t := Real.pi) ((minNormal_le_one hf).trans (by linarith))
  have h67 := h.near_one hf (by rw [u_binary64]; norm_num)
  have hg : binary64.OnGrid (Real.pi * φ) := e ▸ (rndInf_nearest binary64 (by norm_num [binary64]) Real.pi).1
  have hpos : 0 ≤ Real.pi * φ := by nlinarith
  have hlt : Real.pi * φ < 4 := by nlinarith
  refine ⟨φ, by rw [round_fin_of_lt (by rw [e, abs_of_nonneg hpos]; linarith), e], h, hg, ?_⟩
  rw [mul_comm 2]
  exact round_mem (onGrid_two hg) (by rw [abs_of_nonneg (by linarith)]; linarith)

/-- A value of a double converted. -/
private theorem convert (hf : f.Ieee) {c ρ e : ℝ} (h1 : |c| ≤ 1) (h2 : |c - ρ| ≤ e) :
    ∃ c', f.round (.fin c) = .fin c' ∧ |c' - ρ| ≤ f.u + e := by
  have hp : 1 ≤ f.p := by have := hf.1; omega
  have h8 := eight_le_emax hf
  have h := rndInf_abs_err hf (T := 1) h1 (minNormal_le_one hf)
  have hle : |f.rndInf c| ≤ 1 := by
    rw [rndInf_abs f hp]
    exact rndInf_le_grid hp (one_onGrid hf) h1
  refine ⟨_, round_fin_of_lt (by linarith), ?_⟩
  have := abs_sub_le (f.rndInf c) c ρ
  linarith

private theorem sin_const (hw : TwiddleFmt f) {sin : FVal → FVal} (hs : SinOk binary64 sin binary64.u) {t φ : ℝ} {m : ℕ} (hm : 1 ≤ m)
    (hm5 : m ≤ 5) (ht : 3 ≤ t) (ht' : t ≤ 7) (htm : t ≤ 13 / 10 * m) (hφ : Fac binary64 1 φ) :
    ∃ c, f.round (sin (binary64.round ((FVal.fin (t * φ)).div (.fin m)))) = .fin c ∧ |c - Real.sin (t / m)| ≤ 6 * f.u := by
  have hf := binary64_ieee
  have hm' : (1 : ℝ) ≤ m := by exact_mod_cast hm
  have hm5' : (m : ℝ) ≤ 5 := by exact_mod_cast hm5
  have hm0 : (0 : ℝ) < m := by linarith
  have hu := u_double hw
  have hu0 := u_pos binary64
  have hν : binary64.minNormal ≤ 1 / 4 := by
    have : (2 : ℝ) ^ (binary64.emin + binary64.p - 1) ≤ (2 : ℝ) ^ (-2 : ℤ) :=
      zpow_le_zpow_right₀ (by norm_num) (by norm_num [binary64])
    norm_num at this ⊢
    exact this
  have h16 : (16 : ℝ) ≤ (2 : ℝ) ^ binary64.emax := by
    have : (2 : ℝ) ^ (4 : ℤ) ≤ (2 : ℝ) ^ binary64.emax := zpow_le_zpow_right₀ (by norm_num) (by norm_num [binary64])
    norm_num at this ⊢
    exact this
  have q1 : 3 / 5 ≤ t / m := by
    rw [le_div_iff₀ hm0]
    linarith
  have q2 : t / m ≤ 13 / 10 := by
    rw [div_le_iff₀ hm0]
    exact htm
  have hA := Ap.div hf ⟨φ, rfl, hφ⟩ (Ap.exact hf (m : ℝ)) hm0 (by rw [u_binary64]; norm_num) (by linarith) (by linarith)
  obtain ⟨a, ea, ha⟩ := hA.err hf (e := 3 * binary64.u) (by linarith) (by rw [u_binary64]; norm_num) (by rw [u_binary64]; norm_num)
  have hM := round_eq_fin (f := binary64) (by norm_num [binary64]) ea
  obtain ⟨s, es, -, s2, s3⟩ := hs.fin a hM
  have hd : |Real.sin a - Real.sin (t / m)| ≤ |a - t / m| := Real.abs_sin_sub_sin_le a (t / m)
  have hd2 : |a - t / m| ≤ 39 / 10 * binary64.u := ha.trans (by nlinarith)
  have hd3 := abs_sub_le s (Real.sin a) (Real.sin (t / m))
  obtain ⟨c, ec, hc⟩ := convert hw.1 (e := 5 * binary64.u) s2 (by linarith : |s - Real.sin (t / m)| ≤ _)
  refine ⟨c, by rw [ea, es, ec], hc.trans (by linarith)⟩

private theorem sqrt_const (hw : TwiddleFmt f) {t : ℝ} {m : ℕ} (hm : 1 ≤ m) (hm5 : m ≤ 4) (ht : 1 ≤ t) (ht' : t ≤ 9)
    (h4 : (m : ℝ) / 4 ≤ Real.sqrt t) (htm : Real.sqrt t ≤ 8 / 10 * m) :
    ∃ c, f.round (binary64.round ((binary64.round (FVal.fin t).sqrt).div (.fin m))) = .fin c ∧
      |c - Real.sqrt t / m| ≤ 6 * f.u := by
  have hf := binary64_ieee
  have hm' : (1 : ℝ) ≤ m := by exact_mod_cast hm
  have hm5' : (m : ℝ) ≤ 4 := by exact_mod_cast hm5
  have hm0 : (0 : ℝ) < m := by linarith
  have hu := u_double hw
  have hu0 := u_pos binary64
  have hν : binary64.minNormal ≤ 1 / 8 := by
    have : (2 : ℝ) ^ (binary64.emin + binary64.p - 1) ≤ (2 : ℝ) ^ (-3 : ℤ) :=
      zpow_le_zpow_right₀ (by norm_num) (by norm_num [binary64])
    norm_num at this ⊢
    exact this
  have h16 : (16 : ℝ) ≤ (2 : ℝ) ^ binary64.emax := by
    have : (2 : ℝ) ^ (4 : ℤ) ≤ (2 : ℝ) ^ binary64.emax := zpow_le_zpow_right₀ (by norm_num) (by norm_num [binary64])
    norm_num at this ⊢
    exact this
  have r1 : 1 ≤ Real.sqrt t := Real.one_le_sqrt.2 ht
  have r2 : Real.sqrt t ≤ 3 := Real.sqrt_le_iff.2 ⟨by norm_num, by linarith⟩
  have e0 : (FVal.fin t).sqrt = .fin (Real.sqrt t) := by
    simp only [FVal.sqrt]
    rw [if_neg (by linarith)]
  have hB : Ap binary64 1 (Real.sqrt t) (binary64.round (.fin (Real.sqrt t))) := by
    have := Ap.round hf (Fac.one hf 0) (t := Real.sqrt t) (by norm_num) (by linarith) (by linarith)
    rwa [mul_one] at this
  have q1 : 1 / 4 ≤ Real.sqrt t / m := by
    rw [le_div_iff₀ hm0]
    linarith
  have q2 : Real.sqrt t / m ≤ 8 / 10 := by
    rw [div_le_iff₀ hm0]
    exact htm
  have hA := Ap.div hf hB (Ap.exact hf (m : ℝ)) hm0 (by rw [u_binary64]; norm_num) (by linarith) (by linarith)
  obtain ⟨a, ea, ha⟩ := hA.err hf (e := 3 * binary64.u) (by linarith) (by rw [u_binary64]; norm_num) (by rw [u_binary64]; norm_num)
  have hd2 : |a - Real.sqrt t / m| ≤ 3 * binary64.u := ha.trans (by nlinarith)
  have ha1 : |a| ≤ 1 := by
    have h3 : (3 : ℝ) * binary64.u ≤ 1 / 10 := by rw [u_binary64]; norm_num
    have := abs_le.1 hd2
    rw [abs_le]
    constructor <;> linarith [this.1, this.2]
  obtain ⟨c, ec, hc⟩ := convert hw.1 ha1 hd2
  exact ⟨c, by rw [e0, ea, ec], hc.trans (by linarith)⟩

/-- **C113** (the constants of the mixed-radix Stockham plans).  Computed with doubles and converted, each is within `6 u` of
the number it stands for, if the library's sine of doubles is within one unit roundoff. -/
theorem C113_constants (hw : TwiddleFmt f) {sin : FVal → FVal} (hs : SinOk binary64 sin binary64.u) :
    (stockConstI f sin).Accurate (6 * f.u) := by
  have hπ1 := Real.pi_gt_three
  have hπ2 := Real.pi_lt_d2
  obtain ⟨φ, e, h, -, h2⟩ := pi64
  unfold stockConstI
  dsimp only
  refine ⟨?_, ?_, ?_, ?_, ?_⟩
  · obtain ⟨c, h3, h4⟩ := sin_const (m := 3) hw hs (by norm_num) (by norm_num) hπ1.le (by linarith) (by norm_num; linarith) h
    push_cast at h3 h4
    exact ⟨c, by rw [e]; exact h3, h4⟩
  · obtain ⟨c, h3, h4⟩ := sqrt_const (t := 5) (m := 4) hw (by norm_num) (by norm_num) (by norm_num) (by norm_num)
      (by norm_num) (Real.sqrt_le_iff.2 ⟨by norm_num, by norm_num⟩)
    push_cast at h3 h4
    exact ⟨c, h3, h4⟩
  · obtain ⟨c, h3, h4⟩ := sin_const (m := 5) hw hs (by norm_num) (by norm_num) hπ1.le (by linarith) (by norm_num; linarith) h
    push_cast at h3 h4
    exact ⟨c, by rw [e]; exact h3, h4⟩
  · obtain ⟨c, h3, h4⟩ := sin_const (t := 2 * Real.pi) (m := 5) hw hs (by norm_num) (by norm_num) (by linarith) (by linarith)
      (by norm_num; linarith) h
    push_cast at h3 h4
    refine ⟨c, ?_, h4⟩
    rw [e, show (FVal.fin 2).mul (.fin (Real.pi * φ)) = .fin (2 * (Real.pi * φ)) from rfl, h2, ← mul_assoc]
    exact h3
  · obtain ⟨c, h3, h4⟩ := sqrt_const (t := 2) (m := 2) hw (by norm_num) (by norm_num) (by norm_num) (by norm_num)
      (by
        have : (1 : ℝ) ≤ Real.sqrt 2 := Real.one_le_sqrt.2 (by norm_num)
        norm_num
        linarith) (Real.sqrt_le_iff.2 ⟨by norm_num, by norm_num⟩)
    push_cast at h3 h4
    exact ⟨c, h3, h4⟩

private theorem stock_growth (f : Fmt) (q : StockRadix) (p : ℕ) (h : 4 * p * (2 * q.sums + 70 * q.products) * f.u ≤ 1) :
    stockGrowth f (46 * f.u) (6 * f.u) q ^ p ≤ 1 + 4 * p * (2 * q.sums + 70 * q.products) * f.u := by
  have hu := u_pos f
  obtain ⟨t, ht⟩ : ∃ t : ℝ, t = (2 * q.sums + 70 * q.products) * f.u := ⟨_, rfl⟩
  have ht0 : 0 ≤ t := by rw [ht]; positivity
  have hβ : (1 + 2 * f.u) ^ q.sums * ((1 + 46 * f.u + 3 * (6 * f.u) + f.u) * (1 + 5 * f.u)) ^ q.products ≤ Real.exp t := by
    have e : t = q.sums * (2 * f.u) + q.products * (65 * f.u + 5 * f.u) := by rw [ht]; ring
    rw [e, Real.exp_add, Real.exp_nat_mul, Real.exp_nat_mul, Real.exp_add]
    have a1 := le_exp (2 * f.u)
    have a2 : 1 + 46 * f.u + 3 * (6 * f.u) + f.u ≤ Real.exp (65 * f.u) := by
      have := le_exp (65 * f.u)
      linarith
    have a3 := le_exp (5 * f.u)
    gcongr
  have hg : stockGrowth f (46 * f.u) (6 * f.u) q ≤ Real.exp (2 * t) := by
    unfold stockGrowth
    have e : Real.exp (2 * t) = Real.exp t ^ 2 := by rw [← Real.exp_nat_mul]; norm_num
    rw [e]
    nlinarith [sq_nonneg (Real.exp t - 1)]
  have hg0 : 0 ≤ stockGrowth f (46 * f.u) (6 * f.u) q := by
    unfold stockGrowth
    have : 1 ≤ (1 + 2 * f.u) ^ q.sums * ((1 + 46 * f.u + 3 * (6 * f.u) + f.u) * (1 + 5 * f.u)) ^ q.products := by
      apply one_le_mul_of_one_le_of_one_le (one_le_pow₀ (by linarith))
      exact one_le_pow₀ (one_le_mul_of_one_le_of_one_le (by linarith) (by linarith))
    linarith
  have h1 : stockGrowth f (46 * f.u) (6 * f.u) q ^ p ≤ Real.exp (p * (2 * t)) := by
    rw [Real.exp_nat_mul]
    exact pow_le_pow_left₀ hg0 hg p
  have e4 : 4 * p * (2 * q.sums + 70 * q.products) * f.u = 2 * (p * (2 * t)) := by rw [ht]; ring
  rw [e4] at h ⊢
  exact h1.trans (exp_le (by positivity) (by linarith))

/-- **C113** (mixed radix, end to end).  The Stockham plans of radix 3, 4, 5 and 8 with the twiddles and constants the code
computes: if `4 S` stays below the overflow threshold, the results are finite and within `4 p (2 a + 70 m) u S` of the
transform, where `a` sums and `m` products are on the longest path through a butterfly.  For both complex types. -/
theorem C113_stockham (hw : TwiddleFmt f) {cos sin sin64 : FVal → FVal} (hc : CosOk f cos f.u) (hs : SinOk f sin f.u)
    (hs64 : SinOk binary64 sin64 binary64.u) (q : StockRadix) {p : ℕ} (hn : q.val ^ p < 2 ^ 32)
    (hne : 16 * ((q.val ^ p : ℕ) : ℝ) ≤ (2 : ℝ) ^ f.emax) (hpu : 4 * p * (2 * q.sums + 70 * q.products) * f.u ≤ 1)
    (dir : Direction) (x : List ℂ) (hx : x.length = q.val ^ p) {η : ℝ} (hη : f.minNormal ≤ η)
    (ho : 4 * (∑ n ∈ range (q.val ^ p), ‖x.getD n 0‖ + (q.val ^ p : ℕ) * η) < (2 : ℝ) ^ f.emax) :
    (∀ work : List (IC f), work.length = q.val ^ p → ∃ (y : List ℂ) (work' : List (IC f)),
      stockhamDifG q (ieeeStock f (twiddleI f cos sin) (stockConstI f sin64) dir) p (x.map point) work
        = .ok (y.map point, work') ∧ y.length = q.val ^ p ∧ work'.length = q.val ^ p ∧
      ∀ i < q.val ^ p, ‖y.getD i 0 - fourier dir (q.val ^ p) x i‖
        ≤ 4 * p * (2 * q.sums + 70 * q.products) * f.u * (∑ n ∈ range (q.val ^ p), ‖x.getD n 0‖ + (q.val ^ p : ℕ) * η)) ∧
    ∀ work : List (SC f), work.length = q.val ^ p → ∃ (y : List ℂ) (work' : List (SC f)),
      stockhamDifG q (stdStock f (twiddleI f cos sin) (stockConstI f sin64) dir) p (x.map fun v => (point v).std) work
        = .ok (y.map fun v => (point v).std, work') ∧ y.length = q.val ^ p ∧ work'.length = q.val ^ p ∧
      ∀ i < q.val ^ p, ‖y.getD i 0 - fourier dir (q.val ^ p) x i‖
        ≤ 4 * p * (2 * q.sums + 70 * q.products) * f.u * (∑ n ∈ range (q.val ^ p), ‖x.getD n 0‖ + (q.val ^ p : ℕ) * η) := by
  have hu := u_pos f
  have hu64 := hw.u64
  have hS : 0 ≤ ∑ n ∈ range (q.val ^ p), ‖x.getD n 0‖ + (q.val ^ p : ℕ) * η := by
    have := minNormal_pos f
    have : 0 ≤ η := by linarith
    have : 0 ≤ ∑ n ∈ range (q.val ^ p), ‖x.getD n 0‖ := sum_nonneg fun _ _ => norm_nonneg _
    positivity
  have g := stock_growth f q p hpu
  have hq : 1 ≤ q.val := by cases q <;> decide
  have ht : ∀ e, 1 ≤ e → e ≤ p → TwFull (twiddleI f cos sin) (q.val ^ e) (46 * f.u) := fun e _ he => by
    refine (tables46 hw hc hs (Nat.one_le_pow _ _ hq) (le_trans ?_ hne)).1
    have : ((q.val ^ e : ℕ) : ℝ) ≤ ((q.val ^ p : ℕ) : ℝ) := by exact_mod_cast Nat.pow_le_pow_right hq he
    linarith
  have ho' : 2 * (stockGrowth f (46 * f.u) (6 * f.u) q ^ p *
      (∑ n ∈ range (q.val ^ p), ‖x.getD n 0‖ + (q.val ^ p : ℕ) * η)) < (2 : ℝ) ^ f.emax := by
    refine lt_of_le_of_lt ?_ ho
    have := mul_le_mul_of_nonneg_right (by linarith : stockGrowth f (46 * f.u) (6 * f.u) q ^ p ≤ 2) hS
    linarith
  have hk := C113_constants hw hs64
  constructor
  · intro work hwk
    obtain ⟨y, w, h1, h2, h3, h4⟩ := C110_fft hw.1 q hn (by linarith) ht hk (by linarith) dir x work hx hwk hη ho'
    exact ⟨y, w, h1, h2, h3, fun i hi => (h4 i hi).trans (mul_le_mul_of_nonneg_right (by linarith) hS)⟩
  · intro work hwk
    obtain ⟨y, w, h1, h2, h3, h4⟩ := C110_std hw.1 q hn (by linarith) ht hk (by linarith) dir x work hx hwk hη ho'
    exact ⟨y, w, h1, h2, h3, fun i hi => (h4 i hi).trans (mul_le_mul_of_nonneg_right (by linarith) hS)⟩

private theorem radix_growth (f : Fmt) {R : ℕ} (b : ℕ) (h : 2 * (51 * (R : ℝ) ^ b + 2 * (R + 51) * b) * f.u ≤ 1) :
    radixGrowth f (46 * f.u) R b ≤ 1 + 2 * (51 * (R : ℝ) ^ b + 2 * (R + 51) * b) * f.u := by
  have hu := u_pos f
  obtain ⟨t, ht⟩ : ∃ t : ℝ, t = (51 * (R : ℝ) ^ b + 2 * (R + 51) * b) * f.u := ⟨_, rfl⟩
  have ht0 : 0 ≤ t := by rw [ht]; positivity
  have e2 : 2 * (51 * (R : ℝ) ^ b + 2 * (R + 51) * b) * f.u = 2 * t := by rw [ht]; ring
  rw [e2] at h ⊢
  have c1 : ((R ^ b - 1 + 2 * b : ℕ) : ℝ) ≤ (R : ℝ) ^ b + 2 * b := by
    have : R ^ b - 1 + 2 * b ≤ R ^ b + 2 * b := by omega
    exact_mod_cast this
  have c2 : (((R - 1) * b : ℕ) : ℝ) ≤ R * b := by
    have : (R - 1) * b ≤ R * b := Nat.mul_le_mul_right _ (by omega)
    exact_mod_cast this
  have k1 : ((1 + 46 * f.u) * (1 + 5 * f.u)) ^ (R ^ b - 1 + 2 * b)
      ≤ Real.exp ((R ^ b - 1 + 2 * b : ℕ) * (46 * f.u + 5 * f.u)) := by
    rw [Real.exp_nat_mul, Real.exp_add]
    have a1 := le_exp (46 * f.u)
    have a3 := le_exp (5 * f.u)
    gcongr
  have k2 : (1 + 2 * f.u) ^ ((R - 1) * b) ≤ Real.exp (((R - 1) * b : ℕ) * (2 * f.u)) := by
    rw [Real.exp_nat_mul]
    have a1 := le_exp (2 * f.u)
    gcongr
  unfold radixGrowth
  refine (mul_le_mul k1 k2 (by positivity) (by positivity)).trans ?_
  rw [← Real.exp_add]
  refine le_trans (Real.exp_le_exp.2 ?_) (exp_le ht0 (by linarith))
  have d1 := mul_le_mul_of_nonneg_right c1 (by linarith : 0 ≤ 46 * f.u + 5 * f.u)
  have d2 := mul_le_mul_of_nonneg_right c2 (by linarith : 0 ≤ 2 * f.u)
  have hb0 : (0 : ℝ) ≤ b * f.u := by positivity
  rw [ht]
  nlinarith

/-- **C113** (radix 3 and 5 in place, end to end).  With the twiddles the code computes, powers of them by repeated products:
if the error bound `2 (51 R^b + 2 (R + 51) b) u` is at most one and `2 S` stays below the overflow threshold, the results are
finite and within that bound times `S` of the transform.  For both complex types. -/
theorem C113_in_place (hw : TwiddleFmt f) {cos sin : FVal → FVal} (hc : CosOk f cos f.u) (hs : SinOk f sin f.u) (q : OddRadix)
    {b : ℕ} (hb : b ≤ oddMaxOrder q) (hne : 16 * ((q.val ^ b : ℕ) : ℝ) ≤ (2 : ℝ) ^ f.emax)
    (hbu : 2 * (51 * (q.val : ℝ) ^ b + 2 * (q.val + 51) * b) * f.u ≤ 1) (dir : Direction) (x : List ℂ)
    (hx : x.length = q.val ^ b) {η : ℝ} (hη : f.minNormal ≤ η)
    (ho : 2 * (∑ n ∈ range (q.val ^ b), ‖x.getD n 0‖ + (q.val ^ b : ℕ) * η) < (2 : ℝ) ^ f.emax) :
    (∃ y : List ℂ, q.run (twiddleI f cos sin) ⟨.fin 1, .fin 0⟩ b (x.map point) dir = .ok (y.map point) ∧
      y.length = q.val ^ b ∧ ∀ i < q.val ^ b, ‖y.getD i 0 - fourier dir (q.val ^ b) x i‖
        ≤ 2 * (51 * (q.val : ℝ) ^ b + 2 * (q.val + 51) * b) * f.u *
          (∑ n ∈ range (q.val ^ b), ‖x.getD n 0‖ + (q.val ^ b : ℕ) * η)) ∧
    ∃ y : List ℂ, q.run (fun N k d => (twiddleI f cos sin N k d).std) ⟨.fin 1, .fin 0⟩ b (x.map fun v => (point v).std) dir
        = .ok (y.map fun v => (point v).std) ∧ y.length = q.val ^ b ∧
      ∀ i < q.val ^ b, ‖y.getD i 0 - fourier dir (q.val ^ b) x i‖
        ≤ 2 * (51 * (q.val : ℝ) ^ b + 2 * (q.val + 51) * b) * f.u *
          (∑ n ∈ range (q.val ^ b), ‖x.getD n 0‖ + (q.val ^ b : ℕ) * η) := by
  have hu := u_pos f
  have h8 := eight_le_emax hw.1
  have hS : 0 ≤ ∑ n ∈ range (q.val ^ b), ‖x.getD n 0‖ + (q.val ^ b : ℕ) * η := by
    have := minNormal_pos f
    have : 0 ≤ η := by linarith
    have : 0 ≤ ∑ n ∈ range (q.val ^ b), ‖x.getD n 0‖ := sum_nonneg fun _ _ => norm_nonneg _
    positivity
  have g := radix_growth f b hbu
  have hq : 1 ≤ q.val := by cases q <;> decide
  have ht : ∀ e, 1 ≤ e → e ≤ b → TwFull (twiddleI f cos sin) (q.val ^ e) (46 * f.u) := fun e _ he => by
    refine (tables46 hw hc hs (Nat.one_le_pow _ _ hq) (le_trans ?_ hne)).1
    have : ((q.val ^ e : ℕ) : ℝ) ≤ ((q.val ^ b : ℕ) : ℝ) := by exact_mod_cast Nat.pow_le_pow_right hq he
    linarith
  have hG : radixGrowth f (46 * f.u) q.val b < (2 : ℝ) ^ f.emax := by linarith
  have ho' := lt_of_le_of_lt
    (mul_le_mul_of_nonneg_right (by linarith : radixGrowth f (46 * f.u) q.val b ≤ 2) hS) ho
  obtain ⟨y, h1, h2, h3⟩ := C112_fft hw.1 q hb (by linarith) ht dir x hx hη hG ho'
  obtain ⟨z, k1, k2, k3⟩ := C112_std hw.1 q hb (by linarith) ht dir x hx hη hG ho'
  exact ⟨⟨y, h1, h2, fun i hi => (h3 i hi).trans (mul_le_mul_of_nonneg_right (by linarith) hS)⟩,
    ⟨z, k1, k2, fun i hi => (k3 i hi).trans (mul_le_mul_of_nonneg_right (by linarith) hS)⟩⟩

/-- Single precision, a million points whose magnitudes add up to at most one: every result of every kernel is within `1.3e-4`
of the transform. -/
example (k : Kernel) (dir : Direction) (x : List ℂ) (hx : x.length = 2 ^ 20)
    (h1 : ∑ n ∈ range (2 ^ 20), ‖x.getD n 0‖ ≤ 1) :
    ∃ (p : _) (y : List ℂ),
      Dit2Plan.makeG (ieeeArith binary32 (twiddleI binary32 (cosR binary32) (sinR binary32))) 20 = .ok p ∧
      p.callWith k.runG (x.map point) dir = .ok (y.map point) ∧ y.length = 2 ^ 20 ∧
      ∀ i < 2 ^ 20, ‖y.getD i 0 - fourier dir (2 ^ 20) x i‖ ≤ 1.3e-4 := by
  have hf : binary32.Ieee := by unfold Fmt.Ieee binary32; norm_num
  have hu : binary32.u = 1 / 16777216 := by
    show (2 : ℝ) ^ (-((24 : ℕ) : ℤ)) = _
    norm_num
  have hν : binary32.minNormal ≤ 1 / 2 ^ 100 := by
    show (2 : ℝ) ^ ((-149 : ℤ) + ((24 : ℕ) : ℤ) - 1) ≤ _
    norm_num
  have hm : (16 : ℝ) ≤ (2 : ℝ) ^ binary32.emax := by
    have : (2 : ℝ) ^ (4 : ℤ) ≤ (2 : ℝ) ^ binary32.emax := zpow_le_zpow_right₀ (by norm_num) (by norm_num [binary32])
    norm_num at this ⊢
    exact this
  have hS : ∑ n ∈ range (2 ^ 20), ‖x.getD n 0‖ + 2 ^ 20 * (1 / 2 ^ 100) ≤ 1.0001 := by
    have : (2 : ℝ) ^ 20 * (1 / 2 ^ 100) ≤ 0.0001 := by norm_num
    exact (add_le_add h1 this).trans (by norm_num)
  obtain ⟨p, y, a1, a2, a3, a4⟩ := C113_radix2 ⟨hf, by norm_num [binary32], by norm_num [binary32]⟩ (cosR_ok hf) (sinR_ok hf)
    (b := 20) (by norm_num) (by norm_num) (by norm_num [binary32]) (by rw [hu]; norm_num) k (fun _ => by norm_num) dir x hx hν
    (by linarith)
  refine ⟨p, y, a1, a2, a3, fun i hi => (a4 i hi).trans ?_⟩
  rw [hu]
  refine (mul_le_mul_of_nonneg_left hS (by norm_num)).trans ?_
  norm_num

/-- Double precision: the constants of the theorems about the other plans, for `5^9` and `3^9` points. -/
example : 4 * (9 : ℕ) * (2 * (StockRadix.five.sums : ℝ) + 70 * StockRadix.five.products) * binary64.u ≤ 1e-11 ∧
    2 * (51 * ((OddRadix.three.val : ℕ) : ℝ) ^ 9 + 2 * (OddRadix.three.val + 51) * (9 : ℕ)) * binary64.u ≤ 1e-9 := by
  rw [u_binary64]
  norm_num [StockRadix.sums, StockRadix.products, OddRadix.val]

example : (stockConstI binary32 (sinR binary64)).Accurate (6 * binary32.u) :=
  C113_constants ⟨by unfold Fmt.Ieee binary32; norm_num, by norm_num [binary32], by norm_num [binary32]⟩ (sinR_ok binary64_ieee)

end Neo.Props
