import Verif.Lemmas.Rounding
import Verif.Props.Fft
import Mathlib.Analysis.Complex.ExponentialBounds
import Mathlib.Analysis.Real.Pi.Bounds
import Mathlib.Data.Int.Log

/-! # C64: rounding errors of the default FFT plan -/

namespace Neo.Props

open Neo Finset

/-- Elements of a buffer as complex numbers. -/
noncomputable def vals {F : Rounding} (x : List (FC F)) (n : ℕ) : ℂ := (x.map FC.val).getD n 0

private theorem vals_vec {F : Rounding} {N : ℕ} (f : ℕ → FC F) {n : ℕ} (hn : n < N) :
    vals (vec N f) n = (f n).val := by
  unfold vals
  rw [map_vec, getD_vec _ _ _ _ hn]

/-- The selectable kernels of `c2c_dit2_plan` in rounded arithmetic. -/
noncomputable def Kernel.runF (F : Rounding) : Kernel → List (FC F) → List (FC F) → Res (List (FC F))
  | .v1 => dit2V1
  | .v2 => dit2V2
  | .v3 => dit2V3
  | .v4 => dit2V4

private theorem kernel_runs (F : Rounding) {b : ℕ} (hb : 1 ≤ b) (k : Kernel) (hk : k = .v4 → 2 ≤ b) :
    KernelRuns F b (k.runF F) := by
  intro w f
  cases k
  · exact dit2V1_run hb w f
  · exact dit2V2_run FC.mul_comm' hb w f
  · exact dit2V3_run hb w f
  · exact dit2V4_run (hk rfl) w f

private theorem exists_vec {α : Type} [Inhabited α] {N : ℕ} {x : List α} (hx : x.length = N) :
    ∃ f, x = vec N f := ⟨_, list_eq_vec default hx⟩

noncomputable instance {F : Rounding} : Inhabited (FC F) := ⟨⟨0, 0⟩⟩

private theorem call_err (F : Rounding) {order : ℕ} (h1 : 1 ≤ order) {kernel} (hk : KernelRuns F order kernel)
    (dir : Direction) (x : List (FC F)) (hx : x.length = 2 ^ order) :
    ∃ y, (dit2PlanFOf F order).callWith kernel x dir = .ok y ∧ y.length = 2 ^ order ∧
      Spec.l2 (2 ^ order) (fun k => vals y k - specDft dir (2 ^ order) (vals x) k)
        ≤ (Spec.fftGain F.u F.ε order - 1) * Spec.l2 (2 ^ order) (specDft dir (2 ^ order) (vals x)) := by
  obtain ⟨f, rfl⟩ := exists_vec hx
  obtain ⟨y, e, h⟩ := fftF_call h1 hk f dir
  refine ⟨_, e, length_vec _ _, ?_⟩
  rw [l2_specDft h1, l2_congr (g := fun n => (f n).val) (fun n hn => vals_vec f hn)]
  refine le_trans (le_of_eq (l2_congr (fun k hk' => ?_))) h
  rw [vals_vec y hk', ← dftRoot_dir, ← dftRoot_dir]
  congr 1
  exact sum_congr rfl (fun n hn => by rw [vals_vec f (mem_range.1 hn)])

/-- **C64**: in rounded arithmetic (unit roundoff `u`, `cos`/`sin` accurate to `ε`) every kernel computes the
transform of every input, in both directions, with a relative error of at most `(1 + g)^order - 1` in the Euclidean
norm, where `g = Spec.stageGain`. -/
theorem C64_every_kernel (F : Rounding) (order : ℕ) (h1 : 1 ≤ order) (h2 : order ≤ 27) (k : Kernel)
    (hk : k = .v4 → 2 ≤ order) :
    ∃ p, Dit2Plan.makeF F order = .ok p ∧ ∀ x : List (FC F), x.length = 2 ^ order →
      (∃ y, p.callWith (k.runF F) x .forward = .ok y ∧ y.length = 2 ^ order ∧
        Spec.l2 (2 ^ order) (fun k => vals y k - Spec.dft (2 ^ order) (vals x) k)
          ≤ (Spec.fftGain F.u F.ε order - 1) * Spec.l2 (2 ^ order) (Spec.dft (2 ^ order) (vals x))) ∧
      (∃ y, p.callWith (k.runF F) x .backward = .ok y ∧ y.length = 2 ^ order ∧
        Spec.l2 (2 ^ order) (fun k => vals y k - Spec.idft (2 ^ order) (vals x) k)
          ≤ (Spec.fftGain F.u F.ε order - 1) * Spec.l2 (2 ^ order) (Spec.idft (2 ^ order) (vals x))) := by
  refine ⟨_, dit2Plan_makeF_eq F h2, fun x hx => ⟨?_, ?_⟩⟩
  · exact call_err F h1 (kernel_runs F h1 k hk) .forward x hx
  · exact call_err F h1 (kernel_runs F h1 k hk) .backward x hx

/-- **C64**, round trip: `ifft ∘ fft` is multiplication by `N` up to a relative error of
`(1 + g)^(2 order) - 1`. -/
theorem C64_roundtrip (F : Rounding) (order : ℕ) (h1 : 1 ≤ order) (h2 : order ≤ 27) :
    ∃ p, Dit2Plan.makeF F order = .ok p ∧ ∀ x : List (FC F), x.length = 2 ^ order →
      ∃ y z, fft p x = .ok y ∧ ifft p y = .ok z ∧ z.length = 2 ^ order ∧
        Spec.l2 (2 ^ order) (fun n => vals z n - 2 ^ order * vals x n)
          ≤ (Spec.fftGain F.u F.ε order ^ 2 - 1) * (2 ^ order * Spec.l2 (2 ^ order) (vals x)) := by
  refine ⟨_, dit2Plan_makeF_eq F h2, fun x hx => ?_⟩
  have hk := kernel_runs F h1 .v3 (by intro h; cases h)
  obtain ⟨y, e1, hy, k1⟩ := call_err F h1 hk .forward x hx
  obtain ⟨z, e2, hz, k2⟩ := call_err F h1 hk .backward y hy
  refine ⟨y, z, e1, e2, hz, ?_⟩
  have hc := one_le_fftGain F order
  set c := Spec.fftGain F.u F.ε order with hcdef
  set N := 2 ^ order with hN
  set X := specDft .forward N (vals x) with hX
  rw [l2_specDft h1] at k1 k2
  have hx0 := l2_nonneg N (vals x)
  have hr : Real.sqrt 2 ^ order * Real.sqrt 2 ^ order = 2 ^ order := by
    rw [← mul_pow, Real.mul_self_sqrt (by norm_num)]
  have hr0 : 0 ≤ Real.sqrt 2 ^ order := by positivity
  set r := Real.sqrt 2 ^ order
  set xn := Spec.l2 N (vals x)
  have hyn : Spec.l2 N (vals y) ≤ c * (r * xn) := by
    rw [l2_congr (g := fun k => (vals y k - X k) + X k) (fun k _ => by ring)]
    refine (l2_add_le _ _ _).trans ?_
    rw [hX, l2_specDft h1]
    linarith
  have h3 : Spec.l2 N (fun n => specDft .backward N (vals y) n - 2 ^ order * vals x n)
      ≤ r * ((c - 1) * (r * xn)) := by
    rw [l2_congr (g := specDft .backward N (fun k => vals y k - X k))]
    · rw [l2_specDft h1]
      exact mul_le_mul_of_nonneg_left k1 hr0
    · intro n hn
      have hinv : Spec.idft N X n = (N : ℂ) * vals x n := idft_dft _ hn
      have e : (2 : ℂ) ^ order = (N : ℂ) := by rw [hN]; push_cast; rfl
      rw [e, ← hinv, ← dftRoot_dir, ← dftRoot_dir, ← dftRoot_backward]
      unfold Spec.dftRoot
      rw [← sum_sub_distrib]
      exact sum_congr rfl (fun m _ => by ring)
  refine (l2_sub_le _ _ (specDft .backward N (vals y)) _).trans ?_
  have h4 : (c - 1) * (r * Spec.l2 N (vals y)) ≤ (c - 1) * (r * (c * (r * xn))) := by
    have : 0 ≤ c - 1 := by linarith
    gcongr
  calc _ ≤ (c - 1) * (r * (c * (r * xn))) + r * ((c - 1) * (r * xn)) := add_le_add (k2.trans h4) h3
    _ = (c ^ 2 - 1) * (r * r * xn) := by ring
    _ = _ := by rw [hr]

/-- For a format at least as precise as 20 bits and a library accurate to two units the stage error is below `30 u`. -/
private theorem stageGain_le {u ε : ℝ} (h0 : 0 ≤ u) (h1 : u ≤ 2⁻¹ ^ 20) (hε0 : 0 ≤ ε) (hε : ε ≤ 2 * u) :
    Spec.stageGain u (Spec.twiddleErr u ε) ≤ 30 * u := by
  have hu6 : u ≤ 0.000001 := h1.trans (by norm_num)
  have s2 : Real.sqrt 2 ≤ 1.4143 := Real.sqrt_le_iff.2 ⟨by norm_num, by norm_num⟩
  have s20 := Real.sqrt_nonneg 2
  have hpi := Real.pi_lt_d4
  have hpi0 := Real.pi_pos
  have hA : (1 + u) ^ 5 * (1 - u)⁻¹ - 1 ≤ 6.01 * u := by
    rw [← div_eq_mul_inv, sub_le_iff_le_add, div_le_iff₀ (by linarith)]
    have q2 : u ^ 2 ≤ 0.000001 * u := by nlinarith
    have q3 : u ^ 3 ≤ 0.000001 * u := by nlinarith [sq_nonneg u]
    have q4 : u ^ 4 ≤ 0.000001 * u := by nlinarith [sq_nonneg u, pow_nonneg h0 3]
    have q5 : u ^ 5 ≤ 0.000001 * u := by nlinarith [sq_nonneg u, pow_nonneg h0 4]
    calc (1 + u) ^ 5 = 1 + 5 * u + 10 * u ^ 2 + 10 * u ^ 3 + 5 * u ^ 4 + u ^ 5 := by ring
      _ ≤ 1 + 5.01 * u - 6.01 * u ^ 2 := by linarith
      _ = _ := by ring
  have hA0 : 0 ≤ 6.01 * u := by linarith
  have hτ : Spec.twiddleErr u ε ≤ 24 * u := by
    unfold Spec.twiddleErr
    have k1 : Real.pi * ((1 + u) ^ 5 * (1 - u)⁻¹ - 1) ≤ 3.1416 * (6.01 * u) :=
      (mul_le_mul_of_nonneg_left hA hpi0.le).trans (mul_le_mul_of_nonneg_right hpi.le hA0)
    have k2 : ε + u * (1 + ε) ≤ 3.001 * u := by nlinarith
    have k3 : Real.sqrt 2 * (ε + u * (1 + ε)) ≤ 1.4143 * (3.001 * u) :=
      (mul_le_mul_of_nonneg_left k2 s20).trans (mul_le_mul_of_nonneg_right s2 (by linarith))
    linarith
  set τ := Spec.twiddleErr u ε
  unfold Spec.stageGain
  have k4 : Real.sqrt 2 * (2 * u + u ^ 2) ≤ 1.4143 * (2.001 * u) := by
    have : 2 * u + u ^ 2 ≤ 2.001 * u := by nlinarith
    exact (mul_le_mul_of_nonneg_left this s20).trans (mul_le_mul_of_nonneg_right s2 (by linarith))
  have k5 : Real.sqrt 2 * (2 * u + u ^ 2) * (1 + τ) ≤ 1.4143 * (2.001 * u) * 1.001 := by
    have a : 1 + τ ≤ 1.001 := by linarith
    have b : 0 ≤ Real.sqrt 2 * (2 * u + u ^ 2) := by positivity
    exact (mul_le_mul_of_nonneg_left a b).trans (mul_le_mul_of_nonneg_right k4 (by norm_num))
  have k6 : Real.sqrt 2 * (2 * u + u ^ 2) * (1 + τ) + τ ≤ 27 * u := by linarith
  have k7 : (1 + u) * (Real.sqrt 2 * (2 * u + u ^ 2) * (1 + τ) + τ) ≤ (1 + u) * (27 * u) :=
    mul_le_mul_of_nonneg_left k6 (by linarith)
  nlinarith

/-- Explicit bound on the error of a transform. -/
theorem fftGain_le (F : Rounding) (hu : F.u ≤ 2⁻¹ ^ 20) (hε : F.ε ≤ 2 * F.u) {order : ℕ} (h2 : order ≤ 27) :
    Spec.fftGain F.u F.ε order - 1 ≤ 32 * order * F.u := by
  have hε0 : 0 ≤ F.ε := (abs_nonneg _).trans (F.cos_err 0)
  have hu0 := F.u_nonneg
  unfold Spec.fftGain
  have hs := stageGain_le hu0 hu hε0 hε
  have hs0 := stageGain_nonneg hu0 (twiddleErr_nonneg F)
  set g := Spec.stageGain F.u (Spec.twiddleErr F.u F.ε)
  have hu6 : F.u ≤ 0.000001 := hu.trans (by norm_num)
  have hn : (order : ℝ) ≤ 27 := by exact_mod_cast h2
  have hn0 : (0 : ℝ) ≤ order := Nat.cast_nonneg _
  have ht : order * g ≤ order * (30 * F.u) := mul_le_mul_of_nonneg_left hs hn0
  have ht2 : order * (30 * F.u) ≤ 0.001 := by nlinarith
  have ht0 : 0 ≤ order * g := by positivity
  have k1 : (1 + g) ^ order ≤ Real.exp (order * g) := by
    rw [Real.exp_nat_mul]
    exact pow_le_pow_left₀ (by linarith) (by linarith [Real.add_one_le_exp g]) _
  have k2 := (abs_le.1 (Real.abs_exp_sub_one_sub_id_le (x := order * g)
    (by rw [abs_of_nonneg ht0]; linarith))).2
  nlinarith

/-- **C64**, explicit constant: if the unit roundoff is at most `2^-20` (`float`: `2^-24`, `double`: `2^-53`) and
`cos`/`sin` are accurate to `2u`, the relative error of `fft` and `ifft` is at most `32 · order · u`. -/
theorem C64_fft_error (F : Rounding) (hu : F.u ≤ 2⁻¹ ^ 20) (hε : F.ε ≤ 2 * F.u) (order : ℕ) (h1 : 1 ≤ order)
    (h2 : order ≤ 27) :
    ∃ p, Dit2Plan.makeF F order = .ok p ∧ ∀ x : List (FC F), x.length = 2 ^ order →
      (∃ y, fft p x = .ok y ∧ y.length = 2 ^ order ∧
        Spec.l2 (2 ^ order) (fun k => vals y k - Spec.dft (2 ^ order) (vals x) k)
          ≤ 32 * order * F.u * Spec.l2 (2 ^ order) (Spec.dft (2 ^ order) (vals x))) ∧
      (∃ y, ifft p x = .ok y ∧ y.length = 2 ^ order ∧
        Spec.l2 (2 ^ order) (fun k => vals y k - Spec.idft (2 ^ order) (vals x) k)
          ≤ 32 * order * F.u * Spec.l2 (2 ^ order) (Spec.idft (2 ^ order) (vals x))) := by
  have hg := fftGain_le F hu hε h2
  obtain ⟨p, hp, h⟩ := C64_every_kernel F order h1 h2 .v3 (by intro h; cases h)
  refine ⟨p, hp, fun x hx => ?_⟩
  obtain ⟨⟨y, a1, a2, a3⟩, ⟨z, b1, b2, b3⟩⟩ := h x hx
  exact ⟨⟨y, a1, a2, a3.trans (mul_le_mul_of_nonneg_right hg (l2_nonneg _ _))⟩,
    ⟨z, b1, b2, b3.trans (mul_le_mul_of_nonneg_right hg (l2_nonneg _ _))⟩⟩

/-! ### A concrete format: 24-bit significand, round to nearest, unbounded exponent -/

/-- Distance of the representable numbers around `x`. -/
noncomputable def ulp24 (x : ℝ) : ℝ := 2 ^ (Int.log 2 |x| - 23)

/-- Round to the nearest number with a 24-bit significand. -/
noncomputable def round24 (x : ℝ) : ℝ := if x = 0 then 0 else round (x / ulp24 x) * ulp24 x

theorem round24_err (x : ℝ) : |round24 x - x| ≤ 2⁻¹ ^ 24 * |x| := by
  unfold round24
  by_cases h : x = 0
  · simp [h]
  · rw [if_neg h]
    have hu : 0 < ulp24 x := by unfold ulp24; positivity
    have h1 : |(round (x / ulp24 x) : ℝ) * ulp24 x - x| = |x / ulp24 x - round (x / ulp24 x)| * ulp24 x := by
      rw [abs_sub_comm, ← abs_of_pos hu, ← abs_mul, abs_of_pos hu, sub_mul, div_mul_cancel₀ _ hu.ne']
    rw [h1]
    have h2 := abs_sub_round (x / ulp24 x)
    have h3 : ulp24 x ≤ 2⁻¹ ^ 23 * |x| := by
      unfold ulp24
      have := Int.zpow_log_le_self (b := 2) (R := ℝ) (by norm_num) (abs_pos.2 h)
      rw [zpow_sub₀ (by norm_num), div_eq_mul_inv, mul_comm]
      push_cast at this
      have e : ((2 : ℝ) ^ (23 : ℤ))⁻¹ = 2⁻¹ ^ 23 := by norm_num
      rw [e]
      gcongr
    calc _ ≤ 1 / 2 * ulp24 x := mul_le_mul_of_nonneg_right h2 hu.le
      _ ≤ 1 / 2 * (2⁻¹ ^ 23 * |x|) := by gcongr
      _ = _ := by ring

/-- `float` without overflow and underflow, with correctly rounded library functions. -/
noncomputable def binary32 : Rounding where
  rnd := round24
  u := 2⁻¹ ^ 24
  u_nonneg := by positivity
  u_lt_one := by norm_num
  rnd_err := round24_err
  twoPi := round24 (2 * Real.pi)
  twoPi_err := by
    have := round24_err (2 * Real.pi)
    rwa [abs_of_pos (show 0 < 2 * Real.pi by have := Real.pi_pos; positivity)] at this
  cos := fun x => round24 (Real.cos x)
  sin := fun x => round24 (Real.sin x)
  ε := 2⁻¹ ^ 24
  cos_err := fun x => (round24_err _).trans (by
    have := Real.abs_cos_le_one x
    have h : (0 : ℝ) ≤ 2⁻¹ ^ 24 := by positivity
    nlinarith)
  sin_err := fun x => (round24_err _).trans (by
    have := Real.abs_sin_le_one x
    have h : (0 : ℝ) ≤ 2⁻¹ ^ 24 := by positivity
    nlinarith)

/-- The rounding of this format is not the identity: `1 + 2^-24` is not representable. -/
theorem round24_not_exact : round24 (1 + 2⁻¹ ^ 24) ≠ 1 + 2⁻¹ ^ 24 := by
  unfold round24 ulp24
  have hlog : Int.log 2 |(1 + 2⁻¹ ^ 24 : ℝ)| = 0 := by
    rw [abs_of_pos (by positivity), Int.log_of_one_le_right 2 (by norm_num)]
    rw [show ⌊(1 + 2⁻¹ ^ 24 : ℝ)⌋₊ = 1 from by
      rw [Nat.floor_eq_iff (by positivity)]; constructor <;> norm_num]
    rfl
  rw [if_neg (by positivity), hlog]
  intro h
  have h2 : (round ((1 + 2⁻¹ ^ 24 : ℝ) / 2 ^ ((0 : ℤ) - 23)) : ℝ) * 2 = 2 ^ 24 + 1 := by
    have e : ((2 : ℝ) ^ ((0 : ℤ) - 23)) = 2⁻¹ ^ 23 := by norm_num
    rw [e] at h ⊢
    generalize round ((1 + 2⁻¹ ^ 24 : ℝ) / 2⁻¹ ^ 23) = r at *
    have : (r : ℝ) * 2⁻¹ ^ 23 * 2 ^ 24 = (1 + 2⁻¹ ^ 24) * 2 ^ 24 := by rw [h]
    norm_num at this ⊢
    linarith
  have h3 : round ((1 + 2⁻¹ ^ 24 : ℝ) / 2 ^ ((0 : ℤ) - 23)) * 2 = 2 ^ 24 + 1 := by exact_mod_cast h2
  omega

/-- A length-1024 transform in that format: relative error below `320 · 2^-24 < 0.00002`. -/
example : ∃ p, Dit2Plan.makeF binary32 10 = .ok p ∧ ∀ x : List (FC binary32), x.length = 2 ^ 10 →
    ∃ y, fft p x = .ok y ∧ Spec.l2 (2 ^ 10) (fun k => vals y k - Spec.dft (2 ^ 10) (vals x) k)
      ≤ 0.00002 * Spec.l2 (2 ^ 10) (Spec.dft (2 ^ 10) (vals x)) := by
  obtain ⟨p, hp, h⟩ := C64_fft_error binary32 (by show (2⁻¹ : ℝ) ^ 24 ≤ _; norm_num)
    (by show (2⁻¹ : ℝ) ^ 24 ≤ 2 * 2⁻¹ ^ 24; norm_num) 10 (by norm_num) (by norm_num)
  refine ⟨p, hp, fun x hx => ?_⟩
  obtain ⟨y, e, -, hy⟩ := (h x hx).1
  refine ⟨y, e, hy.trans (mul_le_mul_of_nonneg_right ?_ (l2_nonneg _ _))⟩
  show 32 * ((10 : ℕ) : ℝ) * (2⁻¹ : ℝ) ^ 24 ≤ _
  norm_num

end Neo.Props
