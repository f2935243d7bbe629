import Verif.Lemmas.ConvRounding
import Verif.Props.DirectRounding

/-! # C72: rounding errors of `rfft`, `irfft` and `fft_convolve` -/

namespace Neo.Props

open Neo Finset

/-- Euclidean norm of the first `n` elements of a real buffer. -/
noncomputable def normR {F : Rounding} (n : ℕ) (x : List (FR F)) : ℝ := Spec.l2 n (fun i => (valsR x i : ℂ))

private theorem valsR_vec {F : Rounding} {N : ℕ} (f : ℕ → FR F) {n : ℕ} (hn : n < N) :
    valsR (vec N f) n = (f n).val := by
  unfold valsR
  rw [map_vec, getD_vec _ _ _ _ hn]

private theorem valsR_vec_zext {F : Rounding} {N : ℕ} (f : ℕ → FR F) (n : ℕ) :
    valsR (vec N f) n = (zext N f n).val := by
  by_cases h : n < N
  · rw [valsR_vec f h, zext_of_lt _ h]
  · rw [zext_zero _ (by omega)]
    unfold valsR
    rw [List.getD_eq_getElem?_getD, List.getElem?_eq_none (by simp; omega)]
    rfl

private theorem l2_zext {F : Rounding} {n N : ℕ} (h : n ≤ N) (x : ℕ → FR F) :
    Spec.l2 N (fun i => ((zext n x i).val : ℂ)) = normR n (vec n x) := by
  unfold normR Spec.l2
  congr 1
  rw [← sum_subset (range_subset_range.2 h) (fun i _ hi => by
    rw [mem_range] at hi
    beta_reduce
    rw [zext_zero _ (by omega), show (0 : FR F).val = 0 from rfl]; simp)]
  exact sum_congr rfl fun i _ => by beta_reduce; rw [valsR_vec_zext]

/-- **C72**: `fft_convolve` in rounded arithmetic.  For two inputs of at least two samples whose convolution has at
most `2^27` samples it produces `n + l - 1` samples whose distance to the exact convolution of the inputs is at most
`Spec.spectralGain · √(2^b) · ‖x‖₂ ‖y‖₂` in the Euclidean norm, `2^b` being the transform size. -/
theorem C72_fft_convolve (F : Rounding) (x y : List (FR F)) (hx : 2 ≤ x.length) (hy : 2 ≤ y.length)
    (hs : x.length + y.length - 1 ≤ 2 ^ 27) :
    ∃ out, fftConvolveF x y = .ok out ∧ out.length = x.length + y.length - 1 ∧
      Spec.l2 (x.length + y.length - 1) (fun k => ((valsR out k - Spec.conv (valsR x) (valsR y) k : ℝ) : ℂ))
        ≤ Spec.spectralGain F.u F.ε (Nat.clog 2 (x.length + y.length - 1)) (1 + Real.sqrt 2 * (2 * F.u + F.u ^ 2))
          * (Real.sqrt (2 ^ Nat.clog 2 (x.length + y.length - 1)) * (normR x.length x * normR y.length y)) := by
  generalize hn : x.length = n at *
  generalize hl : y.length = l at *
  rw [list_eq_vec (0 : FR F) hn, list_eq_vec (0 : FR F) hl]
  generalize (fun i => x.getD i 0) = f
  generalize (fun i => y.getD i 0) = h
  set b := Nat.clog 2 (n + l - 1) with hb
  have hb1 : 1 ≤ b := Nat.clog_pos (by norm_num) (by omega)
  have hb27 : b ≤ 27 := Nat.clog_le_of_le_pow hs
  have hK : n + l - 1 ≤ 2 ^ b := Nat.le_pow_clog (by norm_num) _
  obtain ⟨f', tmp', ss', ps', z, e, k⟩ := fftConvolverF_call (F := F) (by omega : 1 ≤ n) (by omega : 1 ≤ l) hb1 hK
    (fun _ => 0) (fun _ => 0) (fun _ => 0) (fun _ => 0) f h (fun _ => 0)
  refine ⟨vec (n + l - 1) z, ?_, length_vec _ _, ?_⟩
  · unfold fftConvolveF
    simp only [length_vec]
    rw [if_neg (by omega), fftConvolverF_make_eq (by omega) (by omega) hb27, bind_ok]
    unfold outputSizeFull
    rw [e, bind_ok]
    rfl
  · rw [l2_zext (by omega), l2_zext (by omega)] at k
    have e2 : Real.sqrt (2 ^ b) = Real.sqrt 2 ^ b := by
      rw [Real.sqrt_eq_iff_mul_self_eq (by positivity) (by positivity), ← mul_pow, Real.mul_self_sqrt (by norm_num)]
    rw [e2]
    refine le_trans (le_of_eq (l2_congr fun i hi => ?_)) k
    rw [valsR_vec z hi, show valsR (vec n f) = fun i => (zext n f i).val from funext fun i => valsR_vec_zext f i,
      show valsR (vec l h) = fun i => (zext l h i).val from funext fun i => valsR_vec_zext h i, Complex.ofReal_sub]

theorem spectralGain_le (F : Rounding) (hu : F.u ≤ 2⁻¹ ^ 20) (hε : F.ε ≤ 2 * F.u) {b : ℕ} (h1 : 1 ≤ b)
    (h2 : b ≤ 27) {Q m : ℝ} (hQ1 : 1 ≤ Q) (hQ : Q - 1 ≤ m * F.u) (hm : 0 ≤ m) (hm2 : m * F.u ≤ 0.01) :
    Spec.spectralGain F.u F.ε b Q ≤ (130 * b + 2 * m) * F.u := by
  have hu0 := F.u_nonneg
  have hu6 : F.u ≤ 0.000001 := hu.trans (by norm_num)
  have hg := fftGain_le F hu hε h2
  have hg1 := one_le_fftGain F b
  have hS1 := one_le_scaleGain F
  have s2 : Real.sqrt 2 ≤ 1.4143 := Real.sqrt_le_iff.2 ⟨by norm_num, by norm_num⟩
  have s20 := Real.sqrt_nonneg 2
  have hb : (1 : ℝ) ≤ b := by exact_mod_cast h1
  have hb27 : (b : ℝ) ≤ 27 := by exact_mod_cast h2
  have hS : Spec.scaleGain F.u - 1 ≤ 3.01 * F.u := by
    unfold Spec.scaleGain
    rw [← div_eq_mul_inv, sub_le_iff_le_add, div_le_iff₀ (by linarith)]
    nlinarith
  unfold Spec.spectralGain
  set g := Spec.fftGain F.u F.ε b
  set S := Spec.scaleGain F.u
  set u := F.u
  set t := 32 * (b : ℝ) * u with ht
  have ht0 : 0 ≤ t := by positivity
  have htu : 32 * u ≤ t := by nlinarith
  have ht1 : t ≤ 0.001 := by nlinarith
  have hq0 : 0 ≤ m * u := by positivity
  set q := m * u with hq
  have a1 : g ^ 2 ≤ 1 + 2.001 * t := by
    have : g ≤ 1 + t := by linarith
    nlinarith
  have a2 : g ^ 2 * Q - 1 ≤ 2.001 * t + 1.003 * q := by
    have : g ^ 2 * Q ≤ (1 + 2.001 * t) * (1 + q) := mul_le_mul a1 (by linarith) (by linarith) (by linarith)
    nlinarith
  have a20 : 0 ≤ g ^ 2 * Q - 1 := by nlinarith
  have a3 : Real.sqrt 2 * (g ^ 2 * Q - 1) ≤ 2.831 * t + 1.42 * q := by
    have : Real.sqrt 2 * (g ^ 2 * Q - 1) ≤ 1.4143 * (2.001 * t + 1.003 * q) :=
      mul_le_mul s2 a2 a20 (by norm_num)
    linarith
  have a4 : S * g ≤ 1 + (3.02 * u + 1.001 * t) := by
    have : S * g ≤ (1 + 3.01 * u) * (1 + t) := mul_le_mul (by linarith) (by linarith) (by linarith) (by linarith)
    nlinarith
  have a5 : S * g * (1 + Real.sqrt 2 * (g ^ 2 * Q - 1))
      ≤ (1 + (3.02 * u + 1.001 * t)) * (1 + (2.831 * t + 1.42 * q)) := by
    apply mul_le_mul a4 (by linarith) _ (by linarith)
    have : 0 ≤ Real.sqrt 2 * (g ^ 2 * Q - 1) := by positivity
    linarith
  have a6 : (3.02 * u + 1.001 * t) * (2.831 * t + 1.42 * q) ≤ 0.002 * (2.831 * t + 1.42 * q) := by
    apply mul_le_mul_of_nonneg_right _ (by linarith)
    linarith
  have e : (130 * (b : ℝ) + 2 * m) * u = 130 / 32 * t + 2 * q := by rw [ht, hq]; ring
  rw [e]
  linarith

/-- **C72**, explicit constant: if the unit roundoff is at most `2^-20` and `cos`/`sin` are accurate to `2u`, the
error is at most `136 b u √(2^b) ‖x‖₂ ‖y‖₂`. -/
theorem C72_explicit (F : Rounding) (hu : F.u ≤ 2⁻¹ ^ 20) (hε : F.ε ≤ 2 * F.u) (x y : List (FR F))
    (hx : 2 ≤ x.length) (hy : 2 ≤ y.length) (hs : x.length + y.length - 1 ≤ 2 ^ 27) :
    ∃ out, fftConvolveF x y = .ok out ∧ out.length = x.length + y.length - 1 ∧
      Spec.l2 (x.length + y.length - 1) (fun k => ((valsR out k - Spec.conv (valsR x) (valsR y) k : ℝ) : ℂ))
        ≤ 136 * Nat.clog 2 (x.length + y.length - 1) * F.u
          * (Real.sqrt (2 ^ Nat.clog 2 (x.length + y.length - 1)) * (normR x.length x * normR y.length y)) := by
  obtain ⟨out, h1, h2, h3⟩ := C72_fft_convolve F x y hx hy hs
  refine ⟨out, h1, h2, h3.trans (mul_le_mul_of_nonneg_right ?_ ?_)⟩
  · have hu0 := F.u_nonneg
    have hu6 : F.u ≤ 0.000001 := hu.trans (by norm_num)
    have s2 : Real.sqrt 2 ≤ 1.4143 := Real.sqrt_le_iff.2 ⟨by norm_num, by norm_num⟩
    have s20 := Real.sqrt_nonneg 2
    have hb1 : 1 ≤ Nat.clog 2 (x.length + y.length - 1) := Nat.clog_pos (by norm_num) (by omega)
    have hv0 : 0 ≤ Real.sqrt 2 * (2 * F.u + F.u ^ 2) := by positivity
    have hv : Real.sqrt 2 * (2 * F.u + F.u ^ 2) ≤ 3 * F.u := by
      have : 2 * F.u + F.u ^ 2 ≤ 2.001 * F.u := by nlinarith
      have := mul_le_mul s2 this (by positivity) (by norm_num)
      linarith
    have key := spectralGain_le F hu hε hb1 (Nat.clog_le_of_le_pow hs) (m := 3)
      (by linarith : 1 ≤ 1 + Real.sqrt 2 * (2 * F.u + F.u ^ 2)) (by linarith) (by norm_num) (by linarith)
    have hbr : (1 : ℝ) ≤ Nat.clog 2 (x.length + y.length - 1) := by exact_mod_cast hb1
    nlinarith
  · exact mul_nonneg (Real.sqrt_nonneg _) (mul_nonneg (l2_nonneg _ _) (l2_nonneg _ _))

/-- **C72**: `rfft` and `irfft` in rounded arithmetic.  `rfft` produces the first `N/2 + 1` coefficients of the
transform of the input, `irfft` the real part of the unscaled inverse transform of the Hermitian extension of its
input, both with the error bound of the complex transform. -/
theorem C72_real_transforms (F : Rounding) (order : ℕ) (h1 : 1 ≤ order) (h2 : order ≤ 27) :
    ∃ p, RfftPlanF.make F order = .ok p ∧
      (∀ x : List (FR F), ∀ o : List (FC F), x.length = 2 ^ order → o.length = 2 ^ order / 2 + 1 →
        ∃ p' y, p.rfft x o = .ok (p', y) ∧ y.length = 2 ^ order / 2 + 1 ∧
          Spec.l2 (2 ^ order / 2 + 1) (fun k => vals y k - Spec.dft (2 ^ order) (fun n => (valsR x n : ℂ)) k)
            ≤ (Spec.fftGain F.u F.ε order - 1) * (Real.sqrt (2 ^ order) * normR (2 ^ order) x)) ∧
      (∀ c : List (FC F), ∀ o : List (FR F), c.length = 2 ^ order / 2 + 1 → o.length = 2 ^ order →
        ∃ p' x, p.irfft c o = .ok (p', x) ∧ x.length = 2 ^ order ∧
          Spec.l2 (2 ^ order) (fun n => (valsR x n : ℂ)
              - ((Spec.idft (2 ^ order) (Spec.hermitian (2 ^ order) (vals c)) n).re : ℂ))
            ≤ (Spec.fftGain F.u F.ε order - 1)
              * (Real.sqrt (2 ^ order) * Spec.l2 (2 ^ order) (Spec.hermitian (2 ^ order) (vals c)))) := by
  have e2 : Real.sqrt (2 ^ order) = Real.sqrt 2 ^ order := by
    rw [Real.sqrt_eq_iff_mul_self_eq (by positivity) (by positivity), ← mul_pow, Real.mul_self_sqrt (by norm_num)]
  refine ⟨_, rfftPlanF_make_eq h2, ?_, ?_⟩
  · intro x o hx ho
    rw [list_eq_vec (0 : FR F) hx, list_eq_vec (0 : FC F) ho]
    generalize (fun i => x.getD i 0) = f
    generalize (fun i => o.getD i 0) = q
    obtain ⟨f', y, e, k⟩ := rfftF_vec h1 le_rfl (fun _ => 0) f q
    refine ⟨_, _, e, length_vec _ _, ?_⟩
    rw [e2]
    have e3 : normR (2 ^ order) (vec (2 ^ order) f) = Spec.l2 (2 ^ order) (fun n => ((f n).val : ℂ)) :=
      l2_congr fun n hn => by rw [valsR_vec f hn]
    rw [e3]
    refine le_trans (le_of_eq (l2_congr fun i hi => ?_)) k
    have e4 : vals (vec (2 ^ order / 2 + 1) fun k => if k < 2 ^ order / 2 + 1 then y k else q k) i = (y i).val := by
      unfold vals
      rw [map_vec, getD_vec _ _ _ _ hi, if_pos hi]
    rw [e4, dft_congr (fun n hn => by rw [valsR_vec f hn])]
  · intro c o hc ho
    rw [list_eq_vec (0 : FC F) hc, list_eq_vec (0 : FR F) ho]
    generalize (fun i => c.getD i 0) = f
    generalize (fun i => o.getD i 0) = q
    obtain ⟨f', z, e, k⟩ := irfftF_vec h1 le_rfl (half_lt h1) le_rfl (fun _ => 0) f q
    refine ⟨_, _, e, length_vec _ _, ?_⟩
    rw [e2]
    have e3 : ∀ n < 2 ^ order, Spec.hermitian (2 ^ order) (vals (vec (2 ^ order / 2 + 1) f)) n
        = Spec.hermitian (2 ^ order) (fun k => (f k).val) n := fun n hn =>
      hermitian_congr (fun i hi => by
        unfold vals
        rw [map_vec, getD_vec _ _ _ _ (by omega)]) hn
    rw [l2_congr e3]
    refine le_trans (le_of_eq (l2_congr fun i hi => ?_)) k
    rw [valsR_vec _ hi, if_pos hi, idft_congr e3]

/-- Two single-precision signals of 5000 and 3000 samples: transform size `2^13`, error below `0.01 ‖x‖₂ ‖y‖₂`. -/
example (x y : List (FR binary32)) (hx : x.length = 5000) (hy : y.length = 3000) :
    ∃ out, fftConvolveF x y = .ok out ∧ out.length = 7999 ∧
      Spec.l2 7999 (fun k => ((valsR out k - Spec.conv (valsR x) (valsR y) k : ℝ) : ℂ))
        ≤ 0.01 * (normR 5000 x * normR 3000 y) := by
  have hc : Nat.clog 2 7999 = 13 := by decide +kernel
  obtain ⟨out, h1, h2, h3⟩ := C72_explicit binary32 (by show (2⁻¹ : ℝ) ^ 24 ≤ _; norm_num)
    (by show (2⁻¹ : ℝ) ^ 24 ≤ 2 * 2⁻¹ ^ 24; norm_num) x y (by omega) (by omega) (by rw [hx, hy]; norm_num)
  rw [hx, hy] at h2 h3
  norm_num only at h2 h3
  rw [hc] at h3
  refine ⟨out, h1, h2, h3.trans ?_⟩
  have hs : Real.sqrt (2 ^ 13) ≤ 91 := Real.sqrt_le_iff.2 ⟨by norm_num, by norm_num⟩
  have p : 0 ≤ normR 5000 x * normR 3000 y := mul_nonneg (l2_nonneg _ _) (l2_nonneg _ _)
  rw [← mul_assoc]
  apply mul_le_mul_of_nonneg_right _ p
  show 136 * ((13 : ℕ) : ℝ) * (2⁻¹ : ℝ) ^ 24 * Real.sqrt (2 ^ 13) ≤ 0.01
  norm_num at hs ⊢
  linarith

end Neo.Props
