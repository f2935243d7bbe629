import Verif.Lemmas.ExpRfft

/-! # The recombination loop of the experimental real transform -/

namespace Neo

open Finset ComplexConjugate

/-- One output of the recombination: `(Z k + conj Z (M-k)) / 2 + i c w^k (Z k - conj Z (M-k))`. -/
noncomputable def recomb (M : ℕ) (c : ℝ) (w : ℂ) (Z : ℕ → ℂ) (k : ℕ) : ℂ :=
  (Z k + conj (Z (M - k))) / 2 + Complex.I * c * w ^ k * (Z k - conj (Z (M - k)))

theorem unit_pow_conj {w : ℂ} (hw : conj w * w = 1) (k : ℕ) : conj (w ^ k) * w ^ k = 1 := by
  rw [map_pow, ← mul_pow, hw, one_pow]

/-- `w^(M-k) = -conj (w^k)` when `w` is a unit with `w^M = -1`. -/
theorem unit_pow_sub {w : ℂ} (hw : conj w * w = 1) {M k : ℕ} (hM : w ^ M = -1) (hk : k ≤ M) :
    w ^ (M - k) = -conj (w ^ k) := by
  have h1 : w ^ (M - k) * w ^ k = -1 := by rw [← pow_add, Nat.sub_add_cancel hk, hM]
  have h2 := unit_pow_conj hw k
  have h3 : w ^ k ≠ 0 := by intro h; rw [h, mul_zero] at h2; exact zero_ne_one h2
  apply mul_right_cancel₀ h3
  rw [h1, neg_mul, h2]

theorem recomb_reflect {M : ℕ} {c : ℝ} {w : ℂ} (hw : conj w * w = 1) (hM : w ^ M = -1) (Z : ℕ → ℂ)
    {k : ℕ} (hk : k ≤ M) : recomb M c w Z (M - k)
      = conj ((Z k + conj (Z (M - k))) / 2 - Complex.I * c * w ^ k * (Z k - conj (Z (M - k)))) := by
  unfold recomb
  rw [unit_pow_sub hw hM hk, Nat.sub_sub_self hk]
  simp only [map_sub, map_add, map_div₀, map_mul, Complex.conj_conj, Complex.conj_I,
    Complex.conj_ofReal, Complex.conj_ofNat]
  ring

/-- Recombining twice with inverse data is the identity. -/
theorem recomb_recomb {M : ℕ} {c : ℝ} {w : ℂ} (hw : conj w * w = 1) (hM : w ^ M = -1)
    (hc : c * c = 1 / 4) (Z : ℕ → ℂ) {k : ℕ} (hk : k ≤ M) :
    recomb M (-c) (conj w) (recomb M c w Z) k = Z k := by
  have e := recomb_reflect (c := c) hw hM Z hk
  have e1 : recomb M c w Z k = (Z k + conj (Z (M - k))) / 2
      + Complex.I * c * w ^ k * (Z k - conj (Z (M - k))) := rfl
  have hu := unit_pow_conj hw k
  have hI := Complex.I_mul_I
  have hcc : (c : ℂ) * c = 1 / 4 := by rw [← Complex.ofReal_mul, hc]; push_cast; ring
  rw [map_pow] at hu
  show (recomb M c w Z k + conj (recomb M c w Z (M - k))) / 2
    + Complex.I * ((-c : ℝ) : ℂ) * conj w ^ k * (recomb M c w Z k - conj (recomb M c w Z (M - k))) = Z k
  rw [e, Complex.conj_conj, e1]
  push_cast
  generalize conj (Z (M - k)) = B
  generalize Z k = A
  generalize w ^ k = u at *
  generalize conj w ^ k = v at *
  linear_combination (-2 * (c:ℂ) * c * v * u * (A - B)) * hI + (2 * v * u * (A - B)) * hcc
    + ((A - B) / 2) * hu

/-- The untouched middle bin agrees with the formula. -/
theorem recomb_middle {Q : ℕ} {c : ℝ} {w : ℂ} (hQ : w ^ Q = -2 * c * Complex.I)
    (hc : c * c = 1 / 4) (Z : ℕ → ℂ) : recomb (2 * Q) c w Z Q = Z Q := by
  unfold recomb
  rw [show 2 * Q - Q = Q by omega, hQ]
  have hI := Complex.I_mul_I
  have hcc : (c : ℂ) * c = 1 / 4 := by rw [← Complex.ofReal_mul, hc]; push_cast; ring
  generalize conj (Z Q) = B
  generalize Z Q = A
  linear_combination (-2 * (c:ℂ) * c * (A - B)) * hI + (2 * (A - B)) * hcc

theorem sin_half_sq (θ : ℝ) : -2 * Real.sin (0.5 * θ) * Real.sin (0.5 * θ) = Real.cos θ - 1 := by
  have h : θ = 2 * (0.5 * θ) := by ring
  conv_rhs => rw [h, Real.cos_two_mul, Real.cos_sq']
  ring

/-- One iteration of the loop. -/
theorem expBody_interC {M i : ℕ} (hi : 1 ≤ i) (h2 : 2 * i < M) {c : ℝ} {w : ℂ}
    (hw : conj w * w = 1) (hM : w ^ M = -1) (Z f : ℕ → ℂ) (hf1 : f i = Z i)
    (hf2 : f (M - i) = Z (M - i)) :
    expBody (2 * M) 0.5 c (w.re - 1) w.im i ⟨interC M f, (w ^ i).re, (w ^ i).im⟩
      = .ok ⟨interC M (Function.update (Function.update f i (recomb M c w Z i)) (M - i)
          (recomb M c w Z (M - i))), (w ^ (i + 1)).re, (w ^ (i + 1)).im⟩ := by
  have e2 := recomb_reflect (c := c) hw hM Z (k := i) (by omega)
  unfold expBody
  dsimp only
  rw [rd_interC_re f (i := i) (by omega) (by omega), bind_ok,
    rd_interC_re f (i := M - i) (by omega) (by omega), bind_ok,
    rd_interC_im f (i := i) (by omega) (by omega), bind_ok,
    rd_interC_im f (i := M - i) (by omega) (by omega), bind_ok,
    wr_interC f (i := i) (by omega) (by omega) (by omega),
    wr_interC _ (i := M - i) (by omega) (by omega) (by omega), hf1, hf2, e2, pure_eq_ok]
  unfold recomb
  rw [pow_succ]
  generalize w ^ i = u at *
  congr 2
  · congr 2
    · congr 1
      apply Complex.ext <;> simp <;> ring
    · apply Complex.ext
      · rw [Complex.conj_re]; simp; ring
      · rw [Complex.conj_im]; simp; ring
  · rw [Complex.mul_re]; ring
  · rw [Complex.mul_im]; ring

/-- The loop applies the recombination to every bin but the first. -/
theorem expLoop_interC {Q : ℕ} (hQ : 1 ≤ Q) {c θ : ℝ} {w : ℂ} (hw : w = Complex.exp (θ * Complex.I))
    (hwQ : w ^ Q = -2 * c * Complex.I) (hc : c * c = 1 / 4) (Z : ℕ → ℂ) :
    expLoop (2 * (2 * Q)) 0.5 c θ (interC (2 * Q) Z)
      = .ok (interC (2 * Q) (fun k => if k = 0 then Z 0 else recomb (2 * Q) c w Z k)) := by
  have hre : w.re = Real.cos θ := by rw [hw, Complex.exp_ofReal_mul_I_re]
  have him : w.im = Real.sin θ := by rw [hw, Complex.exp_ofReal_mul_I_im]
  have hunit : conj w * w = 1 := by
    rw [hw, ← Complex.exp_conj, ← Complex.exp_add]
    simp
  have hcc : (c : ℂ) * c = 1 / 4 := by rw [← Complex.ofReal_mul, hc]; push_cast; ring
  have hM : w ^ (2 * Q) = -1 := by
    rw [mul_comm, pow_mul, hwQ]
    linear_combination (4 * (c : ℂ) * c) * Complex.I_mul_I - 4 * hcc
  unfold expLoop
  dsimp only
  rw [sin_half_sq, show (2 * (2 * Q)) >>> 2 = Q by rw [Nat.shiftRight_eq_div_pow]; omega,
    ← hre, ← him]
  have hst : forR 1 Q (expBody (2 * (2 * Q)) 0.5 c (w.re - 1) w.im)
      ⟨interC (2 * Q) Z, 1 + (w.re - 1), w.im⟩
      = .ok ⟨interC (2 * Q) (fun k => if k = 0 then Z 0 else recomb (2 * Q) c w Z k),
          (w ^ Q).re, (w ^ Q).im⟩ := by
    apply forR_eq' (fun i => (⟨interC (2 * Q) (fun k =>
        if (1 ≤ k ∧ k < i) ∨ (2 * Q - i < k ∧ k < 2 * Q) then recomb (2 * Q) c w Z k else Z k),
        (w ^ i).re, (w ^ i).im⟩ : ExpState)) hQ
    · congr 1
      · apply interC_ext
        intro k hk
        rw [if_neg (by omega)]
      · rw [pow_one]; ring
      · rw [pow_one]
    · congr 1
      apply interC_ext
      intro k hk
      by_cases h0 : k = 0
      · subst h0
        rw [if_neg (by omega), if_pos rfl]
      · rw [if_neg h0]
        by_cases hk' : k = Q
        · subst hk'
          rw [recomb_middle hwQ hc, if_neg (by omega)]
        · rw [if_pos (by omega)]
    · intro i h1 h2
      rw [expBody_interC h1 (by omega) hunit hM Z _ (by rw [if_neg (by omega)])
        (by rw [if_neg (by omega)])]
      congr 2
      apply interC_ext
      intro k hk
      by_cases hk1 : k = 2 * Q - i
      · subst hk1
        rw [Function.update_self, if_pos (by omega)]
      · rw [Function.update_of_ne hk1]
        by_cases hk2 : k = i
        · subst hk2
          rw [Function.update_self, if_pos (by omega)]
        · rw [Function.update_of_ne hk2]
          by_cases h3 : (1 ≤ k ∧ k < i) ∨ (2 * Q - i < k ∧ k < 2 * Q)
          · rw [if_pos h3, if_pos (by omega)]
          · rw [if_neg h3, if_neg (by omega)]
  rw [hst]
  rfl

end Neo
