import Verif.Lemmas.ExpRecomb

/-! # The experimental real transform -/

namespace Neo

open Finset ComplexConjugate

/-- The real plan of order `b`. -/
noncomputable def expRfftPlanOf (b : ℕ) : ExpRfftPlan where
  order := b
  fft := expC2cPlanOf (b - 1)

theorem expRfft_make_eq {b : ℕ} (hb : 1 ≤ b) : ExpRfftPlan.make b = .ok (expRfftPlanOf b) := by
  unfold ExpRfftPlan.make
  rw [if_neg (by omega), expC2c_make_eq]
  rfl

/-- `exp(iπ/M)`. -/
noncomputable def halfRoot (M : ℕ) : ℂ := Complex.exp (((Real.pi / (M : ℝ) : ℝ) : ℂ) * Complex.I)

theorem halfRoot_pow (M k : ℕ) : halfRoot M ^ k
    = Complex.exp (Real.pi * Complex.I * k / M) := by
  unfold halfRoot
  rw [← Complex.exp_nat_mul]
  congr 1
  push_cast
  ring

theorem halfRoot_unit (M : ℕ) : conj (halfRoot M) * halfRoot M = 1 := by
  unfold halfRoot
  rw [← Complex.exp_conj, ← Complex.exp_add]
  simp

theorem conj_halfRoot (M : ℕ) : conj (halfRoot M)
    = Complex.exp (((-(Real.pi / (M : ℝ)) : ℝ) : ℂ) * Complex.I) := by
  unfold halfRoot
  rw [← Complex.exp_conj]
  congr 1
  simp

theorem halfRoot_quarter {Q : ℕ} (hQ : 1 ≤ Q) : halfRoot (2 * Q) ^ Q = Complex.I := by
  have h : (Q : ℂ) ≠ 0 := by exact_mod_cast (by omega : Q ≠ 0)
  have e : (Real.pi : ℂ) * Complex.I * (Q : ℂ) / ((2 * Q : ℕ) : ℂ) = Real.pi / 2 * Complex.I := by
    push_cast
    field_simp
  rw [halfRoot_pow, e, Complex.exp_pi_div_two_mul_I]

theorem halfRoot_half {M : ℕ} (hM : 1 ≤ M) : halfRoot M ^ M = -1 := by
  have h : (M : ℂ) ≠ 0 := by exact_mod_cast (by omega : M ≠ 0)
  rw [halfRoot_pow, ← Complex.exp_pi_mul_I]
  congr 1
  field_simp

/-- Result of the forward recombination. -/
noncomputable def packZ (M : ℕ) (Z : ℕ → ℂ) (k : ℕ) : ℂ :=
  if k = 0 then ⟨(Z 0).re + (Z 0).im, (Z 0).re - (Z 0).im⟩ else recomb M (-0.5) (halfRoot M) Z k

/-- Result of the backward recombination. -/
noncomputable def unpackZ (M : ℕ) (P : ℕ → ℂ) (k : ℕ) : ℂ :=
  if k = 0 then ⟨0.5 * ((P 0).re + (P 0).im), 0.5 * ((P 0).re - (P 0).im)⟩
  else recomb M 0.5 (conj (halfRoot M)) P k

theorem recomb_congr {M : ℕ} {c : ℝ} {w : ℂ} {Z Z' : ℕ → ℂ} {k : ℕ} (h : Z k = Z' k)
    (h' : Z (M - k) = Z' (M - k)) : recomb M c w Z k = recomb M c w Z' k := by
  unfold recomb; rw [h, h']

theorem unpackZ_packZ {M : ℕ} (hM : 1 ≤ M) (Z : ℕ → ℂ) {k : ℕ} (hk : k < M) :
    unpackZ M (packZ M Z) k = Z k := by
  unfold unpackZ
  by_cases h0 : k = 0
  · subst h0
    rw [if_pos rfl]
    unfold packZ
    rw [if_pos rfl]
    apply Complex.ext <;> dsimp only <;> ring
  · rw [if_neg h0]
    have e := recomb_recomb (c := -0.5) (halfRoot_unit M) (halfRoot_half hM) (by norm_num) Z
      (k := k) (by omega)
    rw [neg_neg] at e
    rw [← e]
    apply recomb_congr
    · unfold packZ; rw [if_neg h0]
    · unfold packZ; rw [if_neg (by omega)]

theorem packZ_unpackZ {M : ℕ} (hM : 1 ≤ M) (P : ℕ → ℂ) {k : ℕ} (hk : k < M) :
    packZ M (unpackZ M P) k = P k := by
  unfold packZ
  by_cases h0 : k = 0
  · subst h0
    rw [if_pos rfl]
    unfold unpackZ
    rw [if_pos rfl]
    apply Complex.ext <;> dsimp only <;> ring
  · rw [if_neg h0]
    have hu : conj (conj (halfRoot M)) * conj (halfRoot M) = 1 := by
      rw [Complex.conj_conj, mul_comm]; exact halfRoot_unit M
    have hm : conj (halfRoot M) ^ M = -1 := by
      rw [← map_pow, halfRoot_half hM]; simp
    have e := recomb_recomb (c := 0.5) hu hm (by norm_num) P (k := k) (by omega)
    rw [Complex.conj_conj] at e
    rw [← e]
    apply recomb_congr
    · unfold unpackZ; rw [if_neg h0]
    · unfold unpackZ; rw [if_neg (by omega)]

theorem pow_split {b : ℕ} (hb : 2 ≤ b) : 2 ^ (b - 1) = 2 * 2 ^ (b - 2) := by
  rw [← pow_succ']; congr 1; omega

/-- Rewriting the pair at index 0. -/
theorem wr_pair_zero {M : ℕ} (hM : 1 ≤ M) (f : ℕ → ℂ) (a b : ℝ) :
    interC M (Function.update f 0 ⟨a, b⟩) = interC M (fun k => if k = 0 then ⟨a, b⟩ else f k) := by
  apply interC_ext
  intro k _
  by_cases h : k = 0
  · subst h; rw [Function.update_self, if_pos rfl]
  · rw [Function.update_of_ne h, if_neg h]

theorem expRfft_forward {b : ℕ} (h1 : 2 ≤ b) (h2 : b ≤ 30) (z : ℕ → ℂ) :
    (expRfftPlanOf b).call (interC (2 ^ (b - 1)) z) .forward
      = .ok (interC (2 ^ (b - 1)) (packZ (2 ^ (b - 1)) (Spec.dft (2 ^ (b - 1)) z))) := by
  have hpos : 1 ≤ 2 ^ (b - 2) := Nat.one_le_two_pow
  have hM : 1 ≤ 2 ^ (b - 1) := Nat.one_le_two_pow
  unfold ExpRfftPlan.call
  dsimp only
  have hf : (expRfftPlanOf b).fft = expC2cPlanOf (b - 1) := rfl
  have hd : specDft .forward (2 ^ (b - 1)) z = Spec.dft (2 ^ (b - 1)) z := rfl
  rw [if_pos rfl, if_pos rfl, if_pos rfl, hf, expC2c_call (by omega) (by omega), bind_ok, hd,
    length_interC, show (2 * 2 ^ (b - 1)) >>> 1 = 2 ^ (b - 1) by
      rw [Nat.shiftRight_eq_div_pow]; omega]
  have hq := halfRoot_quarter hpos
  rw [← pow_split h1] at hq
  have hl := expLoop_interC (Q := 2 ^ (b - 2)) hpos (c := -0.5)
    (θ := Real.pi / ((2 ^ (b - 1) : ℕ) : ℝ)) (w := halfRoot (2 ^ (b - 1))) rfl
    (by rw [hq]; push_cast; ring) (by norm_num) (Spec.dft (2 ^ (b - 1)) z)
  rw [← pow_split h1] at hl
  rw [hl, bind_ok, rd_interC_re _ (i := 0) (by omega) rfl, bind_ok,
    rd_interC_im _ (i := 0) (by omega) rfl, bind_ok, wr_interC' _ (i := 0) (by omega) rfl rfl,
    wr_pair_zero hM]
  congr 1
  apply interC_ext
  intro k _
  unfold packZ
  by_cases h : k = 0
  · rw [if_pos h, if_pos h, if_pos rfl]
  · rw [if_neg h, if_neg h, if_neg h]

theorem expRfft_backward {b : ℕ} (h1 : 2 ≤ b) (h2 : b ≤ 30) (P : ℕ → ℂ) :
    (expRfftPlanOf b).call (interC (2 ^ (b - 1)) P) .backward
      = .ok (interC (2 ^ (b - 1)) (Spec.idft (2 ^ (b - 1)) (unpackZ (2 ^ (b - 1)) P))) := by
  have hpos : 1 ≤ 2 ^ (b - 2) := Nat.one_le_two_pow
  have hM : 1 ≤ 2 ^ (b - 1) := Nat.one_le_two_pow
  unfold ExpRfftPlan.call
  dsimp only
  have hf : (expRfftPlanOf b).fft = expC2cPlanOf (b - 1) := rfl
  rw [if_neg (by decide), if_neg (by decide), if_neg (by decide), hf,
    length_interC, show (2 * 2 ^ (b - 1)) >>> 1 = 2 ^ (b - 1) by
      rw [Nat.shiftRight_eq_div_pow]; omega]
  have hq := halfRoot_quarter hpos
  rw [← pow_split h1] at hq
  have hl := expLoop_interC (Q := 2 ^ (b - 2)) hpos (c := 0.5)
    (θ := -(Real.pi / ((2 ^ (b - 1) : ℕ) : ℝ))) (w := conj (halfRoot (2 ^ (b - 1))))
    (conj_halfRoot _) (by rw [← map_pow, hq, Complex.conj_I]; push_cast; ring) (by norm_num) P
  rw [← pow_split h1] at hl
  have hw := wr_interC (n := 2 ^ (b - 1)) (fun k => if k = 0 then P 0 else
    recomb (2 ^ (b - 1)) 0.5 (conj (halfRoot (2 ^ (b - 1)))) P k) (i := 0) (by omega) rfl rfl
    (0.5 * ((P 0).re + (P 0).im)) (0.5 * ((P 0).re - (P 0).im))
    (fun x => (expC2cPlanOf (b - 1)).call x .backward)
  rw [hl, bind_ok, rd_interC_re _ (i := 0) (by omega) rfl, bind_ok,
    rd_interC_im _ (i := 0) (by omega) rfl, bind_ok]
  rw [if_pos rfl]
  refine hw.trans ?_
  rw [wr_pair_zero hM, expC2c_call (by omega) (by omega)]
  congr 1
  apply interC_ext
  intro k _
  apply specDft_congr (dir := .backward)
  intro j _
  unfold unpackZ
  by_cases h : j = 0
  · rw [if_pos h, if_pos h]
  · rw [if_neg h, if_neg h, if_neg h]

/-! ## What the forward transform computes -/

theorem sum_even_odd {A : Type} [AddCommMonoid A] (M : ℕ) (f : ℕ → A) :
    ∑ n ∈ range (2 * M), f n = ∑ m ∈ range M, (f (2 * m) + f (2 * m + 1)) := by
  induction M with
  | zero => simp
  | succ M ih =>
    rw [show 2 * (M + 1) = 2 * M + 1 + 1 by ring, sum_range_succ, sum_range_succ, ih,
      sum_range_succ, add_assoc]

/-- The complex signal whose samples are pairs of consecutive real samples. -/
def pairUp (x : ℕ → ℝ) (m : ℕ) : ℂ := ⟨x (2 * m), x (2 * m + 1)⟩

theorem recomb_dft {M : ℕ} (c : ℝ) (w : ℂ) (x : ℕ → ℝ) {k : ℕ} (hk : k ≤ M) :
    recomb M c w (Spec.dft M (pairUp x)) k
      = Spec.dft M (fun m => (x (2 * m) : ℂ)) k
        - 2 * c * w ^ k * Spec.dft M (fun m => (x (2 * m + 1) : ℂ)) k := by
  have e1 : conj (Spec.dft M (pairUp x) (M - k)) = Spec.dft M (fun m => conj (pairUp x m)) k := by
    rw [dft_reflect _ hk, conj_idft]
  have e2 : pairUp x = fun m => (x (2 * m) : ℂ) + Complex.I * (x (2 * m + 1) : ℂ) := by
    funext m; apply Complex.ext <;> simp [pairUp]
  have e3 : (fun m => conj (pairUp x m))
      = fun m => (x (2 * m) : ℂ) + (-Complex.I) * (x (2 * m + 1) : ℂ) := by
    funext m; apply Complex.ext <;> simp [pairUp]
  have f2 : Spec.dft M (pairUp x) k = Spec.dft M (fun m => (x (2 * m) : ℂ)) k
      + Complex.I * Spec.dft M (fun m => (x (2 * m + 1) : ℂ)) k := by
    rw [e2, dft_add, dft_smul]
  have f3 : Spec.dft M (fun m => conj (pairUp x m)) k = Spec.dft M (fun m => (x (2 * m) : ℂ)) k
      + (-Complex.I) * Spec.dft M (fun m => (x (2 * m + 1) : ℂ)) k := by
    rw [e3, dft_add, dft_smul]
  unfold recomb
  rw [e1, f2, f3]
  generalize Spec.dft M (fun m => (x (2 * m) : ℂ)) k = E
  generalize Spec.dft M (fun m => (x (2 * m + 1) : ℂ)) k = O
  linear_combination (2 * c * w ^ k * O) * Complex.I_mul_I

theorem dft_even_odd {M : ℕ} (hM : 1 ≤ M) (x : ℕ → ℝ) (k : ℕ) :
    Spec.dft (2 * M) (fun n => (x n : ℂ)) k = Spec.dft M (fun m => (x (2 * m) : ℂ)) k
      + conj (halfRoot M) ^ k * Spec.dft M (fun m => (x (2 * m + 1) : ℂ)) k := by
  have h : (M : ℂ) ≠ 0 := by exact_mod_cast (by omega : M ≠ 0)
  unfold Spec.dft
  rw [sum_even_odd, sum_add_distrib, mul_sum, ← map_pow, halfRoot_pow, ← Complex.exp_conj]
  congr 1
  · apply sum_congr rfl
    intro m _
    congr 2
    push_cast
    field_simp
  · apply sum_congr rfl
    intro m _
    rw [mul_left_comm, ← Complex.exp_add]
    congr 2
    simp only [map_div₀, map_mul, Complex.conj_I, Complex.conj_ofReal, map_natCast]
    push_cast
    field_simp
    ring

theorem oddEarly_even_odd {M : ℕ} (hM : 1 ≤ M) (x : ℕ → ℝ) (k : ℕ) :
    Spec.oddEarly (2 * M) x k = Spec.dft M (fun m => (x (2 * m) : ℂ)) k
      + halfRoot M ^ k * Spec.dft M (fun m => (x (2 * m + 1) : ℂ)) k := by
  have h : (M : ℂ) ≠ 0 := by exact_mod_cast (by omega : M ≠ 0)
  unfold Spec.dft Spec.oddEarly
  rw [sum_even_odd, sum_add_distrib, mul_sum, halfRoot_pow]
  congr 1
  · apply sum_congr rfl
    intro m _
    rw [if_pos (by omega)]
    congr 2
    push_cast
    field_simp
  · apply sum_congr rfl
    intro m _
    rw [if_neg (by omega), mul_left_comm, ← Complex.exp_add]
    congr 2
    push_cast
    field_simp
    ring

end Neo
