import Verif.Lemmas.UpcLti
import Verif.Lemmas.SparseRender

/-! # Energy bounds for the partitioned convolvers -/

namespace Neo

open Finset ComplexConjugate

theorem parseval_norm {N : ℕ} (x : ℕ → ℂ) :
    ∑ k ∈ range N, ‖Spec.dft N x k‖ ^ 2 = N * ∑ n ∈ range N, ‖x n‖ ^ 2 := by
  have h := parseval (N := N) x
  simp only [Complex.mul_conj'] at h
  exact_mod_cast h

theorem parseval_idft {N : ℕ} (hN : 0 < N) (X : ℕ → ℂ) :
    ∑ n ∈ range N, ‖Spec.idft N X n‖ ^ 2 = N * ∑ k ∈ range N, ‖X k‖ ^ 2 := by
  have h := parseval_norm (N := N) (Spec.idft N X)
  rw [sum_congr rfl (fun k hk => by rw [dft_idft _ (mem_range.1 hk), norm_mul, mul_pow]), ← mul_sum] at h
  have hc : ‖(N : ℂ)‖ = N := Complex.norm_natCast N
  rw [hc] at h
  have hN' : (N : ℝ) ≠ 0 := by positivity
  have : (N : ℝ) * (N * ∑ k ∈ range N, ‖X k‖ ^ 2) = N * ∑ n ∈ range N, ‖Spec.idft N X n‖ ^ 2 := by
    rw [← h]; ring
  exact (mul_left_cancel₀ hN' this).symm

theorem specOut_energy {K : ℕ} (hK : 0 < K) (Y : ℕ → ℂ) :
    ∑ n ∈ range K, specOut K Y n ^ 2 ≤ 1 / K * ∑ k ∈ range K, ‖Spec.hermitian K Y k‖ ^ 2 := by
  have hK' : (0 : ℝ) < K := by positivity
  have h : ∀ n ∈ range K, specOut K Y n ^ 2 ≤ 1 / (K : ℝ) ^ 2 * ‖Spec.idft K (Spec.hermitian K Y) n‖ ^ 2 := by
    intro n _
    unfold specOut
    rw [mul_pow, mul_comm, one_div_pow]
    apply mul_le_mul_of_nonneg_left _ (by positivity)
    rw [← sq_abs]
    exact pow_le_pow_left₀ (abs_nonneg _) (Complex.abs_re_le_norm _) 2
  refine (sum_le_sum h).trans (le_of_eq ?_)
  rw [← mul_sum, parseval_idft hK]
  field_simp

/-- Multiplying a real signal's half spectrum with factors of size at most `τ` scales its energy by at most `τ²`. -/
theorem specOut_bounded {K : ℕ} (hK : 0 < K) (w : ℕ → ℝ) (E : ℕ → ℂ) {τ : ℝ} (hE : ∀ k ≤ K / 2, ‖E k‖ ≤ τ) :
    ∑ n ∈ range K, specOut K (fun k => Spec.dft K (fun m => (w m : ℂ)) k * E k) n ^ 2
      ≤ τ ^ 2 * ∑ n ∈ range K, w n ^ 2 := by
  have hK' : (0 : ℝ) < K := by positivity
  refine (specOut_energy hK _).trans ?_
  have h : ∀ k ∈ range K, ‖Spec.hermitian K (fun k => Spec.dft K (fun m => (w m : ℂ)) k * E k) k‖ ^ 2
      ≤ τ ^ 2 * ‖Spec.dft K (fun m => (w m : ℂ)) k‖ ^ 2 := by
    intro k hk
    have hk := mem_range.1 hk
    have e : ‖Spec.hermitian K (fun k => Spec.dft K (fun m => (w m : ℂ)) k * E k) k‖
        ≤ ‖Spec.dft K (fun m => (w m : ℂ)) k‖ * τ := by
      unfold Spec.hermitian
      split
      · next c =>
        rw [norm_mul]
        exact mul_le_mul_of_nonneg_left (hE k c) (norm_nonneg _)
      · next c =>
        rw [RCLike.norm_conj, norm_mul, dft_real_symm _ hk.le, RCLike.norm_conj]
        exact mul_le_mul_of_nonneg_left (hE _ (by omega)) (norm_nonneg _)
    calc _ ≤ (‖Spec.dft K (fun m => (w m : ℂ)) k‖ * τ) ^ 2 := pow_le_pow_left₀ (norm_nonneg _) e 2
      _ = _ := by ring
  calc _ ≤ 1 / (K : ℝ) * ∑ k ∈ range K, τ ^ 2 * ‖Spec.dft K (fun m => (w m : ℂ)) k‖ ^ 2 :=
        mul_le_mul_of_nonneg_left (sum_le_sum h) (by positivity)
    _ = 1 / (K : ℝ) * (τ ^ 2 * (K * ∑ n ∈ range K, ‖(w n : ℂ)‖ ^ 2)) := by rw [← mul_sum, parseval_norm]
    _ = τ ^ 2 * ∑ n ∈ range K, w n ^ 2 := by
      rw [sum_congr rfl (fun n _ => by rw [Complex.norm_real, Real.norm_eq_abs, sq_abs])]
      field_simp

/-- Minkowski's inequality for sums of squares. -/
theorem sq_sum_add {ι : Type} (s : Finset ι) {f g : ι → ℝ} {a b C : ℝ} (ha : 0 ≤ a) (hb : 0 ≤ b) (hC : 0 ≤ C)
    (hf : ∑ i ∈ s, f i ^ 2 ≤ a ^ 2 * C) (hg : ∑ i ∈ s, g i ^ 2 ≤ b ^ 2 * C) :
    ∑ i ∈ s, (f i + g i) ^ 2 ≤ (a + b) ^ 2 * C := by
  have hcs := sum_mul_sq_le_sq_mul_sq s f g
  have h1 : ∑ i ∈ s, f i * g i ≤ a * b * C := by
    apply le_of_abs_le
    apply abs_le_of_sq_le_sq _ (by positivity)
    calc _ ≤ _ := hcs
      _ ≤ (a ^ 2 * C) * (b ^ 2 * C) :=
        mul_le_mul hf hg (sum_nonneg fun _ _ => sq_nonneg _) (by positivity)
      _ = _ := by ring
  have e : ∑ i ∈ s, (f i + g i) ^ 2 = ∑ i ∈ s, f i ^ 2 + ∑ i ∈ s, g i ^ 2 + 2 * ∑ i ∈ s, f i * g i := by
    rw [mul_sum, ← sum_add_distrib, ← sum_add_distrib]
    exact sum_congr rfl (fun i _ => by ring)
  rw [e]
  nlinarith

theorem sq_sum_sum {ι : Type} (s : Finset ι) {N : ℕ} {f : ℕ → ι → ℝ} {a : ℕ → ℝ} {C : ℝ} (hC : 0 ≤ C)
    (ha : ∀ j < N, 0 ≤ a j) (hf : ∀ j < N, ∑ i ∈ s, f j i ^ 2 ≤ a j ^ 2 * C) :
    ∑ i ∈ s, (∑ j ∈ range N, f j i) ^ 2 ≤ (∑ j ∈ range N, a j) ^ 2 * C := by
  induction N with
  | zero => simp
  | succ n ih =>
    simp only [sum_range_succ]
    exact sq_sum_add s (sum_nonneg fun j hj => ha j (by have := mem_range.1 hj; omega)) (ha n (by omega)) hC
      (ih (fun j hj => ha j (by omega)) (fun j hj => hf j (by omega))) (hf n (by omega))

/-! ## Linearity in the filter -/

theorem specOut_fsum {ι : Type} (s : Finset ι) (K : ℕ) (Y : ι → ℕ → ℂ) (n : ℕ) :
    specOut K (fun k => ∑ i ∈ s, Y i k) n = ∑ i ∈ s, specOut K (Y i) n := by
  unfold specOut
  rw [show Spec.hermitian K (fun k => ∑ i ∈ s, Y i k) = fun k => ∑ i ∈ s, Spec.hermitian K (Y i) k from
    funext (hermitian_sum s K Y), idft_sum, Complex.re_sum, sum_mul]

theorem specOut_sub (K : ℕ) (Y Z : ℕ → ℂ) (n : ℕ) :
    specOut K Y n - specOut K Z n = specOut K (fun k => Y k - Z k) n := by
  have h := specOut_lin K 1 (-1) Y Z n
  rw [show (fun k => ((1 : ℝ) : ℂ) * Y k + ((-1 : ℝ) : ℂ) * Z k) = fun k => Y k - Z k by
    funext k; push_cast; ring] at h
  rw [h]; ring

/-- What one partition contributes to the output spectrum. -/
noncomputable def partY (E : ℕ → ℂ) (X : ℕ → ℕ → ℂ) (j t k : ℕ) : ℂ := (if j ≤ t then X (t - j) k else 0) * E k

theorem specOut_specY_sub (K N : ℕ) (H G X : ℕ → ℕ → ℂ) (t n : ℕ) :
    specOut K (specY N H X t) n - specOut K (specY N G X t) n
      = ∑ j ∈ range N, specOut K (partY (fun k => H j k - G j k) X j t) n := by
  rw [specOut_sub, ← specOut_fsum]
  congr 1
  funext k
  unfold specY partY
  rw [← sum_sub_distrib]
  exact sum_congr rfl (fun j _ => by ring)

/-- Energy of the signal in the first `T` windows. -/
theorem partY_energy {K : ℕ} (hK : 0 < K) (w : ℕ → ℕ → ℝ) (E : ℕ → ℂ) {τ : ℝ} (hE : ∀ k ≤ K / 2, ‖E k‖ ≤ τ) (j T : ℕ) :
    ∑ t ∈ range T, ∑ n ∈ range K,
        specOut K (partY E (fun t => Spec.dft K (fun m => (w t m : ℂ))) j t) n ^ 2
      ≤ τ ^ 2 * ∑ t ∈ range T, ∑ n ∈ range K, w t n ^ 2 := by
  have hb : ∀ t, ∑ n ∈ range K, specOut K (partY E (fun t => Spec.dft K (fun m => (w t m : ℂ))) j t) n ^ 2
      ≤ if j ≤ t then τ ^ 2 * ∑ n ∈ range K, w (t - j) n ^ 2 else 0 := by
    intro t
    by_cases c : j ≤ t
    · rw [if_pos c]
      refine le_trans (le_of_eq ?_) (specOut_bounded hK (w (t - j)) E hE)
      apply sum_congr rfl
      intro n _
      congr 2
      funext k
      unfold partY
      rw [if_pos c]
    · rw [if_neg c]
      apply le_of_eq
      apply sum_eq_zero
      intro n _
      rw [show partY E (fun t => Spec.dft K (fun m => (w t m : ℂ))) j t = fun _ => 0 from ?_, specOut_zero]
      · norm_num
      · funext k
        unfold partY
        rw [if_neg c, zero_mul]
  refine (sum_le_sum (fun t _ => hb t)).trans ?_
  have key : ∀ T, ∑ t ∈ range T, (if j ≤ t then τ ^ 2 * ∑ n ∈ range K, w (t - j) n ^ 2 else 0)
      = τ ^ 2 * ∑ t ∈ range (T - j), ∑ n ∈ range K, w t n ^ 2 := by
    intro T
    induction T with
    | zero => simp
    | succ T ih =>
      rw [sum_range_succ, ih]
      by_cases c : j ≤ T
      · rw [if_pos c, show T + 1 - j = (T - j) + 1 by omega, sum_range_succ]; ring
      · rw [if_neg c, show T + 1 - j = T - j by omega, add_zero]
  rw [key]
  apply mul_le_mul_of_nonneg_left _ (sq_nonneg _)
  exact sum_le_sum_of_subset_of_nonneg (range_mono (Nat.sub_le _ _)) (fun _ _ _ => sum_nonneg fun _ _ => sq_nonneg _)

theorem seg_energy (B : ℕ) (x : ℕ → ℝ) (T : ℕ) :
    ∑ t ∈ range T, ∑ n ∈ range (2 * B), seg B x t n ^ 2 = ∑ n ∈ range (T * B), x n ^ 2 := by
  rw [sum_range_mul']
  apply sum_congr rfl
  intro t _
  rw [two_mul, sum_range_add]
  rw [sum_congr (s₁ := range B) (g := fun n => x (t * B + n) ^ 2) rfl (fun n hn => by rw [seg_of_lt (mem_range.1 hn)]),
    sum_eq_zero (f := fun n => seg B x t (B + n) ^ 2) (fun n _ => by rw [seg_zero (by omega)]; norm_num), add_zero]

theorem saveWindow_energy (B : ℕ) (x : ℕ → ℝ) (T : ℕ) :
    ∑ t ∈ range T, ∑ n ∈ range (2 * B), saveWindow B x t n ^ 2 ≤ 2 * ∑ n ∈ range (T * B), x n ^ 2 := by
  rw [sum_range_mul']
  have e : ∀ t, ∑ n ∈ range (2 * B), saveWindow B x t n ^ 2
      = (if 1 ≤ t then ∑ n ∈ range B, x ((t - 1) * B + n) ^ 2 else 0) + ∑ n ∈ range B, x (t * B + n) ^ 2 := by
    intro t
    rw [two_mul, sum_range_add]
    congr 1
    · by_cases c : 1 ≤ t
      · rw [if_pos c]
        apply sum_congr rfl
        intro n hn
        unfold saveWindow
        rw [if_pos (mem_range.1 hn), if_pos c]
      · rw [if_neg c]
        apply sum_eq_zero
        intro n hn
        unfold saveWindow
        rw [if_pos (mem_range.1 hn), if_neg c]
        norm_num
    · apply sum_congr rfl
      intro n _
      unfold saveWindow
      rw [if_neg (by omega), Nat.add_sub_cancel_left]
  simp only [e, sum_add_distrib]
  have : ∑ t ∈ range T, (if 1 ≤ t then ∑ n ∈ range B, x ((t - 1) * B + n) ^ 2 else 0)
      ≤ ∑ t ∈ range T, ∑ n ∈ range B, x (t * B + n) ^ 2 := by
    cases T with
    | zero => simp
    | succ T =>
      rw [sum_range_succ', sum_range_succ]
      simp only [if_neg (show ¬ 1 ≤ 0 by omega), if_pos (Nat.le_add_left 1 _), Nat.add_sub_cancel, add_zero]
      have : 0 ≤ ∑ n ∈ range B, x (T * B + n) ^ 2 := sum_nonneg fun _ _ => sq_nonneg _
      linarith
  linarith

/-! ## The two overlap schemes -/

theorem ols_energy {B : ℕ} (hB : 1 ≤ B) (N : ℕ) (H G : ℕ → ℕ → ℂ) (x : ℕ → ℝ) {τ : ℕ → ℝ} (hτ : ∀ j < N, 0 ≤ τ j)
    (hd : ∀ j < N, ∀ k ≤ B, ‖H j k - G j k‖ ≤ τ j) (T : ℕ) :
    ∑ t ∈ range T, ∑ i ∈ range B, (olsOut B (specY N H (winSpec B (saveWindow B) x)) t i
        - olsOut B (specY N G (winSpec B (saveWindow B) x)) t i) ^ 2
      ≤ (∑ j ∈ range N, τ j) ^ 2 * (2 * ∑ n ∈ range (T * B), x n ^ 2) := by
  set X := winSpec B (saveWindow B) x with hX
  set E : ℕ → ℕ → ℂ := fun j k => H j k - G j k with hE
  have hsplit : ∀ t i, olsOut B (specY N H X) t i - olsOut B (specY N G X) t i
      = ∑ j ∈ range N, specOut (2 * B) (partY (E j) X j t) (B + i) :=
    fun t i => specOut_specY_sub _ _ _ _ _ _ _
  simp only [hsplit]
  rw [← sum_product' (range T) (range B) (fun t i => (∑ j ∈ range N, specOut (2 * B) (partY (E j) X j t) (B + i)) ^ 2)]
  refine sq_sum_sum (range T ×ˢ range B) (f := fun j p => specOut (2 * B) (partY (E j) X j p.1) (B + p.2))
    (mul_nonneg (by norm_num) (sum_nonneg fun _ _ => sq_nonneg _)) hτ (fun j hj => ?_)
  have h := partY_energy (K := 2 * B) (by omega) (saveWindow B x) (E j) (τ := τ j)
    (fun k hk => hd j hj k (by omega)) j T
  change ∑ t ∈ range T, ∑ n ∈ range (2 * B), specOut (2 * B) (partY (E j) X j t) n ^ 2 ≤ _ at h
  refine le_trans ?_ (h.trans (mul_le_mul_of_nonneg_left (saveWindow_energy B x T) (sq_nonneg _)))
  rw [sum_product]
  apply sum_le_sum
  intro t _
  rw [two_mul, sum_range_add]
  exact le_add_of_nonneg_left (sum_nonneg fun _ _ => sq_nonneg _)

theorem ola_energy {B : ℕ} (hB : 1 ≤ B) (N : ℕ) (H G : ℕ → ℕ → ℂ) (x : ℕ → ℝ) {τ : ℕ → ℝ} (hτ : ∀ j < N, 0 ≤ τ j)
    (hd : ∀ j < N, ∀ k ≤ B, ‖H j k - G j k‖ ≤ τ j) (T : ℕ) :
    ∑ t ∈ range T, ∑ i ∈ range B, (olaOut B (specY N H (winSpec B (seg B) x)) t i
        - olaOut B (specY N G (winSpec B (seg B) x)) t i) ^ 2
      ≤ (∑ j ∈ range N, τ j) ^ 2 * (2 * ∑ n ∈ range (T * B), x n ^ 2) := by
  set X := winSpec B (seg B) x with hX
  set E : ℕ → ℕ → ℂ := fun j k => H j k - G j k with hE
  have hsplit : ∀ t i, olaOut B (specY N H X) t i - olaOut B (specY N G X) t i
      = ∑ j ∈ range N, (specOut (2 * B) (partY (E j) X j t) i
          + if 1 ≤ t then specOut (2 * B) (partY (E j) X j (t - 1)) (B + i) else 0) := by
    intro t i
    unfold olaOut
    rw [sum_add_distrib, ← specOut_specY_sub]
    by_cases c : 1 ≤ t
    · simp only [if_pos c]
      rw [← specOut_specY_sub]
      ring
    · simp only [if_neg c, sum_const_zero]
      ring
  simp only [hsplit]
  rw [← sum_product' (range T) (range B) (fun t i => (∑ j ∈ range N, (specOut (2 * B) (partY (E j) X j t) i
          + if 1 ≤ t then specOut (2 * B) (partY (E j) X j (t - 1)) (B + i) else 0)) ^ 2)]
  refine sq_sum_sum (range T ×ˢ range B) (f := fun j p => specOut (2 * B) (partY (E j) X j p.1) p.2
          + if 1 ≤ p.1 then specOut (2 * B) (partY (E j) X j (p.1 - 1)) (B + p.2) else 0)
    (mul_nonneg (by norm_num) (sum_nonneg fun _ _ => sq_nonneg _)) hτ (fun j hj => ?_)
  have h := partY_energy (K := 2 * B) (by omega) (seg B x) (E j) (τ := τ j)
    (fun k hk => hd j hj k (by omega)) j T
  rw [seg_energy] at h
  change ∑ t ∈ range T, ∑ n ∈ range (2 * B), specOut (2 * B) (partY (E j) X j t) n ^ 2 ≤ _ at h
  have h2 : ∑ t ∈ range T, ∑ n ∈ range (2 * B), specOut (2 * B) (partY (E j) X j t) n ^ 2
      = ∑ t ∈ range T, (∑ i ∈ range B, specOut (2 * B) (partY (E j) X j t) i ^ 2)
        + ∑ t ∈ range T, (∑ i ∈ range B, specOut (2 * B) (partY (E j) X j t) (B + i) ^ 2) := by
    rw [← sum_add_distrib]
    apply sum_congr rfl
    intro t _
    rw [two_mul, sum_range_add]
  have h3 : ∑ t ∈ range T, (if 1 ≤ t then ∑ i ∈ range B, specOut (2 * B) (partY (E j) X j (t - 1)) (B + i) ^ 2 else 0)
      ≤ ∑ t ∈ range T, (∑ i ∈ range B, specOut (2 * B) (partY (E j) X j t) (B + i) ^ 2) := by
    cases T with
    | zero => simp
    | succ T =>
      rw [sum_range_succ', sum_range_succ]
      simp only [if_neg (show ¬ 1 ≤ 0 by omega), if_pos (Nat.le_add_left 1 _), Nat.add_sub_cancel, add_zero]
      have : 0 ≤ ∑ i ∈ range B, specOut (2 * B) (partY (E j) X j T) (B + i) ^ 2 := sum_nonneg fun _ _ => sq_nonneg _
      linarith
  have h4 : ∀ t ∈ range T, ∑ i ∈ range B, (specOut (2 * B) (partY (E j) X j t) i
          + if 1 ≤ t then specOut (2 * B) (partY (E j) X j (t - 1)) (B + i) else 0) ^ 2
      ≤ 2 * ((∑ i ∈ range B, specOut (2 * B) (partY (E j) X j t) i ^ 2)
        + if 1 ≤ t then ∑ i ∈ range B, specOut (2 * B) (partY (E j) X j (t - 1)) (B + i) ^ 2 else 0) := by
    intro t _
    rw [show (if 1 ≤ t then ∑ i ∈ range B, specOut (2 * B) (partY (E j) X j (t - 1)) (B + i) ^ 2 else 0)
        = ∑ i ∈ range B, (if 1 ≤ t then specOut (2 * B) (partY (E j) X j (t - 1)) (B + i) else 0) ^ 2 from ?_]
    · rw [← sum_add_distrib, mul_sum]
      apply sum_le_sum
      intro i _
      exact add_sq_le
    · split <;> simp
  rw [sum_product]
  refine (sum_le_sum h4).trans ?_
  rw [← mul_sum, sum_add_distrib]
  linarith

end Neo
