import Verif.Model.Rfft
import Verif.Lemmas.DftLaws
import Verif.Lemmas.Algo

/-! # Real transforms on `vec`s -/

namespace Neo

open Finset ComplexConjugate

/-- The plan built for order `b`, with buffer content `f`. -/
noncomputable def rfftPlanOf (b : ℕ) (f : ℕ → ℂ) : RfftPlan where
  order := b
  fft := dit2PlanOf b
  buffer := vec (2 ^ b) f

theorem rfftPlanOf_size (b : ℕ) (f : ℕ → ℂ) : (rfftPlanOf b f).size = 2 ^ b := by
  simp [RfftPlan.size, rfftPlanOf]

theorem rfftPlan_make_eq {b : ℕ} (hb : b ≤ 27) :
    RfftPlan.make b = .ok (rfftPlanOf b (fun _ => 0)) := by
  unfold RfftPlan.make
  rw [dit2Plan_make_eq hb, bind_ok, fftSize_eq, pure_eq_ok]
  rfl

theorem half_lt {b : ℕ} (hb : 1 ≤ b) : 2 ^ b / 2 + 1 ≤ 2 ^ b := by
  obtain ⟨c, rfl⟩ : ∃ c, b = c + 1 := ⟨b - 1, by omega⟩
  have : 0 < 2 ^ c := by positivity
  rw [pow_succ]; omega

/-- An order-0 transform reads `x[1]`. -/
theorem dit2_order_zero (f : ℕ → ℂ) (dir : Direction) :
    (dit2PlanOf 0).call (vec (2 ^ 0) f) dir = .error .oob := by
  unfold Dit2Plan.call Dit2Plan.callWith dit2PlanOf
  have h0 : bitrevApply (vec (2 ^ 0) (digitRev 2 0)) (vec (2 ^ 0) f)
      = .ok (vec (2 ^ 0) (fun i => f (digitRev 2 0 i))) := by
    rw [bitrevApply_digitRev]
  have hs : dit2Stage0 (vec (2 ^ 0) (fun i => f (digitRev 2 0 i))) = .error .oob := by
    simp [dit2Stage0, forStep, forN, butterfly0, rd, vec]
  simp only [h0, bind_ok]
  unfold dit2V3
  rw [hs, length_vec, check_decide_ok rfl, bind_ok]
  cases dir <;> rfl

theorem rfft_order_zero (f : ℕ → ℂ) (x : ℕ → ℝ) (out : List ℂ) :
    (rfftPlanOf 0 f).rfft (vec (2 ^ 0) x) out = .error .oob := by
  unfold RfftPlan.rfft
  have h1 : (rfftPlanOf 0 f).buffer = vec (2 ^ 0) f := rfl
  have h2 : (rfftPlanOf 0 f).fft = dit2PlanOf 0 := rfl
  rw [h1, h2, copyRealToComplex_vec, bind_ok, dit2_order_zero, bind_error]

theorem rfft_vec {b m : ℕ} (hb : 1 ≤ b) (hm : 2 ^ b / 2 + 1 ≤ m) (f : ℕ → ℂ) (x : ℕ → ℝ)
    (o : ℕ → ℂ) :
    ∃ f', (rfftPlanOf b f).rfft (vec (2 ^ b) x) (vec m o) = .ok (rfftPlanOf b f',
      vec m (fun k => if k < 2 ^ b / 2 + 1 then Spec.dft (2 ^ b) (fun n => (x n : ℂ)) k
        else o k)) := by
  refine ⟨Spec.dft (2 ^ b) (fun n => (x n : ℂ)), ?_⟩
  unfold RfftPlan.rfft
  simp only [rfftPlanOf_size]
  have h1 : (rfftPlanOf b f).buffer = vec (2 ^ b) f := rfl
  have h2 : (rfftPlanOf b f).fft = dit2PlanOf b := rfl
  rw [h1, h2, copyRealToComplex_vec, bind_ok, dit2_call hb, bind_ok,
    rdSpan_vec (Nat.zero_le _) (half_lt hb), bind_ok, Nat.sub_zero, copyInto_vec _ _ (by omega), bind_ok,
    pure_eq_ok]
  congr 2
  exact vec_ext (fun k _ => by simp [specDft])

theorem irfft_vec {b l m : ℕ} (hb : 1 ≤ b) (hl : 2 ^ b / 2 + 1 ≤ l) (hl2 : l ≤ 2 ^ b)
    (hm : 2 ^ b ≤ m) (f c : ℕ → ℂ) (o : ℕ → ℝ) :
    ∃ f', (rfftPlanOf b f).irfft (vec l c) (vec m o) = .ok (rfftPlanOf b f',
      vec m (fun n => if n < 2 ^ b then (Spec.idft (2 ^ b) (Spec.hermitian (2 ^ b) c) n).re
        else o n)) := by
  refine ⟨specDft .backward (2 ^ b) (Spec.hermitian (2 ^ b) c), ?_⟩
  unfold RfftPlan.irfft
  simp only [rfftPlanOf_size]
  have h1 : (rfftPlanOf b f).buffer = vec (2 ^ b) f := rfl
  have h2 : (rfftPlanOf b f).fft = dit2PlanOf b := rfl
  have hl' := half_lt hb
  rw [h1, h2, length_vec, copyInto_vec _ _ (by omega), bind_ok]
  rw [forR_eq' (s' := vec (2 ^ b) (Spec.hermitian (2 ^ b) c))
    (fun i => vec (2 ^ b) (fun k => if k < i then Spec.hermitian (2 ^ b) c k
      else if k < l then c k else f k)) hl', bind_ok, dit2_call hb, bind_ok]
  · rw [forN_eq' (s' := vec m (fun n => if n < 2 ^ b then
        (Spec.idft (2 ^ b) (Spec.hermitian (2 ^ b) c) n).re else o n))
      (fun i => vec m (fun n => if n < i then
        (Spec.idft (2 ^ b) (Spec.hermitian (2 ^ b) c) n).re else o n)), bind_ok, pure_eq_ok]
    · rfl
    · exact vec_ext (fun n _ => by simp)
    · rfl
    · intro i hi
      rw [rd_vec_ok hi, bind_ok, wr_vec_ok (by omega)]
      congr 1
      apply vec_ext
      intro n _
      by_cases h : n = i
      · subst h; simp [specDft]
      · have : n < i + 1 ↔ n < i := by omega
        simp [h, this]
  · apply vec_ext
    intro k hk
    by_cases h : k < 2 ^ b / 2 + 1
    · have hkl : k < l := by omega
      have h' : k ≤ 2 ^ b / 2 := by omega
      simp [h, hkl, Spec.hermitian, h']
    · simp [h]
  · exact vec_ext (fun k hk => by simp [hk])
  · intro i h1 h2
    rw [rd_vec_ok (by omega), bind_ok, wr_vec_ok h2]
    congr 1
    apply vec_ext
    intro k hk
    have hpow : 2 ^ b % 2 = 0 := by
      obtain ⟨c, rfl⟩ : ∃ c, b = c + 1 := ⟨b - 1, by omega⟩
      rw [pow_succ]; omega
    by_cases h : k = i
    · subst h
      have e1 : 2 ^ b - k < k := by omega
      have e2 : 2 ^ b - k ≤ 2 ^ b / 2 := by omega
      have e3 : ¬ k ≤ 2 ^ b / 2 := by omega
      have e4 : (2 ^ b - k < k) = True := by simp [e1]
      simp [Spec.hermitian, e1, e2, e3]
    · have : k < i + 1 ↔ k < i := by omega
      simp [h, this]

/-- The spectrum of a real signal is its own Hermitian extension. -/
theorem hermitian_dft {N : ℕ} (x : ℕ → ℝ) {k : ℕ} (hk : k < N) :
    Spec.hermitian N (Spec.dft N (fun n => (x n : ℂ))) k = Spec.dft N (fun n => (x n : ℂ)) k := by
  unfold Spec.hermitian
  split
  · rfl
  · rw [← dft_real_symm x (by omega), Nat.sub_sub_self hk.le]

theorem hermitian_congr {N : ℕ} {c d : ℕ → ℂ} (h : ∀ k ≤ N / 2, c k = d k) {k : ℕ} (hk : k < N) :
    Spec.hermitian N c k = Spec.hermitian N d k := by
  unfold Spec.hermitian
  split
  · next h' => exact h k h'
  · rw [h _ (by omega)]

/-- Hermitian extension of a product of two spectra of real signals. -/
theorem hermitian_mul_dft {N : ℕ} (x y : ℕ → ℝ) {k : ℕ} (hk : k < N) :
    Spec.hermitian N (fun k => Spec.dft N (fun n => (x n : ℂ)) k
      * Spec.dft N (fun n => (y n : ℂ)) k) k
      = Spec.dft N (fun n => (x n : ℂ)) k * Spec.dft N (fun n => (y n : ℂ)) k := by
  unfold Spec.hermitian
  split
  · rfl
  · rw [map_mul, ← dft_real_symm x (by omega), ← dft_real_symm y (by omega),
      Nat.sub_sub_self hk.le]

/-! ## `rfft_deinterleave` -/

theorem rfftDeinterleave_vec {N m1 m2 : ℕ} (hN : 1 ≤ N) (h1 : N / 2 + 1 ≤ m1)
    (h2 : N / 2 + 1 ≤ m2) (a b : ℕ → ℝ) (o1 o2 : ℕ → ℂ) :
    rfftDeinterleave (vec N (Spec.dft N (fun n => (a n : ℂ) + (b n : ℂ) * Complex.I)))
      (vec m1 o1) (vec m2 o2)
    = .ok (vec m1 (fun k => if k < N / 2 + 1 then Spec.dft N (fun n => (a n : ℂ)) k else o1 k),
        vec m2 (fun k => if k < N / 2 + 1 then Spec.dft N (fun n => (b n : ℂ)) k else o2 k)) := by
  set A := Spec.dft N (fun n => (a n : ℂ)) with hA
  set B := Spec.dft N (fun n => (b n : ℂ)) with hB
  have hZ : ∀ k, Spec.dft N (fun n => (a n : ℂ) + (b n : ℂ) * Complex.I) k
      = A k + Complex.I * B k := by
    intro k
    rw [dft_add, hB, ← dft_smul]
    congr 2
    funext n; ring
  have hre : ∀ (x : ℕ → ℝ), conj (Spec.dft N (fun n => (x n : ℂ)) 0)
      = Spec.dft N (fun n => (x n : ℂ)) 0 := by
    intro x
    rw [← dft_real_symm x (Nat.zero_le N), Nat.sub_zero, dft_self (by omega)]
  have hA0 : (A 0).im = 0 := Complex.conj_eq_iff_im.1 (hre a)
  have hB0 : (B 0).im = 0 := Complex.conj_eq_iff_im.1 (hre b)
  unfold rfftDeinterleave
  simp only [length_vec]
  rw [rd_vec_ok (by omega), bind_ok, wr_vec_ok (by omega), bind_ok, wr_vec_ok (by omega), bind_ok]
  apply forR_eq' (fun i => (vec m1 (fun k => if k < i then A k else o1 k),
    vec m2 (fun k => if k < i then B k else o2 k))) (by omega)
  · simp only [Prod.mk.injEq]
    constructor
    · apply vec_ext
      intro k _
      by_cases h : k = 0
      · subst h
        simp only [Nat.lt_one_iff, if_true, Function.update_self]
        rw [hZ]; apply Complex.ext <;> simp [hA0, hB0]
      · simp [h]
    · apply vec_ext
      intro k _
      by_cases h : k = 0
      · subst h
        simp only [Nat.lt_one_iff, if_true, Function.update_self]
        rw [hZ]; apply Complex.ext <;> simp [hA0, hB0]
      · simp [h]
  · rfl
  · intro i hi1 hi2
    have hc : conj (Spec.dft N (fun n => (a n : ℂ) + (b n : ℂ) * Complex.I) (N - i))
        = A i - Complex.I * B i := by
      rw [hZ, hA, hB, dft_real_symm a (by omega), dft_real_symm b (by omega)]
      simp [sub_eq_add_neg]
    rw [rd_vec_ok (by omega), bind_ok, rd_vec_ok (by omega), bind_ok, hc, hZ]
    simp only []
    rw [wr_vec_ok (by omega), bind_ok, wr_vec_ok (by omega), bind_ok, pure_eq_ok]
    have hI : (⟨0, -1⟩ : ℂ) = -Complex.I := by apply Complex.ext <;> simp
    have hhalf : ((0.5 : ℝ) : ℂ) = 1 / 2 := by push_cast; norm_num
    have e1 : (A i + Complex.I * B i + (A i - Complex.I * B i)) * ((0.5 : ℝ) : ℂ) = A i := by
      rw [hhalf]; ring
    have e2 : (A i + Complex.I * B i - (A i - Complex.I * B i)) * (⟨0, -1⟩ : ℂ) * ((0.5 : ℝ) : ℂ)
        = B i := by
      rw [hhalf, hI]
      linear_combination (-B i) * Complex.I_mul_I
    rw [e1, e2]
    congr 2
    · apply vec_ext
      intro k _
      by_cases h : k = i
      · subst h; simp
      · have : k < i + 1 ↔ k < i := by omega
        simp [h, this]
    · apply vec_ext
      intro k _
      by_cases h : k = i
      · subst h; simp
      · have : k < i + 1 ↔ k < i := by omega
        simp [h, this]

end Neo
