import Verif.Model.Overlap
import Verif.Lemmas.Rfft
import Verif.Lemmas.Bits

/-! # One step of overlap-add and overlap-save -/

namespace Neo

open Finset ComplexConjugate

/-- Time-domain signal of the half spectrum `Y` as computed by `irfft` and `scale(1/K)`. -/
noncomputable def specOut (K : ℕ) (Y : ℕ → ℂ) (n : ℕ) : ℝ :=
  (Spec.idft K (Spec.hermitian K Y) n).re * (1 / (K : ℝ))

theorem specOut_congr {K : ℕ} {Y Z : ℕ → ℂ} (h : ∀ k ≤ K / 2, Y k = Z k) (n : ℕ) :
    specOut K Y n = specOut K Z n := by
  unfold specOut
  rw [idft_congr (fun k hk => hermitian_congr h hk)]

theorem hermitian_sum {ι : Type} (s : Finset ι) (N : ℕ) (c : ι → ℕ → ℂ) (k : ℕ) :
    Spec.hermitian N (fun k => ∑ i ∈ s, c i k) k = ∑ i ∈ s, Spec.hermitian N (c i) k := by
  unfold Spec.hermitian
  split
  · rfl
  · rw [map_sum]

theorem circConv_ofReal (K : ℕ) (x y : ℕ → ℝ) (n : ℕ) :
    Spec.circConv K (fun i => (x i : ℂ)) (fun i => (y i : ℂ)) n
      = ((Spec.circConv K x y n : ℝ) : ℂ) := by
  unfold Spec.circConv
  push_cast
  rfl

/-- A sum of products of real spectra is a sum of circular convolutions in the time domain. -/
theorem specOut_sum {ι : Type} (s : Finset ι) {K : ℕ} (x h : ι → ℕ → ℝ) {n : ℕ} (hn : n < K) :
    specOut K (fun k => ∑ i ∈ s, Spec.dft K (fun m => (x i m : ℂ)) k
        * Spec.dft K (fun m => (h i m : ℂ)) k) n
      = ∑ i ∈ s, Spec.circConv K (x i) (h i) n := by
  unfold specOut
  have e : Spec.idft K (Spec.hermitian K (fun k => ∑ i ∈ s, Spec.dft K (fun m => (x i m : ℂ)) k
        * Spec.dft K (fun m => (h i m : ℂ)) k)) n
      = ((K * ∑ i ∈ s, Spec.circConv K (x i) (h i) n : ℝ) : ℂ) := by
    rw [idft_congr (y := fun k => ∑ i ∈ s, Spec.dft K (fun m => (x i m : ℂ)) k
        * Spec.dft K (fun m => (h i m : ℂ)) k), idft_sum]
    · push_cast
      rw [mul_sum]
      apply sum_congr rfl
      intro i _
      rw [idft_mul_dft _ _ hn, circConv_ofReal]
    · intro k hk
      rw [hermitian_sum]
      exact sum_congr rfl (fun i _ => hermitian_mul_dft _ _ hk)
  rw [e, Complex.ofReal_re]
  have : (K : ℝ) ≠ 0 := by
    have : 0 < K := by omega
    positivity
  field_simp

theorem specOut_mul {K : ℕ} (x h : ℕ → ℝ) {n : ℕ} (hn : n < K) :
    specOut K (fun k => Spec.dft K (fun m => (x m : ℂ)) k * Spec.dft K (fun m => (h m : ℂ)) k) n
      = Spec.circConv K x h n := by
  simpa using specOut_sum {()} (fun _ => x) (fun _ => h) hn

/-! ## Overlap-add -/

/-- An overlap-add object with transform size `2 ^ b`. -/
noncomputable def oaOf (B F b : ℕ) (f : ℕ → ℂ) (w : ℕ → ℝ) (sp : ℕ → ℂ) (ov : ℕ → ℝ) :
    OverlapAdd where
  blockSize := B
  filterSize := F
  rfft := rfftPlanOf b f
  window := vec (2 ^ b) w
  spectrum := vec (2 ^ b / 2 + 1) sp
  overlap := vec B ov

theorem overlapAdd_make_eq {B F : ℕ} (hb : Nat.clog 2 (B + F - 1) ≤ 27)
    (hne : B + F ≠ 0 := by omega) :
    OverlapAdd.make B F = .ok (oaOf B F (Nat.clog 2 (B + F - 1)) (fun _ => 0) (fun _ => 0)
      (fun _ => 0) (fun _ => 0)) := by
  unfold OverlapAdd.make outputSizeFull
  rw [if_neg hne, bind_ok]
  rw [nextOrder_eq, rfftPlan_make_eq hb, bind_ok, pure_eq_ok]
  simp only [rfftPlanOf_size]
  rfl

/-- The window content handed to the transform. -/
def oaWindow (B : ℕ) (x w : ℕ → ℝ) (k : ℕ) : ℝ :=
  if k < B then x k else if k < B * 2 then 0 else w k

theorem oa_step {σ : Type} {B F b : ℕ} (hb : 1 ≤ b) (hK : B * 2 ≤ 2 ^ b) (f : ℕ → ℂ)
    (w : ℕ → ℝ) (sp : ℕ → ℂ) (ov x : ℕ → ℝ) (cb : Callback σ) (s s' : σ) (Y : ℕ → ℂ)
    (hcb : cb (vec (2 ^ b / 2 + 1) (Spec.dft (2 ^ b) (fun n => (oaWindow B x w n : ℂ)))) s
      = .ok (vec (2 ^ b / 2 + 1) Y, s')) :
    ∃ f', (oaOf B F b f w sp ov).call (vec B x) cb s
      = .ok (oaOf B F b f' (specOut (2 ^ b) Y) Y (fun i => specOut (2 ^ b) Y (B + i)),
          vec B (fun i => specOut (2 ^ b) Y i + ov i), s') := by
  unfold OverlapAdd.call
  have h1 : (oaOf B F b f w sp ov).blockSize = B := rfl
  have h2 : (oaOf B F b f w sp ov).window = vec (2 ^ b) w := rfl
  have h3 : (oaOf B F b f w sp ov).rfft = rfftPlanOf b f := rfl
  have h4 : (oaOf B F b f w sp ov).spectrum = vec (2 ^ b / 2 + 1) sp := rfl
  have h5 : (oaOf B F b f w sp ov).overlap = vec B ov := rfl
  simp only [h1, h2, h3, h4, h5, length_vec, decide_true, check_true, bind_ok]
  rw [rdSpan_vec (Nat.zero_le _) (by omega), bind_ok, rdSpan_vec (by omega) hK, bind_ok,
    copyInto_vec _ _ (by omega), bind_ok, fillVec_vec, bind_ok, wrSpan_vec (by omega), bind_ok]
  have hw : (vec (2 ^ b) fun i => if B ≤ i ∧ i < B + (B * 2 - B) then (0 : ℝ)
      else if 0 ≤ i ∧ i < 0 + B then x (i - 0) else w i) = vec (2 ^ b) (oaWindow B x w) := by
    apply vec_ext
    intro i _
    unfold oaWindow
    by_cases c1 : i < B
    · have : ¬ (B ≤ i ∧ i < B + (B * 2 - B)) := by omega
      simp [c1, this]
    · by_cases c2 : i < B * 2
      · have : B ≤ i ∧ i < B + (B * 2 - B) := by omega
        simp [c1, c2, this]
      · have : ¬ (B ≤ i ∧ i < B + (B * 2 - B)) := by omega
        simp [c1, c2, this]
  rw [hw]
  obtain ⟨f1, e1⟩ := rfft_vec hb le_rfl f (oaWindow B x w) sp
  rw [e1, bind_ok]
  have hsp : (vec (2 ^ b / 2 + 1) fun k => if k < 2 ^ b / 2 + 1 then
      Spec.dft (2 ^ b) (fun n => (oaWindow B x w n : ℂ)) k else sp k)
      = vec (2 ^ b / 2 + 1) (Spec.dft (2 ^ b) (fun n => (oaWindow B x w n : ℂ))) :=
    vec_ext (fun k hk => by rw [if_pos hk])
  simp only []
  rw [hsp, hcb, bind_ok]
  simp only []
  obtain ⟨f2, e2⟩ := irfft_vec hb le_rfl (half_lt hb) (le_refl (2 ^ b)) f1 Y (oaWindow B x w)
  rw [e2, bind_ok]
  simp only [rfftPlanOf_size]
  rw [scaleVec_vec, bind_ok]
  have hout : (vec (2 ^ b) fun i => (if i < 2 ^ b then
      (Spec.idft (2 ^ b) (Spec.hermitian (2 ^ b) Y) i).re else oaWindow B x w i)
        * (1 / ((2 ^ b : ℕ) : ℝ))) = vec (2 ^ b) (specOut (2 ^ b) Y) :=
    vec_ext (fun i hi => by rw [if_pos hi]; rfl)
  rw [hout, rdSpan_vec (Nat.zero_le _) (by omega), bind_ok, Nat.sub_zero, addVec_vec, bind_ok,
    rdSpan_vec (by omega) hK, bind_ok, show B * 2 - B = B by omega, copyVec_vec, bind_ok, pure_eq_ok]
  refine ⟨f2, ?_⟩
  simp only [Nat.zero_add]
  rfl

/-- If the transform is shorter than two blocks, the padding view is out of bounds. -/
theorem oa_short {σ : Type} {B F b : ℕ} (hK : 2 ^ b < B * 2) (f : ℕ → ℂ)
    (w : ℕ → ℝ) (sp : ℕ → ℂ) (ov x : ℕ → ℝ) (cb : Callback σ) (s : σ) :
    (oaOf B F b f w sp ov).call (vec B x) cb s = .error .oob := by
  unfold OverlapAdd.call
  have h1 : (oaOf B F b f w sp ov).blockSize = B := rfl
  have h2 : (oaOf B F b f w sp ov).window = vec (2 ^ b) w := rfl
  simp only [h1, h2, length_vec, decide_true, check_true, bind_ok]
  by_cases h : B ≤ 2 ^ b
  · rw [rdSpan_vec (Nat.zero_le _) h, bind_ok]
    have : rdSpan (vec (2 ^ b) w) B (B * 2) = .error .oob := by
      unfold rdSpan
      rw [if_neg (by rw [length_vec]; omega)]
    rw [this, bind_error]
  · have : rdSpan (vec (2 ^ b) w) 0 B = .error .oob := by
      unfold rdSpan
      rw [if_neg (by rw [length_vec]; omega)]
    rw [this, bind_error]

/-! ## Overlap-save -/

/-- An overlap-save object with transform size `2 ^ b`. -/
noncomputable def osOf (B F b : ℕ) (f : ℕ → ℂ) (w rb : ℕ → ℝ) (cbuf : ℕ → ℂ) : OverlapSave where
  blockSize := B
  filterSize := F
  plan := rfftPlanOf b f
  window := vec (2 ^ b) w
  realBuffer := vec (2 ^ b) rb
  complexBuffer := vec (2 ^ b) cbuf

theorem overlapSave_make_eq {B F : ℕ} (hb : Nat.clog 2 (B + F - 1) ≤ 27)
    (hne : B + F ≠ 0 := by omega) :
    OverlapSave.make B F = .ok (osOf B F (Nat.clog 2 (B + F - 1)) (fun _ => 0) (fun _ => 0)
      (fun _ => 0) (fun _ => 0)) := by
  unfold OverlapSave.make
  rw [if_neg hne, bind_ok]
  rw [nextOrder_eq, rfftPlan_make_eq hb, bind_ok, pure_eq_ok]
  simp only [rfftPlanOf_size]
  rfl

/-- Sliding by one block. -/
theorem slideWindowLeft_vec {R : Type} {K B : ℕ} (hB : 1 ≤ B) (w : ℕ → R) :
    slideWindowLeft B (vec K w)
      = .ok (vec K (fun k => if k + B < K / B * B then w (k + B) else w k)) := by
  unfold slideWindowLeft
  rw [if_neg (by omega), length_vec]
  have hK := Nat.div_mul_le_self K B
  generalize K / B = q at hK ⊢
  apply forN_eq' (fun i => vec K (fun k => if k < i * B then w (k + B) else w k))
  · exact vec_ext (fun k _ => by simp)
  · apply vec_ext
    intro k hk
    have : k < (q - 1) * B ↔ k + B < q * B := by
      rcases q with _ | q
      · simp
      · rw [Nat.add_sub_cancel, add_mul, one_mul]; omega
    simp only [this]
  · intro i hi
    unfold slideStep
    have h1 : i * B + B + B ≤ q * B := by
      have := Nat.mul_le_mul_right B (show i + 2 ≤ q by omega)
      rw [add_mul] at this; omega
    simp only []
    rw [rdSpan_vec (by omega) (by omega), bind_ok, show i * B + B + B - (i * B + B) = B by omega,
      show i * B + B - i * B = B by omega, copyInto_vec _ _ (by omega)]
    congr 1
    apply vec_ext
    intro k _
    rw [add_mul, one_mul]
    beta_reduce
    by_cases c : i * B ≤ k ∧ k < i * B + B
    · rw [if_pos c, if_pos c.2, if_neg (by omega)]
      congr 1; omega
    · rw [if_neg c]
      by_cases c2 : k < i * B
      · rw [if_pos c2, if_pos (by omega)]
      · rw [if_neg c2, if_neg (by omega)]

/-- The window content handed to the transform. -/
def osWindow (K B : ℕ) (x w : ℕ → ℝ) (k : ℕ) : ℝ :=
  if K - B ≤ k then x (k - (K - B)) else if k + B < K / B * B then w (k + B) else w k

theorem osWindow_dvd {K B : ℕ} (hK : B ∣ K) (x w : ℕ → ℝ) (k : ℕ) :
    osWindow K B x w k = if k + B < K then w (k + B) else x (k - (K - B)) := by
  unfold osWindow
  rw [Nat.div_mul_cancel hK]
  by_cases c : k + B < K
  · rw [if_neg (by omega), if_pos c, if_pos c]
  · rw [if_pos (by omega), if_neg c]

theorem os_step {σ : Type} {B F b : ℕ} (hb : 1 ≤ b) (hB : 1 ≤ B) (hBK : B ≤ 2 ^ b) (f : ℕ → ℂ)
    (w rb : ℕ → ℝ) (cbuf : ℕ → ℂ) (x : ℕ → ℝ) (cb : Callback σ) (s s' : σ) (Y : ℕ → ℂ)
    (hcb : cb (vec (2 ^ b / 2 + 1) (Spec.dft (2 ^ b) (fun n => (osWindow (2 ^ b) B x w n : ℂ)))) s
      = .ok (vec (2 ^ b / 2 + 1) Y, s')) :
    ∃ f' rb' cbuf', (osOf B F b f w rb cbuf).call (vec B x) cb s
      = .ok (osOf B F b f' (osWindow (2 ^ b) B x w) rb' cbuf',
          vec B (fun i => specOut (2 ^ b) Y (2 ^ b - B + i)), s') := by
  unfold OverlapSave.call
  have h1 : (osOf B F b f w rb cbuf).blockSize = B := rfl
  have h2 : (osOf B F b f w rb cbuf).window = vec (2 ^ b) w := rfl
  have h3 : (osOf B F b f w rb cbuf).plan = rfftPlanOf b f := rfl
  have h4 : (osOf B F b f w rb cbuf).realBuffer = vec (2 ^ b) rb := rfl
  have h5 : (osOf B F b f w rb cbuf).complexBuffer = vec (2 ^ b) cbuf := rfl
  have hl := half_lt hb
  simp only [h1, h2, h3, h4, h5, length_vec, decide_true, check_true, bind_ok, rfftPlanOf_size,
    subIdx, if_pos hBK]
  rw [rdSpan_vec (by omega) le_rfl, bind_ok]
  rw [slideWindowLeft_vec hB, bind_ok, show 2 ^ b - (2 ^ b - B) = B by omega, copyInto_vec _ _ (by omega), bind_ok]
  have hw : (vec (2 ^ b) fun i => if 2 ^ b - B ≤ i ∧ i < 2 ^ b - B + B then x (i - (2 ^ b - B))
      else if i + B < 2 ^ b / B * B then w (i + B) else w i) = vec (2 ^ b) (osWindow (2 ^ b) B x w) := by
    apply vec_ext
    intro i hi
    unfold osWindow
    by_cases c : 2 ^ b - B ≤ i
    · rw [if_pos (by omega), if_pos c]
    · rw [if_neg (by omega), if_neg c]
  rw [hw]
  obtain ⟨f1, e1⟩ := rfft_vec hb hl f (osWindow (2 ^ b) B x w) cbuf
  rw [e1, bind_ok]
  simp only []
  rw [rdSpan_vec (Nat.zero_le _) hl, bind_ok, Nat.sub_zero]
  have hsp : (vec (2 ^ b / 2 + 1) fun i => if 0 + i < 2 ^ b / 2 + 1 then
      Spec.dft (2 ^ b) (fun n => (osWindow (2 ^ b) B x w n : ℂ)) (0 + i) else cbuf (0 + i))
      = vec (2 ^ b / 2 + 1) (Spec.dft (2 ^ b) (fun n => (osWindow (2 ^ b) B x w n : ℂ))) :=
    vec_ext (fun k hk => by rw [Nat.zero_add, if_pos hk])
  rw [hsp, hcb, bind_ok]
  simp only []
  rw [wrSpan_vec (by omega), bind_ok]
  generalize hZ : (fun i => if 0 ≤ i ∧ i < 0 + (2 ^ b / 2 + 1) then Y (i - 0)
      else if i < 2 ^ b / 2 + 1 then
        Spec.dft (2 ^ b) (fun n => (osWindow (2 ^ b) B x w n : ℂ)) i else cbuf i) = Z
  obtain ⟨f2, e2⟩ := irfft_vec hb hl (le_refl (2 ^ b)) (le_refl (2 ^ b)) f1 Z rb
  rw [e2, bind_ok]
  simp only [rfftPlanOf_size]
  rw [scaleVec_vec, bind_ok, rdSpan_vec (by omega) le_rfl, bind_ok,
    show 2 ^ b - (2 ^ b - B) = B by omega, copyVec_vec, bind_ok, pure_eq_ok]
  refine ⟨f2, fun i => (if i < 2 ^ b then
    (Spec.idft (2 ^ b) (Spec.hermitian (2 ^ b) Z) i).re else rb i) * (1 / ((2 ^ b : ℕ) : ℝ)),
    Z, ?_⟩
  congr 3
  apply vec_ext
  intro i hi
  rw [if_pos (by omega)]
  unfold specOut
  congr 2
  apply idft_congr
  intro k hk
  apply hermitian_congr _ hk
  intro k hk
  rw [← hZ]
  simp only []
  rw [if_pos (by omega), Nat.sub_zero]

end Neo
