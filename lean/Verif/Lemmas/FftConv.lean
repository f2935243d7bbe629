import Verif.Lemmas.Overlap
import Verif.Lemmas.Conv

/-! # `fft_convolver` -/

namespace Neo

open Finset

/-- Zero extension of the first `n` values. -/
def zext {R : Type} [Zero R] (n : ℕ) (f : ℕ → R) (i : ℕ) : R := if i < n then f i else 0

theorem zext_zero {R : Type} [Zero R] {n i : ℕ} (f : ℕ → R) (h : n ≤ i) : zext n f i = 0 := by
  unfold zext; rw [if_neg (by omega)]

theorem zext_of_lt {R : Type} [Zero R] {n i : ℕ} (f : ℕ → R) (h : i < n) : zext n f i = f i := by
  unfold zext; rw [if_pos h]

/-- An `fft_convolver` with transform size `2 ^ b`. -/
noncomputable def fcOf (n l b : ℕ) (f : ℕ → ℂ) (tmp : ℕ → ℝ) (ss ps : ℕ → ℂ) : FftConvolver where
  signalSize := n
  patchSize := l
  plan := rfftPlanOf b f
  tmp := vec (2 ^ b) tmp
  signalSpectrum := vec (2 ^ b / 2 + 1) ss
  patchSpectrum := vec (2 ^ b / 2 + 1) ps

theorem fftConvolver_init_eq {n l : ℕ} (hb : Nat.clog 2 (n + l - 1) ≤ 27)
    (hne : n + l ≠ 0 := by omega) :
    FftConvolver.init n l = .ok (fcOf n l (Nat.clog 2 (n + l - 1)) (fun _ => 0) (fun _ => 0)
      (fun _ => 0) (fun _ => 0)) := by
  unfold FftConvolver.init outputSizeFull
  rw [if_neg hne, bind_ok]
  rw [nextOrder_eq, rfftPlan_make_eq hb, bind_ok, pure_eq_ok]
  simp only [rfftPlanOf_size]
  rfl

theorem zeroPadForward_vec {b n : ℕ} (hb : 1 ≤ b) (hn : n ≤ 2 ^ b) (f : ℕ → ℂ) (tmp x : ℕ → ℝ)
    (o : ℕ → ℂ) :
    ∃ f', zeroPadForward (rfftPlanOf b f) (vec (2 ^ b) tmp) (vec n x) (vec (2 ^ b / 2 + 1) o)
      = .ok (rfftPlanOf b f', vec (2 ^ b) (zext n x),
          vec (2 ^ b / 2 + 1) (Spec.dft (2 ^ b) (fun i => ((zext n x i : ℝ) : ℂ)))) := by
  unfold zeroPadForward
  rw [length_vec, copyInto_vec _ _ (by omega), bind_ok, length_vec, rdSpan_vec hn le_rfl, bind_ok,
    fillVec_vec, bind_ok, wrSpan_vec (by omega), bind_ok]
  have e : (vec (2 ^ b) fun i => if n ≤ i ∧ i < n + (2 ^ b - n) then (0 : ℝ)
      else if 0 ≤ i ∧ i < 0 + n then x (i - 0) else tmp i) = vec (2 ^ b) (zext n x) := by
    apply vec_ext
    intro i hi
    unfold zext
    by_cases c : i < n
    · rw [if_neg (by omega), if_pos (by omega), if_pos c, Nat.sub_zero]
    · rw [if_pos (by omega), if_neg c]
  rw [e]
  obtain ⟨f1, e1⟩ := rfft_vec hb le_rfl f (zext n x) o
  rw [e1, bind_ok]
  refine ⟨f1, ?_⟩
  simp only [pure_eq_ok]
  congr 3
  exact vec_ext (fun k hk => by rw [if_pos hk])

theorem fftConvolver_call {n l b : ℕ} (hn : 1 ≤ n) (hl : 1 ≤ l) (hb : 1 ≤ b)
    (hK : n + l - 1 ≤ 2 ^ b) (f : ℕ → ℂ) (tmp : ℕ → ℝ) (ss ps : ℕ → ℂ) (x h o : ℕ → ℝ) :
    ∃ f' tmp' ss' ps', (fcOf n l b f tmp ss ps).call (vec n x) (vec l h) (vec (n + l - 1) o)
      = .ok (fcOf n l b f' tmp' ss' ps', vec (n + l - 1) (Spec.conv (zext n x) (zext l h))) := by
  unfold FftConvolver.call
  have h1 : (fcOf n l b f tmp ss ps).signalSize = n := rfl
  have h2 : (fcOf n l b f tmp ss ps).patchSize = l := rfl
  have h3 : (fcOf n l b f tmp ss ps).plan = rfftPlanOf b f := rfl
  have h4 : (fcOf n l b f tmp ss ps).tmp = vec (2 ^ b) tmp := rfl
  have h5 : (fcOf n l b f tmp ss ps).signalSpectrum = vec (2 ^ b / 2 + 1) ss := rfl
  have h6 : (fcOf n l b f tmp ss ps).patchSpectrum = vec (2 ^ b / 2 + 1) ps := rfl
  simp only [h1, h2, h3, h4, h5, h6, length_vec, outputSizeFull, decide_true, check_true, bind_ok]
  obtain ⟨f1, e1⟩ := zeroPadForward_vec hb (by omega : n ≤ 2 ^ b) f tmp x ss
  rw [e1, bind_ok]
  simp only []
  obtain ⟨f2, e2⟩ := zeroPadForward_vec hb (by omega : l ≤ 2 ^ b) f1 (zext n x) h ps
  rw [e2, bind_ok]
  simp only []
  rw [multiplyInPlace_vec, bind_ok]
  unfold transformBackward
  set Y : ℕ → ℂ := fun i => Spec.dft (2 ^ b) (fun i => ((zext n x i : ℝ) : ℂ)) i
    * Spec.dft (2 ^ b) (fun i => ((zext l h i : ℝ) : ℂ)) i with hY
  obtain ⟨f3, e3⟩ := irfft_vec hb le_rfl (half_lt hb) (le_refl (2 ^ b)) f2 Y (zext l h)
  rw [e3, bind_ok]
  simp only [rfftPlanOf_size]
  rw [scaleVec_vec, bind_ok]
  have hout : (vec (2 ^ b) fun i => (if i < 2 ^ b then
      (Spec.idft (2 ^ b) (Spec.hermitian (2 ^ b) Y) i).re else zext l h i)
        * (1 / ((2 ^ b : ℕ) : ℝ))) = vec (2 ^ b) (specOut (2 ^ b) Y) :=
    vec_ext (fun i hi => by rw [if_pos hi]; rfl)
  rw [hout, rdSpan_vec (Nat.zero_le _) hK, bind_ok, Nat.sub_zero, copyVec_vec, bind_ok, pure_eq_ok,
    bind_ok]
  refine ⟨f3, specOut (2 ^ b) Y, Y, Spec.dft (2 ^ b) (fun i => ((zext l h i : ℝ) : ℂ)), ?_⟩
  simp only [pure_eq_ok]
  congr 2
  apply vec_ext
  intro i hi
  rw [Nat.zero_add, hY, specOut_mul _ _ (by omega),
    circConv_eq_conv (P := n) (Q := l) (fun m hm => zext_zero _ hm) (fun m hm => zext_zero _ hm)
      (by omega) (by omega), conv_comm]

end Neo
