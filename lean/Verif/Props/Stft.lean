import Verif.Lemmas.UpcRun

/-! # C31: the short-time Fourier transform -/

namespace Neo.Props

open Neo Finset

/-- **C31.**  For a matrix of channels with `S ≥ 1` samples, frame size `F > O` and transform size
`T ≥ max (F, 2)`, `stft` terminates without a fault (so every access is in bounds), the number of
frames is `⌈S / (F - O)⌉`, every sample lies in some frame, the result holds exactly
`channels × frames × bins` coefficients, and coefficient `k` of frame `t` of a channel is bin `k`
of the DFT of the windowed samples `t (F - O) …  t (F - O) + F - 1`, zero-padded.

Technical bounds: the plan orders that can be constructed (≤ 27), sizes below the machine limits. -/
theorem C31_stft (v : MatView) (data : List ℝ) (o : StftOptions) (hv : v.InRange data.length)
    (hO : o.overlapSize < o.frameSize) (hF : o.frameSize < 2 ^ 64) (hS : 1 ≤ v.cols)
    (hS2 : v.cols < 2 ^ 64) (hT : o.frameSize ≤ o.transformSize) (hT2 : 2 ≤ o.transformSize)
    (hT3 : o.transformSize ≤ 2 ^ 27)
    (hsz : v.rows * ((v.cols + (o.frameSize - o.overlapSize - 1)) / (o.frameSize - o.overlapSize))
      * (2 ^ Nat.clog 2 o.transformSize / 2 + 1) < 2 ^ 59) :
    let S := v.cols
    let F := o.frameSize
    let H := F - o.overlapSize
    let N := (S + (H - 1)) / H
    let K := 2 ^ Nat.clog 2 o.transformSize
    let bins := K / 2 + 1
    ∃ result, stft v data o = .ok (N, bins, result) ∧ result.length = v.rows * N * bins ∧
      (∀ i < S, ∃ t < N, t * H ≤ i ∧ i < t * H + F) ∧
      ∀ c < v.rows, ∀ t < N, ∀ k < bins, result.getD ((c * N + t) * bins + k) 0
        = Spec.dft K (fun n => ((if n < F ∧ t * H + n < S then
            data.getD (v.idx c (t * H + n)) 0 * o.window n K else 0 : ℝ) : ℂ)) k := by
  intro S F H N K bins
  have hH : 1 ≤ H := by show 1 ≤ o.frameSize - o.overlapSize; omega
  have hN : N = (S - 1) / H + 1 := by
    show (v.cols + (H - 1)) / H = (v.cols - 1) / H + 1
    rw [show v.cols + (H - 1) = (v.cols - 1) + H by omega, Nat.add_div_right _ hH]
  have hb1 : 1 ≤ Nat.clog 2 o.transformSize := Nat.clog_pos (by norm_num) hT2
  have hb2 : Nat.clog 2 o.transformSize ≤ 27 := (Nat.clog_le_iff_le_pow (by norm_num)).2 hT3
  have hK : o.transformSize ≤ K := Nat.le_pow_clog (by norm_num) _
  change v.rows * N * bins < 2 ^ 59 at hsz
  rw [hN] at hsz
  obtain ⟨p', g, e, hg⟩ := stft_call_eq (v := v) (data := data) (o := o) hb1 (fun _ => 0)
    (fun _ => 0) (fun _ => 0) (chanAt v data) (fun c hc i hi => rd_chanAt hv hc hi) hO hF hS hS2
    (le_trans (min_le_right _ _) (hT.trans hK)) hsz
  change (stftPlanOf o (Nat.clog 2 o.transformSize) (fun _ => 0) (fun _ => 0)
    (fun _ => 0)).call v data = .ok (p', (S - 1) / H + 1, bins, vec (v.rows * ((S - 1) / H + 1) * bins) g) at e
  change ∀ c < v.rows, ∀ t < (S - 1) / H + 1, ∀ k < bins,
    g ((c * ((S - 1) / H + 1) + t) * bins + k)
      = Spec.dft K (fun n => (frameSamples F S (fun i => o.window i K) (chanAt v data c) (t * H) n : ℂ)) k at hg
  rw [← hN] at e hg
  refine ⟨_, ?_, length_vec _ g, ?_, ?_⟩
  · unfold stft
    rw [stftPlan_make_eq hb2, bind_ok, e, bind_ok]
    rfl
  · intro i hi
    have h1 := Nat.div_add_mod i H
    have h2 := Nat.mod_lt i hH
    refine ⟨i / H, ?_, ?_, ?_⟩
    · rw [hN]
      have : i / H ≤ (S - 1) / H := Nat.div_le_div_right (by omega)
      omega
    · rw [Nat.mul_comm]; omega
    · have : H ≤ F := Nat.sub_le _ _
      rw [Nat.mul_comm]; omega
  · intro c hc t ht k hk
    have hlt : (c * N + t) * bins + k < v.rows * N * bins := by
      have h1 := row_end (C := N) hc
      have h2 : (c * N + t) * bins + bins ≤ v.rows * N * bins := row_end (C := bins) (by omega)
      omega
    rw [getD_vec _ _ _ _ hlt, hg c hc t ht k hk]
    apply dft_congr
    intro n _
    refine congrArg (fun r : ℝ => (r : ℂ)) ?_
    unfold frameSamples
    by_cases h : n < F ∧ t * H + n < S
    · rw [if_pos h, if_pos h, chanAt, if_pos h.2]
    · rw [if_neg h, if_neg h]

/-- One channel of five samples, frames of four samples overlapping by two: three frames. -/
example : let v : MatView := MatView.right 1 5
    let o : StftOptions := { frameSize := 4, transformSize := 4, overlapSize := 2,
                             window := rectangularWindow }
    v.InRange [(1 : ℝ), 2, 3, 4, 5].length ∧ o.overlapSize < o.frameSize ∧
      o.frameSize ≤ o.transformSize ∧ 2 ≤ o.transformSize ∧
      (v.cols + (o.frameSize - o.overlapSize - 1)) / (o.frameSize - o.overlapSize) = 3 := by
  refine ⟨?_, by decide, by decide, by decide, by decide⟩
  intro r hr c hc
  simp only [MatView.right, MatView.idx, List.length_cons, List.length_nil] at *
  omega

/-- The excluded corner: frames of one sample with a transform of size one (order 0) leave the
buffers on every non-empty input. -/
theorem C31_transform_size_one_oob (v : MatView) (data : List ℝ) (window : ℕ → ℕ → ℝ)
    (hv : v.InRange data.length) (hr : 1 ≤ v.rows) (hS : 1 ≤ v.cols) (hS2 : v.cols < 2 ^ 64)
    (hsz : v.rows * v.cols < 2 ^ 59) :
    stft v data { frameSize := 1, transformSize := 1, overlapSize := 0, window := window }
      = .error .oob := by
  have hcl : Nat.clog 2 1 = 0 := by decide +kernel
  set o : StftOptions := { frameSize := 1, transformSize := 1, overlapSize := 0, window := window }
    with ho
  unfold stft
  rw [stftPlan_make_eq (by rw [show o.transformSize = 1 from rfl, hcl]; norm_num), bind_ok,
    show o.transformSize = 1 from rfl, hcl]
  unfold StftPlan.call
  have e4 : (stftPlanOf o 0 (fun _ => 0) (fun _ => 0) (fun _ => 0)).rfft
    = rfftPlanOf 0 (fun _ => 0) := rfl
  have e1 : (stftPlanOf o 0 (fun _ => 0) (fun _ => 0) (fun _ => 0)).options = o := rfl
  have e1a : o.frameSize = 1 := rfl
  have e1b : o.overlapSize = 0 := rfl
  have hfr : numStftFrames v.cols 1 0 = .ok v.cols := by
    rw [numStftFrames_eq hS hS2 (by norm_num) (by norm_num)]
    simp
    omega
  have hw : w64 (v.rows * v.cols * 1) = v.rows * v.cols := by
    rw [mul_one]
    exact w64_of_lt (hsz.trans (by norm_num))
  simp only [e4, e1, e1a, e1b, rfftPlanOf_size, pow_zero]
  rw [hfr, bind_ok, show 1 / 2 + 1 = 1 from rfl, hw, if_pos hsz, bind_ok]
  have hframe : ∀ p, stftFrame v data v.cols 1 0 0 (StftState.mk
      (stftPlanOf o 0 (fun _ => 0) (fun _ => 0) (fun _ => 0)) p) = .error .oob := by
    intro p
    unfold stftFrame
    have e2 : (stftPlanOf o 0 (fun _ => 0) (fun _ => 0) (fun _ => 0)).input = vec (2 ^ 0) (fun _ => 0) := rfl
    have e3 : (stftPlanOf o 0 (fun _ => 0) (fun _ => 0) (fun _ => 0)).output = vec (2 ^ 0) (fun _ => 0) := rfl
    have e5 : (stftPlanOf o 0 (fun _ => 0) (fun _ => 0) (fun _ => 0)).window
      = vec (2 ^ 0) (fun i => window i (2 ^ 0)) := rfl
    have hws : wsub v.cols 0 = v.cols := by
      rw [wsub_eq (Nat.zero_le _) (by omega), Nat.sub_zero]
    have h0 : wsub (0 * 1) (0 * 0) = 0 := by decide
    simp only [e1, e2, e3, e4, e5, e1a, e1b, length_vec, h0, hws, Nat.min_eq_right hS]
    rw [if_pos ⟨by omega, by norm_num⟩, bind_ok, fillVec_vec, bind_ok, fillVec_vec, bind_ok]
    simp only [forN, bind_ok, Nat.zero_add, Nat.add_zero]
    rw [rd_chanAt hv hr hS, bind_ok, wr_vec_ok (by norm_num), bind_ok, multiplyInPlace_vec, bind_ok,
      rfft_order_zero]
    rfl
  rw [forN_error (e := .oob) _ hr]
  · rfl
  · exact forN_error (hframe _) hS

end Neo.Props
