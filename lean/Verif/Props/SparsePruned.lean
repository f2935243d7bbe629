import Verif.Props.SparsePeak
import Verif.Props.SparseError

/-! # C125: what the sparse renderer loses by deciding in single precision -/

namespace Neo.Props

open Neo Spec Finset

private theorem ieee32 : binary32.Ieee := by unfold Fmt.Ieee binary32; norm_num

private theorem u32 : binary32.u = 1 / 2 ^ 24 := by
  show (2 : ℝ) ^ (-((24 : ℕ) : ℤ)) = _
  rw [zpow_neg, zpow_natCast, one_div]

private theorem min32 : binary32.minNormal = (2 : ℝ) ^ (-126 : ℤ) := by
  show (2 : ℝ) ^ ((-149 : ℤ) + ((24 : ℕ) : ℤ) - 1) = _
  norm_num

/-- The function `abs` gives, for moduli up to `2²⁹`, a number `g z ≥ 0` that is right to four units of roundoff (of the smallest
normal number, for smaller moduli). -/
def AbsNear (abs : ℂ → FVal) (g : ℂ → ℝ) : Prop :=
  ∀ z : ℂ, ‖z‖ ≤ (2 : ℝ) ^ (29 : ℤ) →
    abs z = .fin (g z) ∧ 0 ≤ g z ∧ |g z - ‖z‖| ≤ 4 * binary32.u * max ‖z‖ binary32.minNormal

/-- The correctly rounded modulus. -/
theorem absNear_round : AbsNear (fun z => binary32.round (.fin ‖z‖)) (fun z => binary32.rndInf ‖z‖) := by
  intro z hz
  have hf := ieee32
  have hu := u_pos binary32
  have hT : max ‖z‖ binary32.minNormal ≤ (2 : ℝ) ^ (29 : ℤ) := max_le hz (by rw [min32]; norm_num)
  have h0 : 0 < max ‖z‖ binary32.minNormal := lt_max_of_lt_right (minNormal_pos _)
  have he := rndInf_abs_err hf (t := ‖z‖) (T := max ‖z‖ binary32.minNormal) (by rw [abs_norm]; exact le_max_left _ _) (le_max_right _ _)
  obtain ⟨r, er, -⟩ := round_ok hf (t := ‖z‖) (T := max ‖z‖ binary32.minNormal) (by rw [abs_norm]; exact le_max_left _ _) (le_max_right _ _)
    (by
      show _ < (2 : ℝ) ^ (128 : ℤ)
      refine lt_of_le_of_lt (mul_le_mul (show 1 + binary32.u ≤ 2 by rw [u32]; norm_num) hT h0.le (by norm_num)) (by norm_num))
  refine ⟨round_fin_of_lt ?_, ?_, he.trans ?_⟩
  · have a := abs_sub_abs_le_abs_sub (binary32.rndInf ‖z‖) ‖z‖
    rw [abs_norm] at a
    show _ < (2 : ℝ) ^ (128 : ℤ)
    have b : binary32.u * max ‖z‖ binary32.minNormal ≤ 1 * (2 : ℝ) ^ (29 : ℤ) :=
      mul_le_mul (by rw [u32]; norm_num) hT h0.le (by norm_num)
    norm_num at b hz ⊢
    linarith
  · have := rndInf_mono binary32 (by norm_num [binary32]) (norm_nonneg z)
    rwa [rndInf_zero] at this
  · have := mul_pos hu h0
    linarith

/-- The modulus of a bin at level `x` or below. -/
private theorem level_le {M m b x : ℝ} (hM : 0 < M) (hm : 0 ≤ m) (h : level (M * M) (m * m) + b ≤ x) :
    m ≤ M * (10 : ℝ) ^ ((x - b) / 20) := by
  rcases hm.eq_or_lt with rfl | hm
  · positivity
  unfold level at h
  rw [if_neg (not_le.2 (mul_pos hm hm))] at h
  have h1 := le_max_right (-72 : ℝ) (10 * Real.logb 10 (m * m / (M * M)))
  rw [Real.logb_div (mul_pos hm hm).ne' (mul_pos hM hM).ne', Real.logb_mul hm.ne' hm.ne', Real.logb_mul hM.ne' hM.ne'] at h1 h
  have h2 : Real.logb 10 (m / M) ≤ (x - b) / 20 := by
    rw [Real.logb_div hm.ne' hM.ne']
    linarith
  rwa [Real.logb_le_iff_le_rpow (by norm_num) (div_pos hm hM), div_le_iff₀ hM, mul_comm] at h2

/-- **C125** (dropped bins).  A bin that the decision in single precision drops, other than an unprotected bin 0, has a modulus of at
most `10^((t + 0.005 - b) / 20)` of the largest one, `b` being the bonus of 100 dB or the A-weighting of its frequency; and with bounds `τ r`
on what may be dropped from partition `r`, the energy of the difference of the outputs of the dense and the sparse convolver is at most
`2 (∑ τ r)²` times the energy of the input. -/
theorem C125_pruned {log10 : FVal → FVal} {κ : ℝ} (hl : LogNear log10 κ) (hκ : κ ≤ 1 / 2 ^ 19) (hm : LogOk log10)
    (hi : log10 (.inf false) = .inf false) (hz : log10 (.fin 0) = .inf true) {abs : ℂ → FVal} {g : ℂ → ℝ} (ha : AbsNear abs g)
    {a : ℕ} (ha1 : 1 ≤ a) (ha2 : a ≤ 20) {v : MatView} {data : List ℂ} (hv : v.InRange data.length) (hr : 1 ≤ v.rows)
    (hc : v.cols = 2 ^ a + 1) {M : ℝ} (hM : IsGreatest {x | ∃ j < v.rows, ∃ k < v.cols, x = ‖data.getD (v.idx j k) 0‖} M)
    (hM1 : (2 : ℝ) ^ (-29 : ℤ) ≤ M) (hM2 : M ≤ (2 : ℝ) ^ (29 : ℤ)) {low : ℕ} (hlow : low ≤ v.cols) {rate t : ℝ} (h1 : 8 ≤ rate)
    (h2 : rate ≤ 2 ^ 19) :
    ∃ w s, sparseWeightsI log10 (2 * 2 ^ a) v.cols low rate = .ok w ∧ normalizationFactorI abs v data = .ok s ∧
      (∀ j < v.rows, ∀ k < v.cols, isAboveThresholdI log10 abs (.fin t) s w j k (data.getD (v.idx j k) 0) = false → k < low ∨ 0 < k →
        ‖data.getD (v.idx j k) 0‖ ≤ M * (10 : ℝ) ^ ((t + 1 / 200 - if k < low then 100 else aWeight (k * rate / (2 * 2 ^ a))) / 20)) ∧
      ∀ τ : ℕ → ℝ, (∀ j < v.rows, 0 ≤ τ j) →
        (∀ j < v.rows, ∀ k < v.cols, ‖data.getD (v.idx j k) 0‖ ≤ τ j ∨ ((k < low ∨ 0 < k) ∧
          M * (10 : ℝ) ^ ((t + 1 / 200 - if k < low then 100 else aWeight (k * rate / (2 * 2 ^ a))) / 20) ≤ τ j)) →
        ∀ blocks : List (List ℝ), (∀ b ∈ blocks, b.length = 2 ^ a) →
        ∃ o o', upolaRun v data blocks = .ok o ∧ sparseUpolaRun v data (isAboveThresholdI log10 abs (.fin t) s w) blocks = .ok o' ∧
          o.flatten.length = blocks.flatten.length ∧ o'.flatten.length = blocks.flatten.length ∧
          sqDist o.flatten o'.flatten ≤ 2 * (∑ r ∈ range v.rows, τ r) ^ 2 * energy blocks.flatten := by
  have hM0 : 0 < M := (two_zpow_pos _).trans_le hM1
  set z : ℕ → ℕ → ℂ := fun j k => if j < v.rows ∧ k < v.cols then data.getD (v.idx j k) 0 else 0 with hzd
  have hz1 : ∀ j < v.rows, ∀ k < v.cols, z j k = data.getD (v.idx j k) 0 := fun j hj k hk => if_pos ⟨hj, hk⟩
  have hz2 : ∀ j k, ‖z j k‖ ≤ (2 : ℝ) ^ (29 : ℤ) := by
    intro j k
    by_cases c : j < v.rows ∧ k < v.cols
    · rw [hz1 j c.1 k c.2]
      exact (hM.2 ⟨j, c.1, k, c.2, rfl⟩).trans hM2
    · rw [show z j k = 0 from if_neg c, norm_zero]
      positivity
  have hp1 : 1 ≤ (2 : ℕ) ^ a := Nat.one_le_two_pow
  have hp2 : (2 : ℕ) ^ a ≤ 2 ^ 20 := Nat.pow_le_pow_right (by norm_num) ha2
  obtain ⟨w, s, ew, es, h⟩ := C124_kept hl hκ hm hi hz (abs := abs) (v := v) (data := data) (z := z) (mod := fun j k => ‖z j k‖)
    (gain := fun j k => g (z j k))
    (fun j hj k hk => ⟨by rw [rd_matAt hv hj hk, hz1 j hj k hk]; rfl, (ha _ (hz2 j k)).1⟩)
    (fun j k => ⟨norm_nonneg _, (ha _ (hz2 j k)).2.1⟩) (fun j k => (ha _ (hz2 j k)).2.2) (M := M)
    (by
      refine ⟨?_, ?_⟩
      · obtain ⟨j, hj, k, hk, e⟩ := hM.1
        exact ⟨j, hj, k, hk, by rw [e, hz1 j hj k hk]⟩
      · rintro _ ⟨j, hj, k, hk, rfl⟩
        rw [hz1 j hj k hk]
        exact hM.2 ⟨j, hj, k, hk, rfl⟩) hM1 hM2 (K := 2 * 2 ^ a) (low := low) (by omega)
    (by have e : (2 : ℕ) ^ 21 = 2 * 2 ^ 20 := by norm_num
        rw [e]
        exact Nat.mul_le_mul_left 2 hp2)
    (by rw [hc, Nat.mul_div_cancel_left _ (by norm_num)]) hlow (rate := rate) (t := t) h1 h2
  have hdrop : ∀ j < v.rows, ∀ k < v.cols, isAboveThresholdI log10 abs (.fin t) s w j k (data.getD (v.idx j k) 0) = false → k < low ∨ 0 < k →
      ‖data.getD (v.idx j k) 0‖ ≤ M * (10 : ℝ) ^ ((t + 1 / 200 - if k < low then 100 else aWeight (k * rate / (2 * 2 ^ a))) / 20) := by
    intro j hj k hk hd hk0
    have H := h j hj k hk
    rw [hz1 j hj k hk] at H
    by_cases c : k < low
    · rw [if_pos c]
      refine level_le hM0 (norm_nonneg _) (not_lt.1 fun q => ?_)
      have := (H.1 c).1 q
      rw [hd] at this
      exact Bool.noConfusion this
    · rw [if_neg c]
      refine level_le hM0 (norm_nonneg _) (not_lt.1 fun q => ?_)
      have := (H.2.2 (by omega) (by omega)).1 (by push_cast; exact q)
      rw [hd] at this
      exact Bool.noConfusion this
  refine ⟨w, s, ew, es, hdrop, fun τ hτ0 hτ blocks hb => ?_⟩
  refine (C98_sparse_error a ha1 (by omega) v data hv hr hc _ τ hτ0 (fun j hj k hk hd => ?_) blocks hb).1
  rcases hτ j hj k hk with q | ⟨q1, q2⟩
  · exact q
  · exact (hdrop j hj k hk hd q1).trans q2

/-- Three bins of moduli 1, 1/2 and 2 with one protected bin, at -40 dB, with correctly rounded functions: if the partition's bound is
2, the outputs for two blocks differ in energy by at most 8 times that of the input. -/
example : ∃ w s o o', normalizationFactorI (fun z : ℂ => binary32.round (.fin ‖z‖)) (MatView.right 1 3) [1, 1 / 2, 2] = .ok s ∧ upolaRun (MatView.right 1 3) [1, 1 / 2, 2] [[1, 0], [0, 1]] = .ok o ∧
    sparseUpolaRun (MatView.right 1 3) [1, 1 / 2, 2]
      (isAboveThresholdI (log10Z binary32) (fun z : ℂ => binary32.round (.fin ‖z‖)) (.fin (-40)) s w) [[1, 0], [0, 1]] = .ok o' ∧
    sqDist o.flatten o'.flatten ≤ 2 * 2 ^ 2 * energy [[1, 0], [0, 1]].flatten := by
  have hn : ∀ j < 1, ∀ k < 3, ‖([1, 1 / 2, 2] : List ℂ).getD ((MatView.right 1 3).idx j k) 0‖ ≤ 2 := by
    intro j hj k hk
    obtain rfl : j = 0 := by omega
    interval_cases k <;> norm_num [MatView.idx, MatView.right]
  obtain ⟨w, s, -, es, -, h⟩ := C125_pruned (log10Z_near ieee32 (by norm_num [binary32])) (by rw [u32]; norm_num) log10Z_ok rfl (if_pos rfl)
    absNear_round (a := 1) le_rfl (by norm_num)
    (v := MatView.right 1 3) (data := [1, 1 / 2, 2])
    (by
      intro r hr c hc
      have h1 : r < 1 := hr
      have h3 : c < 3 := hc
      simp only [MatView.idx, MatView.right, List.length_cons, List.length_nil]
      omega) le_rfl rfl (M := 2)
    ⟨⟨0, by norm_num [MatView.right], 2, by norm_num [MatView.right], by norm_num [MatView.idx, MatView.right]⟩, by
      rintro _ ⟨j, hj, k, hk, rfl⟩
      exact hn j hj k hk⟩ (by norm_num) (by norm_num) (low := 1) (by norm_num [MatView.right]) (rate := 44100) (t := -40) (by norm_num)
    (by norm_num)
  obtain ⟨o, o', e1, e2, -, -, e⟩ := h (fun _ => 2) (fun _ _ => by norm_num) (fun j hj k hk => Or.inl (hn j hj k hk)) [[1, 0], [0, 1]] (by simp)
  refine ⟨w, s, o, o', es, e1, e2, e.trans (le_of_eq ?_)⟩
  rw [show (MatView.right 1 3).rows = 1 from rfl, sum_range_one]

end Neo.Props
