import Verif.Lemmas.SnippetRfft

/-! # Properties of the real transform snippet: C80 -/

namespace Neo.Props

open Finset ComplexConjugate

private theorem list_interC {x : List ℝ} {M : ℕ} (h : x.length = 2 * M) :
    x = interC M (pairUp (fun n => x.getD n 0)) := by
  have e := list_eq_vec 0 h
  conv_lhs => rw [e]
  unfold interC pairVec
  apply vec_ext
  intro m _
  rcases Nat.mod_two_eq_zero_or_one m with h0 | h0
  · rw [h0]
    show _ = x.getD (2 * (m / 2)) 0
    rw [show 2 * (m / 2) = m by omega]
  · rw [h0]
    show _ = x.getD (2 * (m / 2) + 1) 0
    rw [show 2 * (m / 2) + 1 = m by omega]

private theorem getElem_interC {M k : ℕ} (f : ℕ → ℂ) (hk : k < M) :
    (interC M f)[2 * k]? = some (f k).re ∧ (interC M f)[2 * k + 1]? = some (f k).im := by
  unfold interC pairVec
  rw [getElem?_vec, if_pos (by omega), getElem?_vec, if_pos (by omega)]
  simp [show 2 * k / 2 = k by omega, show (2 * k + 1) / 2 = k by omega,
    show (2 * k + 1) % 2 = 1 by omega]

private theorem two_pow_pred {b : ℕ} (hb : 1 ≤ b) : 2 ^ b = 2 * 2 ^ (b - 1) := by
  rw [← pow_succ']; congr 1; omega

/-- **C80**, complex part: for every power of two up to `2^29` complex numbers, `fft` with `isign = 1`
computes the sums with `exp(+2πi nk/N)` and with `isign = -1` those with `exp(-2πi nk/N)`, both
unnormalised, with nothing out of bounds. -/
theorem C80_fft (order : ℕ) (h2 : order ≤ 29) (x : List ℝ) (hx : x.length = 2 * 2 ^ order) :
    (∃ y, nrFft x 1 = .ok y ∧ y.length = 2 * 2 ^ order ∧ ∀ k < 2 ^ order,
      y[2 * k]? = some (Spec.idft (2 ^ order)
        (fun m => ⟨x.getD (2 * m) 0, x.getD (2 * m + 1) 0⟩) k).re ∧
      y[2 * k + 1]? = some (Spec.idft (2 ^ order)
        (fun m => ⟨x.getD (2 * m) 0, x.getD (2 * m + 1) 0⟩) k).im) ∧
    (∃ y, nrFft x (-1) = .ok y ∧ y.length = 2 * 2 ^ order ∧ ∀ k < 2 ^ order,
      y[2 * k]? = some (Spec.dft (2 ^ order)
        (fun m => ⟨x.getD (2 * m) 0, x.getD (2 * m + 1) 0⟩) k).re ∧
      y[2 * k + 1]? = some (Spec.dft (2 ^ order)
        (fun m => ⟨x.getD (2 * m) 0, x.getD (2 * m + 1) 0⟩) k).im) := by
  have hf := nrFft_interC h2 .forward (pairUp (fun n => x.getD n 0))
  have hb := nrFft_interC h2 .backward (pairUp (fun n => x.getD n 0))
  rw [← list_interC hx] at hf hb
  exact ⟨⟨_, hb, length_interC _ _, fun k hk => getElem_interC _ hk⟩,
    ⟨_, hf, length_interC _ _, fun k hk => getElem_interC _ hk⟩⟩

private theorem packed_idft {M : ℕ} (hM : 1 ≤ M) (x : ℕ → ℝ) :
    Spec.IsPacked (2 * M) (Spec.idft (2 * M) (fun n => (x n : ℂ)))
      (interC M (packZ M (Spec.idft M (pairUp x)))) := by
  have hz : Spec.idft M (pairUp x) 0 = (∑ m ∈ range M, (x (2 * m) : ℂ))
      + Complex.I * ∑ m ∈ range M, (x (2 * m + 1) : ℂ) := by
    have : pairUp x = fun m => (x (2 * m) : ℂ) + Complex.I * (x (2 * m + 1) : ℂ) := by
      funext m; apply Complex.ext <;> simp [pairUp]
    rw [this]
    unfold Spec.idft
    rw [mul_sum, ← sum_add_distrib]
    apply sum_congr rfl
    intro m _
    simp
  have hre : ∑ m ∈ range M, (x (2 * m) : ℂ) = ((∑ m ∈ range M, x (2 * m) : ℝ) : ℂ) := by push_cast; rfl
  have him : ∑ m ∈ range M, (x (2 * m + 1) : ℂ) = ((∑ m ∈ range M, x (2 * m + 1) : ℝ) : ℂ) := by
    push_cast; rfl
  have h0 : ∀ k, (k = 0 ∨ k = M) → ∀ y : ℕ → ℂ, Spec.idft M y k = ∑ m ∈ range M, y m := by
    intro k hk y
    have hz : Spec.idft M y 0 = ∑ m ∈ range M, y m := by
      unfold Spec.idft; apply sum_congr rfl; intro m _; simp
    rcases hk with rfl | rfl
    · exact hz
    · have := idft_reflect (N := k) y (k := 0) (by omega)
      rw [Nat.sub_zero] at this
      rw [this]
      unfold Spec.dft; apply sum_congr rfl; intro m _; simp
  refine ⟨length_interC _ _, ?_, ?_, fun k h1 h2 => ?_⟩
  · rw [show (0 : ℕ) = 2 * 0 from rfl, (getElem_interC _ (by omega)).1]
    unfold packZ
    rw [if_pos rfl, hz, idft_even_odd hM, h0 0 (Or.inl rfl), h0 0 (Or.inl rfl), hre, him]
    simp
  · rw [show (1 : ℕ) = 2 * 0 + 1 from rfl, (getElem_interC _ (by omega)).2,
      show 2 * M / 2 = M by omega]
    unfold packZ
    rw [if_pos rfl, hz, idft_even_odd hM, h0 M (Or.inr rfl), h0 M (Or.inr rfl), hre, him,
      halfRoot_half hM]
    simp
    ring
  · rw [show 2 * M / 2 = M by omega] at h2
    have e : packZ M (Spec.idft M (pairUp x)) k = Spec.idft (2 * M) (fun n => (x n : ℂ)) k := by
      unfold packZ
      rw [if_neg (by omega), recomb_idft _ _ _ (by omega), idft_even_odd hM]
      push_cast; ring
    rw [← e]
    exact getElem_interC _ (by omega)

/-- **C80**, real part: for every length `N = 2^order` from 2 to `2^30`, `rfft` with `isign = 1` leaves the
packed half spectrum for the kernel `exp(+2πi nk/N)`. -/
theorem C80_rfft (order : ℕ) (h1 : 1 ≤ order) (h2 : order ≤ 30) (x : List ℝ)
    (hx : x.length = 2 ^ order) :
    ∃ y, nrRfft x 1 = .ok y ∧
      Spec.IsPacked (2 ^ order) (Spec.idft (2 ^ order) (fun n => (x.getD n 0 : ℂ))) y := by
  rw [two_pow_pred h1] at hx
  have hf := nrRfft_forward h1 h2 (pairUp (fun n => x.getD n 0))
  rw [← list_interC hx] at hf
  refine ⟨_, hf, ?_⟩
  rw [two_pow_pred h1]
  exact packed_idft Nat.one_le_two_pow _

private theorem map_interC {x : List ℝ} {M : ℕ} (hx : x.length = 2 * M) (a : ℝ) :
    x.map (fun v => a * v) = interC M (fun k => a * pairUp (fun n => x.getD n 0) k) := by
  conv_lhs => rw [list_eq_vec 0 hx]
  rw [map_vec]
  unfold interC pairVec
  apply vec_ext
  intro m _
  rcases Nat.mod_two_eq_zero_or_one m with h0 | h0
  · rw [h0]
    beta_reduce
    rw [if_pos rfl]
    simp only [pairUp, Complex.mul_re, Complex.ofReal_re, Complex.ofReal_im, zero_mul, sub_zero]
    rw [show 2 * (m / 2) = m by omega]
  · rw [h0]
    beta_reduce
    rw [if_neg (by decide)]
    simp only [pairUp, Complex.mul_im, Complex.ofReal_re, Complex.ofReal_im, zero_mul, add_zero]
    rw [show 2 * (m / 2) + 1 = m by omega]

/-- **C80**, round trip: `rfft` with `-1` after `rfft` with `1`, and the other way round, are both
multiplication by half the length. -/
theorem C80_roundtrip (order : ℕ) (h1 : 1 ≤ order) (h2 : order ≤ 30) (x : List ℝ)
    (hx : x.length = 2 ^ order) :
    (∃ y, nrRfft x 1 = .ok y ∧ nrRfft y (-1) = .ok (x.map (fun v => 2 ^ (order - 1) * v))) ∧
    (∃ y, nrRfft x (-1) = .ok y ∧ nrRfft y 1 = .ok (x.map (fun v => 2 ^ (order - 1) * v))) := by
  have hM : 1 ≤ 2 ^ (order - 1) := Nat.one_le_two_pow
  rw [two_pow_pred (by omega)] at hx
  have ex := list_interC hx
  have em := map_interC hx (2 ^ (order - 1))
  have hf := nrRfft_forward h1 h2 (pairUp (fun n => x.getD n 0))
  have hb := nrRfft_backward h1 h2 (pairUp (fun n => x.getD n 0))
  rw [← ex] at hf hb
  refine ⟨⟨_, hf, ?_⟩, ⟨_, hb, ?_⟩⟩
  · rw [nrRfft_backward h1 h2, em]
    congr 1
    apply interC_ext
    intro k hk
    rw [dft_congr (fun n hn => unpackZ_packZ hM _ hn), dft_idft _ hk]
    push_cast
    rfl
  · rw [nrRfft_forward h1 h2, em]
    congr 1
    apply interC_ext
    intro k hk
    have hlin : ∀ (a : ℝ) (Z Z' : ℕ → ℂ) (M k : ℕ), k < M → (∀ n < M, Z n = (a : ℂ) * Z' n) →
        packZ M Z k = (a : ℂ) * packZ M Z' k := by
      intro a Z Z' M k hk h
      unfold packZ
      by_cases h0 : k = 0
      · rw [if_pos h0, if_pos h0, h 0 (by omega)]
        apply Complex.ext <;> simp <;> ring
      · rw [if_neg h0, if_neg h0]
        unfold recomb
        rw [h k hk, h (M - k) (by omega), map_mul, Complex.conj_ofReal]
        ring
    rw [hlin (2 ^ (order - 1)) _ (unpackZ (2 ^ (order - 1)) (pairUp (fun n => x.getD n 0))) _ k hk
      (fun n hn => by rw [idft_dft _ hn]; push_cast; rfl), packZ_unpackZ hM _ hk]

/-- **C80**, the benchmark loop: nothing is normalised between the passes, so after `runs` of them the
buffer is the initial one times `(N/2)^runs`. -/
theorem C80_runs (order : ℕ) (h1 : 1 ≤ order) (h2 : order ≤ 30) (x : List ℝ)
    (hx : x.length = 2 ^ order) (runs : ℕ) :
    nrRuns runs x = .ok (x.map (fun v => (2 ^ (order - 1)) ^ runs * v)) := by
  unfold nrRuns
  refine forN_eq' (fun k => x.map (fun v => (2 ^ (order - 1)) ^ k * v)) ?_ rfl ?_
  · simp
  · intro k _
    obtain ⟨⟨y, hy, hz⟩, -⟩ := C80_roundtrip order h1 h2 (x.map (fun v => (2 ^ (order - 1)) ^ k * v))
      (by rw [List.length_map, hx])
    rw [hy, bind_ok, hz, List.map_map]
    congr 2
    funext v
    simp only [Function.comp_apply, pow_succ]
    ring

/-- **C80**, consequence for the benchmark of `main`, which runs 10000 passes on a unit impulse: for every
length from 4 the exact value of the first sample is beyond the largest `float` (which is below `2^128`)
from pass 128 on, so what is measured afterwards is arithmetic on infinities. -/
theorem C80_runs_overflow_float (order : ℕ) (h1 : 2 ≤ order) (h2 : order ≤ 30) (runs : ℕ)
    (hr : 128 ≤ runs) :
    ∃ y v, nrRuns runs ((1 : ℝ) :: List.replicate (2 ^ order - 1) 0) = .ok y ∧ y[0]? = some v ∧
      (2 : ℝ) ^ 128 ≤ v := by
  have hpos : 1 ≤ 2 ^ order := Nat.one_le_two_pow
  refine ⟨_, _, C80_runs order (by omega) h2 _ (by simp; omega) runs, by simp; rfl, ?_⟩
  rw [← pow_mul]
  apply pow_le_pow_right₀ (by norm_num)
  calc 128 ≤ 1 * runs := by omega
    _ ≤ (order - 1) * runs := Nat.mul_le_mul_right _ (by omega)

/-- **C80**, other lengths: `main` takes the length from the command line without a check, but when half
the length is not a power of two the transform leaves the buffer. -/
theorem C80_other_lengths (x : List ℝ) (h : ¬ ∃ k, x.length / 2 = 2 ^ k) (y : List ℝ) :
    nrRfft x 1 ≠ .ok y ∧ nrRfft x (-1) ≠ .ok y := by
  have hlen : ∀ {n : ℕ} {c1 c2 θ : ℝ} {u v : List ℝ}, expLoop n c1 c2 θ u = .ok v →
      v.length = u.length := by
    intro n c1 c2 θ u v h
    unfold expLoop forR at h
    simp only [bind_ok_iff] at h
    obtain ⟨r, hr, h⟩ := h
    rw [pure_eq_ok] at h
    injection h with h
    rw [← h]
    refine forN_pres (fun s : ExpState => s.x.length = u.length) ?_ _ _ _ rfl hr
    intro t s s' hl hs
    unfold expBody at hs
    simp only [bind_ok_iff] at hs
    obtain ⟨_, -, _, -, _, -, _, -, x1, e1, x2, e2, x3, e3, x4, e4, hs⟩ := hs
    rw [pure_eq_ok] at hs
    injection hs with hs
    rw [← hs]
    dsimp only
    rw [wr_length e4, wr_length e3, wr_length e2, wr_length e1, hl]
  have hw : ∀ {u v : List ℝ} {i : ℕ} {a : ℝ}, wr u i a = .ok v → i < u.length := by
    intro u v i a h
    unfold wr at h
    split at h
    · assumption
    · exact absurd h (by simp)
  constructor
  · intro hc
    unfold nrRfft at hc
    dsimp only at hc
    rw [if_pos rfl, if_pos rfl] at hc
    simp only [bind_ok_iff] at hc
    obtain ⟨z, hz, u, hu, _, -, _, -, v, hv, hy⟩ := hc
    rcases Nat.eq_zero_or_pos (x.length / 2) with h0 | h0
    · have hz' : z.length = x.length := by
        unfold nrFft at hz
        dsimp only at hz
        rw [h0, if_neg (by norm_num), bind_ok_iff] at hz
        obtain ⟨r, hr, hz⟩ := hz
        unfold bitrevorderInterleaved at hr
        dsimp only at hr
        rw [h0] at hr
        rw [show nrStages (0 * 2) 1 (0 * 2 + 1) 2 r = .ok r from rfl] at hz
        injection hz with hz
        injection hr with hr
        rw [← hz, ← hr]
      have := hw hy
      have := wr_length hv
      have := hlen hu
      omega
    · exact nrFft_oob h0 h hz
  · intro hc
    unfold nrRfft at hc
    dsimp only at hc
    rw [if_neg (by decide), if_neg (by decide)] at hc
    simp only [bind_ok_iff] at hc
    obtain ⟨u, hu, _, -, _, -, v, hv, w, hw', hy⟩ := hc
    have e : w.length = x.length := by rw [wr_length hw', wr_length hv, hlen hu]
    rcases Nat.eq_zero_or_pos (x.length / 2) with h0 | h0
    · have := hw hw'
      have := wr_length hv
      have := hlen hu
      omega
    · exact nrFft_oob (by rw [e]; exact h0) (by rw [e]; exact h) hy

/-- A concrete case: four samples, the packed spectrum of a unit impulse at position 1 for the kernel
`exp(+2πi nk/4)`; its second bin is `i`. -/
example : ∃ y, nrRfft [0, 1, 0, 0] 1 = .ok y ∧ y = [1, -1, 0, 1] := by
  obtain ⟨y, hy, hl, h0, h1, h2⟩ := C80_rfft 2 (by norm_num) (by norm_num) [0, 1, 0, 0] rfl
  refine ⟨y, hy, ?_⟩
  obtain ⟨h2, h3⟩ := h2 1 (by norm_num) (by norm_num)
  match y, hl with
  | [a, b, c, d], _ =>
    have eI : Complex.exp (2 * Real.pi * Complex.I / 4) = Complex.I := by
      rw [show 2 * (Real.pi : ℂ) * Complex.I / 4 = Real.pi / 2 * Complex.I by ring,
        Complex.exp_pi_div_two_mul_I]
    have eM : Complex.exp (2 * Real.pi * Complex.I * 2 / 4) = -1 := by
      rw [show 2 * (Real.pi : ℂ) * Complex.I * 2 / 4 = Real.pi * Complex.I by ring,
        Complex.exp_pi_mul_I]
    simp [Spec.idft, Finset.sum_range_succ] at h0 h1 h2 h3
    norm_num at h1 h2 h3
    rw [eI] at h2 h3
    rw [eM] at h1
    simp at h1 h2 h3
    rw [h0, h1, h2, h3]

end Neo.Props
