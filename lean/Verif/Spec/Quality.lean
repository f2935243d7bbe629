import Verif.Spec.Dft

/-! # Specification: magnitude spectrograms, their distance, and peak gains -/

namespace Neo.Spec

open Finset

noncomputable section

/-- Symmetric Hann window of length `K`. -/
def hann (K n : ℕ) : ℝ := (1 - Real.cos (2 * Real.pi * n / (K - 1))) / 2

/-- Magnitude of bin `k` of frame `t` of the first `S` samples of `x`: frames of `F` samples, `H` samples apart,
multiplied by the beginning of a Hann window of length `K` and padded with zeros to length `K`. -/
def spectrogram (F H K S : ℕ) (x : ℕ → ℝ) (t k : ℕ) : ℝ :=
  ‖dft K (fun n => ((if n < F ∧ t * H + n < S then x (t * H + n) * hann K n else 0 : ℝ) : ℂ)) k‖

/-- Root of the mean squared difference of two `N × M` matrices. -/
def rmsDiff (N M : ℕ) (a b : ℕ → ℕ → ℝ) : ℝ :=
  Real.sqrt ((∑ t ∈ range N, ∑ k ∈ range M, (a t k - b t k) ^ 2) / (N * M : ℕ))

/-- The gain `g` brings the first `S` samples of the channels `x 0, …, x (C - 1)` to a common peak of 1 (any
positive gain will do if they are silent). -/
def IsPeakGain (C S : ℕ) (x : ℕ → ℕ → ℝ) (g : ℝ) : Prop :=
  0 < g ∧ ((∃ c < C, ∃ n < S, x c n ≠ 0) → IsGreatest {v | ∃ c < C, ∃ n < S, v = |x c n| * g} 1)

end

end Neo.Spec
