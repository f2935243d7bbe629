import Mathlib.Analysis.Complex.Norm
import Mathlib.Analysis.SpecialFunctions.Trigonometric.Basic
import Mathlib.Analysis.SpecialFunctions.Pow.Real

/-! # Specification: Euclidean norm of a finite sequence -/

namespace Neo.Spec

open Finset

/-- Euclidean norm of the first `N` elements. -/
noncomputable def l2 (N : ℕ) (f : ℕ → ℂ) : ℝ := Real.sqrt (∑ n ∈ range N, ‖f n‖ ^ 2)

/-- Relative error of one radix-2 stage for unit roundoff `u` and twiddle factors that are off by at most `τ`. -/
noncomputable def stageGain (u τ : ℝ) : ℝ :=
  u + (1 + u) * (Real.sqrt 2 * (2 * u + u ^ 2) * (1 + τ) + τ)

/-- Absolute error of a computed twiddle factor for unit roundoff `u` and a `cos`/`sin` accurate to `ε`. -/
noncomputable def twiddleErr (u ε : ℝ) : ℝ :=
  Real.pi * ((1 + u) ^ 5 * (1 - u)⁻¹ - 1) + Real.sqrt 2 * (ε + u * (1 + ε))

/-- `1 +` relative error of a radix-2 transform of order `b`. -/
noncomputable def fftGain (u ε : ℝ) (b : ℕ) : ℝ := (1 + stageGain u (twiddleErr u ε)) ^ b

/-- `1 +` relative error of a multiplication by the rounded reciprocal of a rounded number. -/
noncomputable def scaleGain (u : ℝ) : ℝ := (1 + u) ^ 2 * (1 - u)⁻¹

/-- Relative error of a product of real spectra of length `2 ^ b`: two forward transforms, products whose sum is
accurate to the factor `Q`, the transform back and the scaling. -/
noncomputable def spectralGain (u ε : ℝ) (b : ℕ) (Q : ℝ) : ℝ :=
  scaleGain u * fftGain u ε b * (1 + Real.sqrt 2 * (fftGain u ε b ^ 2 * Q - 1)) - 1

/-- `1 +` relative error of the accumulation of `N` complex products. -/
noncomputable def macGain (u : ℝ) (N : ℕ) : ℝ := (1 + u) ^ N * (1 + Real.sqrt 2 * (2 * u + u ^ 2))

/-- Relative error of a convolution with `N` partitions, transform size `2 ^ b`, windowed filter segments. -/
noncomputable def partGain (u ε : ℝ) (b N : ℕ) : ℝ := spectralGain u ε b ((1 + u) * macGain u N)

/-- Euclidean norm of the samples `lo, …, hi - 1` of a real signal. -/
noncomputable def segNorm (x : ℕ → ℝ) (lo hi : ℕ) : ℝ := Real.sqrt (∑ n ∈ Ico lo hi, x n ^ 2)

end Neo.Spec
