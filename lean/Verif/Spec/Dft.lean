import Mathlib.Analysis.SpecialFunctions.Complex.Circle
import Mathlib.Algebra.BigOperators.Group.Finset.Basic

/-!
# Specification: discrete Fourier transforms and digit reversal

Textbook definitions, independent of the model.
-/

namespace Neo.Spec

open Finset

/-- DFT of the signal `x` of length `N` with root `ω`: `X k = ∑ n < N, x n · ω^(n k)`. -/
def dftRoot {R : Type} [CommRing R] (N : ℕ) (ω : R) (x : ℕ → R) (k : ℕ) : R :=
  ∑ n ∈ range N, x n * ω ^ (n * k)

/-- Forward DFT (unnormalised): `X k = ∑ n < N, x n · exp(-2πi n k / N)`. -/
noncomputable def dft (N : ℕ) (x : ℕ → ℂ) (k : ℕ) : ℂ :=
  ∑ n ∈ range N, x n * Complex.exp (-(2 * Real.pi * Complex.I * n * k / N))

/-- Backward DFT (unnormalised): `x n = ∑ k < N, X k · exp(2πi n k / N)`. -/
noncomputable def idft (N : ℕ) (X : ℕ → ℂ) (n : ℕ) : ℂ :=
  ∑ k ∈ range N, X k * Complex.exp (2 * Real.pi * Complex.I * n * k / N)

/-- Fourier sum of a real signal whose odd-numbered samples are taken two positions too early:
`∑ n < N, x n · exp(-2πi s(n) k / N)` with `s(n) = n` for even and `s(n) = n - 2` for odd `n`. -/
noncomputable def oddEarly (N : ℕ) (x : ℕ → ℝ) (k : ℕ) : ℂ :=
  ∑ n ∈ range N, x n *
    Complex.exp (-(2 * Real.pi * Complex.I * (if n % 2 = 0 then (n : ℂ) else n - 2) * k / N))

/-- `y` is the packed half spectrum of `X`: the real bins `0` and `N/2` in the first two places, then
real and imaginary part of the bins `1, …, N/2 - 1`. -/
def IsPacked (N : ℕ) (X : ℕ → ℂ) (y : List ℝ) : Prop :=
  y.length = N ∧ y[0]? = some (X 0).re ∧ y[1]? = some (X (N / 2)).re ∧
    ∀ k, 1 ≤ k → k < N / 2 → y[2 * k]? = some (X k).re ∧ y[2 * k + 1]? = some (X k).im

/-- `r` is the reversal of the `b` base-`R` digits of `i`. -/
def IsDigitRev (R b i r : ℕ) : Prop :=
  r < R ^ b ∧ ∀ j < b, r / R ^ j % R = i / R ^ (b - 1 - j) % R

end Neo.Spec
