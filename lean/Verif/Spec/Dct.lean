import Mathlib.Analysis.SpecialFunctions.Trigonometric.Basic
import Mathlib.Algebra.BigOperators.Group.Finset.Basic

/-! # Specification: the type-2 discrete cosine transform -/

namespace Neo.Spec

open Finset

/-- Unnormalised DCT-II (scipy's `dct(type=2)`): `y k = 2 ∑ n < N, x n · cos(π k (2n+1) / (2N))`. -/
noncomputable def dct2 (N : ℕ) (x : ℕ → ℝ) (k : ℕ) : ℝ :=
  2 * ∑ n ∈ range N, x n * Real.cos (Real.pi * k * (2 * n + 1) / (2 * N))

end Neo.Spec
