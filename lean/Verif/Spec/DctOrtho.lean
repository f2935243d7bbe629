import Mathlib.Analysis.SpecialFunctions.Trigonometric.Basic
import Mathlib.Analysis.SpecialFunctions.Sqrt
import Mathlib.Algebra.BigOperators.Group.Finset.Basic

/-! # Specification: the orthonormal type-2 and type-3 cosine transforms -/

namespace Neo.Spec

open Finset

/-- The weight of bin `k`: `√(1/N)` for the first and `√(2/N)` for the others. -/
noncomputable def dctWeight (N k : ℕ) : ℝ := if k = 0 then √(1 / N) else √(2 / N)

/-- Orthonormal DCT-II (scipy's `dct(type=2, norm="ortho")`). -/
noncomputable def dct2Ortho (N : ℕ) (x : ℕ → ℝ) (k : ℕ) : ℝ :=
  dctWeight N k * ∑ n ∈ range N, x n * Real.cos (Real.pi * k * (2 * n + 1) / (2 * N))

/-- Orthonormal DCT-III (scipy's `dct(type=3, norm="ortho")`). -/
noncomputable def dct3Ortho (N : ℕ) (y : ℕ → ℝ) (n : ℕ) : ℝ :=
  ∑ k ∈ range N, dctWeight N k * y k * Real.cos (Real.pi * k * (2 * n + 1) / (2 * N))

end Neo.Spec
