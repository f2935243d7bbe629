import Verif.Spec.Dft

/-! # Specification: the sign pattern of the radix-4 plans -/

namespace Neo.Spec

open Finset

/-- Sum of the products of the base-4 digits of `k` (lowest first) with those of `n` (highest first), for
numbers of `b` digits. -/
def digitDot (b k n : ℕ) : ℕ :=
  ∑ a ∈ range b, (k / 4 ^ a % 4) * (n / 4 ^ (b - 1 - a) % 4)

/-- The signal `x` with the sign of sample `n` flipped where `digitDot b k n` is odd. -/
noncomputable def digitSigned (b k : ℕ) (x : ℕ → ℂ) (n : ℕ) : ℂ := (-1) ^ digitDot b k n * x n

end Neo.Spec
