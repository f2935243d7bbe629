import Mathlib.Algebra.BigOperators.Group.Finset.Basic
import Mathlib.Algebra.Ring.Defs
import Mathlib.Data.Complex.Basic

/-! # Specification: convolution, Hermitian extension -/

namespace Neo.Spec

open Finset

/-- Circular convolution of period `N`. -/
def circConv {R : Type} [CommRing R] (N : ℕ) (x y : ℕ → R) (n : ℕ) : R :=
  ∑ j ∈ range N, x j * y ((n + N - j) % N)

/-- Linear convolution of two (one-sided) sequences: `(h * x) n = ∑_{m ≤ n} h m · x (n - m)`. -/
def conv {R : Type} [CommRing R] (h x : ℕ → R) (n : ℕ) : R :=
  ∑ m ∈ range (n + 1), h m * x (n - m)

/-- Hermitian extension to length `N` of the coefficients `c 0 … c (N/2)`. -/
noncomputable def hermitian (N : ℕ) (c : ℕ → ℂ) (k : ℕ) : ℂ :=
  if k ≤ N / 2 then c k else (starRingEnd ℂ) (c (N - k))

end Neo.Spec
