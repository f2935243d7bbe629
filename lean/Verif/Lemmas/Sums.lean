import Mathlib.Algebra.BigOperators.Intervals
import Mathlib.Algebra.BigOperators.Ring.Finset
import Mathlib.Tactic.Ring

/-! # Finite-sum lemmas -/

namespace Neo

open Finset

theorem sum_range_mul' {M : Type*} [AddCommMonoid M] (n m : ℕ) (f : ℕ → M) :
    ∑ t ∈ range (n * m), f t = ∑ i ∈ range n, ∑ u ∈ range m, f (i * m + u) := by
  induction n with
  | zero => simp
  | succ n ih => rw [Nat.succ_mul, sum_range_add, ih, sum_range_succ]

end Neo
