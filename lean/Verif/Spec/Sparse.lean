import Verif.Spec.Dft
import Verif.Spec.Signal
import Mathlib.Analysis.SpecialFunctions.Log.Base
import Mathlib.Analysis.SpecialFunctions.Pow.Real

/-! # Specification: perceptually pruned partitioned convolution -/

namespace Neo.Spec

open Finset

/-- A-weighting in decibel, IEC 61672-1:
`2 + 20 log₁₀ R(f)`, `R(f) = f₄² f⁴ / ((f² + f₁²) √((f² + f₂²)(f² + f₃²)) (f² + f₄²))`. -/
noncomputable def aWeight (f : ℝ) : ℝ :=
  2 + 20 * Real.logb 10 (12194.217 ^ 2 * f ^ 4 /
    ((f ^ 2 + 20.598997 ^ 2) * Real.sqrt ((f ^ 2 + 107.65265 ^ 2) * (f ^ 2 + 737.86223 ^ 2))
      * (f ^ 2 + 12194.217 ^ 2)))

/-- Block number `t` of the sequence `x`, followed by zeros. -/
def block (B : ℕ) (x : ℕ → ℝ) (t m : ℕ) : ℝ := if m < B then x (t * B + m) else 0

/-- Power of bin `k` of the zero-padded spectrum of block `j`. -/
noncomputable def binPower (B : ℕ) (h : ℕ → ℝ) (j k : ℕ) : ℝ :=
  ‖dft (2 * B) (fun m => (block B h j m : ℂ)) k‖ ^ 2

/-- Level of a power `p` relative to the peak, in decibel, not below `-72`. -/
noncomputable def level (peak p : ℝ) : ℝ :=
  if p ≤ 0 then -72 else max (-72) (10 * Real.logb 10 (p / peak))

/-- Bin `k` is kept: the first `low` bins get a bonus of 100 dB, bin 0 is never kept otherwise, the
others are weighted by the A curve at their frequency `k · rate / 2B`. -/
def audible (B low : ℕ) (rate threshold peak : ℝ) (h : ℕ → ℝ) (j k : ℕ) : Prop :=
  if k < low then threshold < level peak (binPower B h j k) + 100
  else 0 < k ∧ threshold < level peak (binPower B h j k) + aWeight (k * rate / (2 * B))

open Classical in
/-- Real response of length `2B` whose spectrum is that of block `j` of `h` on the bins selected by
`keep` (and on their mirror images) and zero elsewhere. -/
noncomputable def pruned (B : ℕ) (keep : ℕ → ℕ → Prop) (h : ℕ → ℝ) (j n : ℕ) : ℝ :=
  1 / (2 * B : ℕ) * (idft (2 * B) (fun k => if keep j (min k (2 * B - k)) then
    dft (2 * B) (fun m => (block B h j m : ℂ)) k else 0) n).re

/-- Overlap-add of the circular convolutions (length `2B`) of the blocks of `x` with the responses
`g 0, …, g (N - 1)`; sample `n` lies in block `n / B`. -/
noncomputable def blockFilter (B N : ℕ) (g : ℕ → ℕ → ℝ) (x : ℕ → ℝ) (n : ℕ) : ℝ :=
  (∑ j ∈ range N, if j ≤ n / B then circConv (2 * B) (block B x (n / B - j)) (g j) (n % B) else 0) +
  ∑ j ∈ range N, if j + 1 ≤ n / B then
    circConv (2 * B) (block B x (n / B - 1 - j)) (g j) (B + n % B) else 0

end Neo.Spec
