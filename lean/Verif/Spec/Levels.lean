import Verif.Spec.Sparse
import Mathlib.Data.EReal.Operations

/-! # Specification: level statistics of a spectrogram -/

namespace Neo.Spec

open Finset

/-- `i` is the integer nearest to `x`; halfway cases go to the even neighbour. -/
def Nearest (x : ℝ) (i : ℤ) : Prop := |x - i| < 1 / 2 ∨ |x - i| = 1 / 2 ∧ Even i

/-- Attenuation in decibel of a weighted level, limited to `0 … 143`. -/
noncomputable def attenuation (level : ℝ) : ℝ := min 143 (max 0 (-level))

open Classical in
/-- Number of bins of a `rows × cols` spectrogram with powers `P` (strongest `peak`), weighted by `w`,
whose attenuation rounds to `i` decibel. -/
noncomputable def levelCount (rows cols : ℕ) (P : ℕ → ℕ → ℝ) (w : ℕ → ℝ) (peak : ℝ) (i : ℕ) : ℕ :=
  #{q ∈ range rows ×ˢ range cols | Nearest (attenuation (level peak (P q.1 q.2) + w q.2)) i}

end Neo.Spec
