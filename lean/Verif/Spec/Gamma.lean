import Mathlib.Data.Real.Basic

/-! # Spec: the accumulated relative error of `k` rounded operations -/

namespace Neo.Spec

/-- `k u / (1 - k u)`: the usual bound on the relative error of `k` operations with unit roundoff `u`. -/
noncomputable def gamma (u : ℝ) (k : ℕ) : ℝ := k * u / (1 - k * u)

end Neo.Spec
