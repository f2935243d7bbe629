import Verif.Spec.Norm

/-! # Specification: error factors of the naive DFT, the Bluestein plan and the DCT plan -/

namespace Neo.Spec

/-- `1 +` relative error of a complex product. -/
noncomputable def mulGain (u : ℝ) : ℝ := 1 + Real.sqrt 2 * (2 * u + u ^ 2)

/-- Absolute error of a point of the unit circle computed from its angle. -/
noncomputable def unitErr (u ε : ℝ) : ℝ := Real.sqrt 2 * (ε + u * (1 + ε))

/-- Absolute error of a chirp value; the angle is at most `2π`. -/
noncomputable def chirpErr (u ε : ℝ) : ℝ := 2 * Real.pi * ((1 + u) ^ 5 * (1 - u)⁻¹ - 1) + unitErr u ε

/-- `1 +` error of the Bluestein plan with inner transforms of order `b`. -/
noncomputable def bluesteinGain (u ε : ℝ) (b : ℕ) : ℝ :=
  mulGain u ^ 3 * (1 + chirpErr u ε) ^ 3 * scaleGain u * fftGain u ε b ^ 3

/-- Absolute error of a factor of the naive transform of length `N`; the angle is at most `2π N`. -/
noncomputable def naiveErr (u ε : ℝ) (N : ℕ) : ℝ := 2 * Real.pi * N * ((1 + u) ^ 7 * (1 - u)⁻¹ - 1) + unitErr u ε

/-- `1 +` error of the naive transform of length `N`. -/
noncomputable def naiveGain (u ε : ℝ) (N : ℕ) : ℝ := (1 + u) ^ N * mulGain u * (1 + naiveErr u ε N)

/-- Relative error of a factor of the DCT plan before the multiplication by 2; the angle is at most `π/2`. -/
noncomputable def dctErr (u ε : ℝ) : ℝ := Real.pi / 2 * ((1 + u) ^ 5 * ((1 - u)⁻¹) ^ 2 - 1) + unitErr u ε

/-- `1 +` error of the DCT plan of order `b`. -/
noncomputable def dctGain (u ε : ℝ) (b : ℕ) : ℝ := mulGain u * (1 + u) * (1 + dctErr u ε) * fftGain u ε b

end Neo.Spec
