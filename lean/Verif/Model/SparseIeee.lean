import Verif.Model.AWeightIeee

/-!
# Model: the weights of the sparse renderer in single precision

The vector of weights of `sparse_convolve` with `float` results: every operation is the exact one followed by rounding to
nearest.  The function `std::log10` is an argument.
-/

namespace Neo

open Spec

noncomputable section

/-- The lambda `weights`, `extra/plugin/src/dsp/DenseConvolution.cpp:141-154`: `1.0 / sampleRate` is a division of doubles,
`rfftfreq<float>` and `a_weighting` compute in single precision.  (The `jassert` is compiled out.) -/
def sparseWeightsI (log10 : FVal → FVal) (K bins : ℕ) (lowBinsToKeep : ℤ) (sampleRate : ℝ) : Res (List FVal) := do
  -- `std::fill(w.begin(), std::next(w.begin(), lowBinsToKeep), 100.0F)`
  if lowBinsToKeep < 0 ∨ (bins : ℤ) < lowBinsToKeep then .error .oob else .ok ()
  let low := lowBinsToKeep.toNat
  let w := vec bins (fun i => if i < low then FVal.fin 100 else .fin 0)
  forN (bins - low) (fun m w => do
    let i := low + m
    let frequency := rfftfreqI binary32 K i (binary64.round ((FVal.fin 1).div (.fin sampleRate)))
    wr w i (aWeightingI binary32 log10 frequency)) w

end

end Neo
