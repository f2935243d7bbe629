import Verif.Model.SparseIeee

/-!
# Model: the decision of the sparse renderer in single precision

The predicate that selects the filter bins, with `float` values.  The functions `std::log10` and `std::abs` of a complex number
are arguments.
-/

namespace Neo

open Spec

noncomputable section

open Classical in
/-- The lambda `isAboveThreshold`, `extra/plugin/src/dsp/DenseConvolution.cpp:164-169`; `col` is below the number of bins, which
is the length of `weights`.  The floor of `amplitude_to_db` is its default, `src/neo/unit/decibel.hpp:27-31`. -/
def isAboveThresholdI {β : Type} (log10 : FVal → FVal) (abs : β → FVal) (threshold scale : FVal) (weights : List FVal)
    (_row col : ℕ) (bin : β) : Bool :=
  let gain := abs bin
  let power := binary32.round (gain.mul gain)
  let level := amplitudeToDbI binary32 log10 (binary32.round (power.mul scale)) (.fin (-144))
  let dB := binary32.round ((binary32.round (level.mul (.fin 0.5))).add (weights.getD col .nan))
  decide (threshold.Lt dB)

end

end Neo
