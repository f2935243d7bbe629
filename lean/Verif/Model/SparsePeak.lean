import Verif.Model.SparseDecision
import Verif.Model.Mat

/-!
# Model: the normalisation factor of the sparse renderer in single precision

The function `std::abs` of a complex number is an argument.
-/

namespace Neo

open Spec

noncomputable section

/-- `normalization_factor`, `extra/plugin/src/dsp/DenseConvolution.cpp:110-122`. -/
def normalizationFactorI {β : Type} (abs : β → FVal) (v : MatView) (data : List β) : Res FVal := do
  let maxPower ← forN v.rows (fun p maxPower => forN v.cols (fun bin maxPower => do
    let z ← rd data (v.idx p bin)
    let amplitude := abs z
    pure (maxI maxPower (binary32.round (amplitude.mul amplitude)))) maxPower) (FVal.fin 0)
  pure (binary32.round ((FVal.fin 1).div maxPower))

end

end Neo
