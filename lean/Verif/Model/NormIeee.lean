import Verif.Spec.Ieee
import Verif.Model.Stats

/-!
# Model: normalisation and mean in IEEE 754 arithmetic

The functions of `Model/Stats.lean` on the values of a binary format, infinities and NaN included: every operation is the
exact one followed by rounding to nearest.  Products and sums are not fused.
-/

namespace Neo

open Spec

noncomputable section

open Classical in
/-- `std::max(a, b)`: `(a < b) ? b : a`. `src/neo/algorithm/normalize_peak.hpp:32,42`. -/
def maxI (a b : FVal) : FVal := if a.Lt b then b else a

open Classical in
/-- The tail of `normalize_peak_factor`, `src/neo/algorithm/normalize_peak.hpp:47-51`. -/
def peakFactorI (f : Fmt) (absMax : FVal) : FVal :=
  if absMax = .fin 0 then .fin 1 else f.round (FVal.div (.fin 1) absMax.abs)

/-- `normalize_peak_factor` on vectors, `src/neo/algorithm/normalize_peak.hpp:19-52`. -/
def normalizePeakFactorVecI (f : Fmt) (x : List FVal) : Res FVal :=
  if x.length = 0 then .ok (.fin 1) else do
    let m ← forN x.length (fun i m => do
      let v ← rd x i
      pure (maxI m v.abs)) (.fin 0)
    pure (peakFactorI f m)

/-- `normalize_peak_factor` on matrices, `src/neo/algorithm/normalize_peak.hpp:19-52`. -/
def normalizePeakFactorMatI (f : Fmt) (v : MatView) (data : List FVal) : Res FVal :=
  if v.rows = 0 ∧ v.cols = 0 then .ok (.fin 1) else do
    let m ← forN v.rows (fun i m => forN v.cols (fun j m => do
      let x ← rd data (v.idx i j)
      pure (maxI m x.abs)) m) (.fin 0)
    pure (peakFactorI f m)

/-- The lambda of `neo::scale`, `src/neo/algorithm/scale.hpp:26`. -/
def scaleOpI (f : Fmt) (alpha v : FVal) : FVal := f.round (v.mul alpha)

/-- `normalize_peak` on vectors, `src/neo/algorithm/normalize_peak.hpp:55-59`. -/
def normalizePeakVecI (f : Fmt) (x : List FVal) : Res (List FVal) := do
  let a ← normalizePeakFactorVecI f x
  unaryOp (scaleOpI f a) x

/-- `normalize_peak` on matrices, `src/neo/algorithm/normalize_peak.hpp:55-59`. -/
def normalizePeakMatI (f : Fmt) (colMajor : Bool) (v : MatView) (data : List FVal) : Res (List FVal) := do
  let a ← normalizePeakFactorMatI f v data
  unaryOp2 colMajor (scaleOpI f a) v data

open Classical in
/-- The tail of `normalize_energy_factor`, `src/neo/algorithm/normalize_energy.hpp:37-41`. -/
def energyFactorI (f : Fmt) (energy : FVal) : FVal :=
  if energy = .fin 0 then .fin 1 else f.round (FVal.div (.fin 1) (f.round energy.sqrt))

/-- One step of the loop, `src/neo/algorithm/normalize_energy.hpp:26`. -/
def energyStepI (f : Fmt) (e v : FVal) : FVal := f.round (e.add (f.round (v.mul v)))

/-- `normalize_energy` on vectors, `src/neo/algorithm/normalize_energy.hpp:17-50`. -/
def normalizeEnergyVecI (f : Fmt) (x : List FVal) : Res (List FVal) := do
  let e ← forN x.length (fun i e => do
    let v ← rd x i
    pure (energyStepI f e v)) (.fin 0)
  unaryOp (scaleOpI f (energyFactorI f e)) x

/-- `mean` on vectors, `src/neo/algorithm/mean.hpp:18-50`. -/
def meanVecI (f : Fmt) (x : List FVal) : Res (Option FVal) :=
  if x.length < 1 then .ok none else do
    let s ← forInt x.length (fun i s => do
      let v ← rd x i
      pure (f.round (s.add v))) (.fin 0)
    pure (some (f.round (s.div (f.round (.fin x.length)))))

end

end Neo
