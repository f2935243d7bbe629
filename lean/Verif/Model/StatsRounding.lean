import Verif.Model.RoundingReal
import Verif.Model.Stats

/-!
# Model: statistics and normalisation with rounding

The functions of `Model/Stats.lean` over the numbers of `Model/RoundingReal.lean`: every sum, difference, product,
quotient, square root and conversion of a size to a floating-point number is rounded; absolute values, maxima and minima
are exact.  The square root is the rounded exact root, as IEEE 754 demands of `std::sqrt`.
-/

namespace Neo

noncomputable section

variable {F : Rounding}

namespace FR

/-- `static_cast<Float>(n)` of a size. `src/neo/algorithm/mean.hpp:37`. -/
def ofNat (F : Rounding) (n : ℕ) : FR F := ⟨F.rnd n⟩

/-- `Float(1)`. `src/neo/algorithm/normalize_peak.hpp:28,37,48`. -/
def one : FR F := ⟨1⟩

open Classical in
/-- Division; a zero divisor gives no real number.
`src/neo/algorithm/mean.hpp:37`; `src/neo/algorithm/normalize_peak.hpp:51`. -/
def div (a b : FR F) : Res (FR F) := if b.val = 0 then .error .divZero else .ok ⟨F.rnd (a.val / b.val)⟩

/-- `std::sqrt`.
`src/neo/algorithm/normalize_energy.hpp:41`; `src/neo/algorithm/standard_deviation.hpp:20`. -/
def sqrt (a : FR F) : FR F := ⟨F.rnd (Real.sqrt a.val)⟩

/-- `math::abs`, `src/neo/math/abs.hpp:42-47`. -/
def abs (a : FR F) : FR F := ⟨|a.val|⟩

/-- `std::max`. `src/neo/algorithm/normalize_peak.hpp:32,42`. -/
def max (a b : FR F) : FR F := ⟨Max.max a.val b.val⟩

/-- `std::min`. `src/neo/convolution/normalize_impulse.hpp:28`. -/
def min (a b : FR F) : FR F := ⟨Min.min a.val b.val⟩

end FR

/-- The summation loop of `mean_unchecked` on vectors, `src/neo/algorithm/mean.hpp:23-28`, and of `variance`,
`src/neo/algorithm/variance.hpp:27-33`; `f` is the summand. -/
def sumVecF (f : FR F → FR F) (x : List (FR F)) : Res (FR F) :=
  forInt x.length (fun i s => do
    let v ← rd x i
    pure (s + f v)) 0

/-- The summation loop of `mean_unchecked` on matrices, `src/neo/algorithm/mean.hpp:30-34`, and of `variance`,
`src/neo/algorithm/variance.hpp:35-40`. -/
def sumMatF (f : FR F → FR F) (v : MatView) (data : List (FR F)) : Res (FR F) :=
  forInt v.rows (fun i s => forInt v.cols (fun j s => do
    let x ← rd data (v.idx i j)
    pure (s + f x)) s) 0

/-- `mean_unchecked` on vectors, `src/neo/algorithm/mean.hpp:18-38`. -/
def meanUncheckedVecF (x : List (FR F)) : Res (FR F) := do
  let s ← sumVecF id x
  s.div (FR.ofNat F x.length)

/-- `mean_unchecked` on matrices, `src/neo/algorithm/mean.hpp:18-38`. -/
def meanUncheckedMatF (v : MatView) (data : List (FR F)) : Res (FR F) := do
  let s ← sumMatF id v data
  s.div (FR.ofNat F (v.rows * v.cols))

/-- `mean` on vectors, `src/neo/algorithm/mean.hpp:43-50`. -/
def meanVecF (x : List (FR F)) : Res (Option (FR F)) :=
  if x.length < 1 then .ok none else do
    let m ← meanUncheckedVecF x
    pure (some m)

/-- `mean` on matrices, `src/neo/algorithm/mean.hpp:43-50`. -/
def meanMatF (v : MatView) (data : List (FR F)) : Res (Option (FR F)) :=
  if v.rows * v.cols < 1 then .ok none else do
    let m ← meanUncheckedMatF v data
    pure (some m)

/-- `variance` on vectors, `src/neo/algorithm/variance.hpp:16-44`. -/
def varianceVecF (x : List (FR F)) : Res (Option (FR F)) :=
  if x.length < 2 then .ok none else do
    let avg ← meanUncheckedVecF x
    let d ← sumVecF (fun v => (v - avg) * (v - avg)) x
    let r ← d.div (FR.ofNat F x.length)
    pure (some r)

/-- `variance` on matrices, `src/neo/algorithm/variance.hpp:16-44`. -/
def varianceMatF (v : MatView) (data : List (FR F)) : Res (Option (FR F)) :=
  if v.rows * v.cols < 2 then .ok none else do
    let avg ← meanUncheckedMatF v data
    let d ← sumMatF (fun v => (v - avg) * (v - avg)) v data
    let r ← d.div (FR.ofNat F (v.rows * v.cols))
    pure (some r)

/-- The tail of `standard_deviation`, `src/neo/algorithm/standard_deviation.hpp:19-22`. -/
def stdOfVarF : Option (FR F) → Option (FR F)
  | some v => some v.sqrt
  | none => none

/-- `standard_deviation` on vectors, `src/neo/algorithm/standard_deviation.hpp:16-23`. -/
def standardDeviationVecF (x : List (FR F)) : Res (Option (FR F)) := do
  let v ← varianceVecF x
  pure (stdOfVarF v)

/-- `standard_deviation` on matrices, `src/neo/algorithm/standard_deviation.hpp:16-23`. -/
def standardDeviationMatF (v : MatView) (data : List (FR F)) : Res (Option (FR F)) := do
  let v ← varianceMatF v data
  pure (stdOfVarF v)

/-- `mean_squared_error` on vectors, `src/neo/algorithm/mean_squared_error.hpp:16-55`.  `mag` is `abs_if_needed`: the
identity for real scalars, the computed absolute value for complex ones. -/
def mseVecF {α : Type} (mag : α → FR F) (lhs rhs : List α) : Res (FR F) := do
  check (lhs.length = rhs.length)
  let s ← forN lhs.length (fun i s => do
    let a ← rd lhs i
    let b ← rd rhs i
    pure (s + (mag a - mag b) * (mag a - mag b))) 0
  s.div (FR.ofNat F lhs.length)

/-- `mean_squared_error` on matrices, `src/neo/algorithm/mean_squared_error.hpp:16-55`. -/
def mseMatF {α : Type} (mag : α → FR F) (vl : MatView) (lhs : List α) (vr : MatView) (rhs : List α) :
    Res (FR F) := do
  check (vl.rows = vr.rows ∧ vl.cols = vr.cols)
  let s ← forN vl.rows (fun i s => forN vl.cols (fun j s => do
    let a ← rd lhs (vl.idx i j)
    let b ← rd rhs (vr.idx i j)
    pure (s + (mag a - mag b) * (mag a - mag b))) s) 0
  s.div (FR.ofNat F (vl.rows * vl.cols))

/-- `root_mean_squared_error` on vectors, `src/neo/algorithm/root_mean_squared_error.hpp:18-23`. -/
def rmseVecF {α : Type} (mag : α → FR F) (lhs rhs : List α) : Res (FR F) := do
  let m ← mseVecF mag lhs rhs
  pure m.sqrt

/-- `root_mean_squared_error` on matrices, `src/neo/algorithm/root_mean_squared_error.hpp:18-23`. -/
def rmseMatF {α : Type} (mag : α → FR F) (vl : MatView) (lhs : List α) (vr : MatView) (rhs : List α) :
    Res (FR F) := do
  let m ← mseMatF mag vl lhs vr rhs
  pure m.sqrt

/-! ## Normalisation -/

open Classical in
/-- The tail of `normalize_peak_factor`, `src/neo/algorithm/normalize_peak.hpp:47-51`. -/
def peakFactorOfF (absMax : FR F) : Res (FR F) :=
  if absMax.val = 0 then .ok FR.one else FR.one.div absMax.abs

/-- `normalize_peak_factor` on vectors, `src/neo/algorithm/normalize_peak.hpp:19-52`. -/
def normalizePeakFactorVecF (x : List (FR F)) : Res (FR F) :=
  if x.length = 0 then .ok FR.one else do
    let m ← forN x.length (fun i m => do
      let v ← rd x i
      pure (FR.max m v.abs)) 0
    peakFactorOfF m

/-- `normalize_peak_factor` on matrices, `src/neo/algorithm/normalize_peak.hpp:19-52` (the shortcut is taken only if
both extents are zero). -/
def normalizePeakFactorMatF (v : MatView) (data : List (FR F)) : Res (FR F) :=
  if v.rows = 0 ∧ v.cols = 0 then .ok FR.one else do
    let m ← forN v.rows (fun i m => forN v.cols (fun j m => do
      let x ← rd data (v.idx i j)
      pure (FR.max m x.abs)) m) 0
    peakFactorOfF m

/-- `normalize_peak` on vectors, `src/neo/algorithm/normalize_peak.hpp:55-59`. -/
def normalizePeakVecF (x : List (FR F)) : Res (List (FR F)) := do
  let f ← normalizePeakFactorVecF x
  scaleVec f x

/-- `normalize_peak` on matrices, `src/neo/algorithm/normalize_peak.hpp:55-59`. -/
def normalizePeakMatF (colMajor : Bool) (v : MatView) (data : List (FR F)) : Res (List (FR F)) := do
  let f ← normalizePeakFactorMatF v data
  scaleMat colMajor f v data

open Classical in
/-- The tail of `normalize_energy_factor`, `src/neo/algorithm/normalize_energy.hpp:37-41`. -/
def energyFactorOfF (energy : FR F) : Res (FR F) :=
  if energy.val = 0 then .ok FR.one else FR.one.div energy.sqrt

/-- `normalize_energy_factor` on vectors, `src/neo/algorithm/normalize_energy.hpp:17-42`. -/
def normalizeEnergyFactorVecF (x : List (FR F)) : Res (FR F) := do
  let e ← forN x.length (fun i e => do
    let v ← rd x i
    pure (e + v * v)) 0
  energyFactorOfF e

/-- `normalize_energy_factor` on matrices, `src/neo/algorithm/normalize_energy.hpp:17-42`. -/
def normalizeEnergyFactorMatF (v : MatView) (data : List (FR F)) : Res (FR F) := do
  let e ← forN v.rows (fun i e => forN v.cols (fun j e => do
    let x ← rd data (v.idx i j)
    pure (e + x * x)) e) 0
  energyFactorOfF e

/-- `normalize_energy` on vectors, `src/neo/algorithm/normalize_energy.hpp:46-50`. -/
def normalizeEnergyVecF (x : List (FR F)) : Res (List (FR F)) := do
  let f ← normalizeEnergyFactorVecF x
  scaleVec f x

/-- `normalize_energy` on matrices, `src/neo/algorithm/normalize_energy.hpp:46-50`. -/
def normalizeEnergyMatF (colMajor : Bool) (v : MatView) (data : List (FR F)) : Res (List (FR F)) := do
  let f ← normalizeEnergyFactorMatF v data
  scaleMat colMajor f v data

/-- The factor of `normalize_impulse`, `src/neo/convolution/normalize_impulse.hpp:24-29`: the minimum of the energy
factors of the channels. -/
def impulseFactorF (v : MatView) (data : List (FR F)) : Res (FR F) := do
  let ch0 ← rowOf v data 0
  let f ← normalizeEnergyFactorVecF ch0
  forR 1 v.rows (fun ch f => do
    let c ← rowOf v data ch
    let g ← normalizeEnergyFactorVecF c
    pure (FR.min f g)) f

/-- `normalize_impulse` on matrices, `src/neo/convolution/normalize_impulse.hpp:11-33`. -/
def normalizeImpulseMatF (colMajor : Bool) (v : MatView) (data : List (FR F)) : Res (List (FR F)) :=
  if v.rows < 1 then .ok data else do
    let f ← impulseFactorF v data
    scaleMat colMajor f v data

end

end Neo
