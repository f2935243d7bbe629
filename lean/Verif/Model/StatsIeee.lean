import Verif.Model.NormIeee

/-!
# Model: statistics and energy normalisation in IEEE 754 arithmetic

The functions of `Model/Stats.lean` that `Model/NormIeee.lean` leaves out, on the values of a binary format: every operation
is the exact one followed by rounding to nearest.  Products and sums are not fused.  Scalars are real.
-/

namespace Neo

open Spec

noncomputable section

/-- `sum / static_cast<Float>(size)`, `src/neo/algorithm/mean.hpp:37`, `src/neo/algorithm/variance.hpp:43`,
`src/neo/algorithm/mean_squared_error.hpp:54`. -/
def divCountI (f : Fmt) (s : FVal) (n : ℕ) : FVal := f.round (s.div (f.round (.fin n)))

/-- `sum += val`, `src/neo/algorithm/mean.hpp:27,32`. -/
def addI (f : Fmt) (s v : FVal) : FVal := f.round (s.add v)

/-- `diff = a - b; squared = diff * diff; sum += squared`, `src/neo/algorithm/mean_squared_error.hpp:40-42,47-49`,
`src/neo/algorithm/variance.hpp:31-32,37-38`. -/
def sqDiffI (f : Fmt) (s a b : FVal) : FVal :=
  let d := f.round (a.sub b)
  f.round (s.add (f.round (d.mul d)))

/-- `mean_unchecked` on vectors, `src/neo/algorithm/mean.hpp:18-38`. -/
def meanUncheckedVecI (f : Fmt) (x : List FVal) : Res FVal := do
  let s ← forInt x.length (fun i s => do
    let v ← rd x i
    pure (addI f s v)) (.fin 0)
  pure (divCountI f s x.length)

/-- `mean_unchecked` on matrices, `src/neo/algorithm/mean.hpp:18-38`. -/
def meanUncheckedMatI (f : Fmt) (v : MatView) (data : List FVal) : Res FVal := do
  let s ← forInt v.rows (fun i s => forInt v.cols (fun j s => do
    let x ← rd data (v.idx i j)
    pure (addI f s x)) s) (.fin 0)
  pure (divCountI f s (v.rows * v.cols))

/-- `mean` on matrices, `src/neo/algorithm/mean.hpp:43-50`. -/
def meanMatI (f : Fmt) (v : MatView) (data : List FVal) : Res (Option FVal) :=
  if v.rows * v.cols < 1 then .ok none else do
    let m ← meanUncheckedMatI f v data
    pure (some m)

/-- `variance` on vectors, `src/neo/algorithm/variance.hpp:16-44`. -/
def varianceVecI (f : Fmt) (x : List FVal) : Res (Option FVal) :=
  if x.length < 2 then .ok none else do
    let avg ← meanUncheckedVecI f x
    let s ← forInt x.length (fun i s => do
      let v ← rd x i
      pure (sqDiffI f s v avg)) (.fin 0)
    pure (some (divCountI f s x.length))

/-- `variance` on matrices, `src/neo/algorithm/variance.hpp:16-44`. -/
def varianceMatI (f : Fmt) (v : MatView) (data : List FVal) : Res (Option FVal) :=
  if v.rows * v.cols < 2 then .ok none else do
    let avg ← meanUncheckedMatI f v data
    let s ← forInt v.rows (fun i s => forInt v.cols (fun j s => do
      let x ← rd data (v.idx i j)
      pure (sqDiffI f s x avg)) s) (.fin 0)
    pure (some (divCountI f s (v.rows * v.cols)))

/-- `standard_deviation` on vectors, `src/neo/algorithm/standard_deviation.hpp:16-23`. -/
def standardDeviationVecI (f : Fmt) (x : List FVal) : Res (Option FVal) := do
  let v ← varianceVecI f x
  pure (v.map fun v => f.round v.sqrt)

/-- `standard_deviation` on matrices, `src/neo/algorithm/standard_deviation.hpp:16-23`. -/
def standardDeviationMatI (f : Fmt) (v : MatView) (data : List FVal) : Res (Option FVal) := do
  let v ← varianceMatI f v data
  pure (v.map fun v => f.round v.sqrt)

/-- `mean_squared_error` on vectors of real scalars, `src/neo/algorithm/mean_squared_error.hpp:16-55`. -/
def mseVecI (f : Fmt) (lhs rhs : List FVal) : Res FVal := do
  check (lhs.length = rhs.length)
  let s ← forN lhs.length (fun i s => do
    let a ← rd lhs i
    let b ← rd rhs i
    pure (sqDiffI f s a b)) (.fin 0)
  pure (divCountI f s lhs.length)

/-- `mean_squared_error` on matrices of real scalars, `src/neo/algorithm/mean_squared_error.hpp:16-55`. -/
def mseMatI (f : Fmt) (vl : MatView) (lhs : List FVal) (vr : MatView) (rhs : List FVal) : Res FVal := do
  check (vl.rows = vr.rows ∧ vl.cols = vr.cols)
  let s ← forN vl.rows (fun i s => forN vl.cols (fun j s => do
    let a ← rd lhs (vl.idx i j)
    let b ← rd rhs (vr.idx i j)
    pure (sqDiffI f s a b)) s) (.fin 0)
  pure (divCountI f s (vl.rows * vl.cols))

/-- `root_mean_squared_error` on vectors, `src/neo/algorithm/root_mean_squared_error.hpp:18-23`. -/
def rmseVecI (f : Fmt) (lhs rhs : List FVal) : Res FVal := do
  let m ← mseVecI f lhs rhs
  pure (f.round m.sqrt)

/-- `root_mean_squared_error` on matrices, `src/neo/algorithm/root_mean_squared_error.hpp:18-23`. -/
def rmseMatI (f : Fmt) (vl : MatView) (lhs : List FVal) (vr : MatView) (rhs : List FVal) : Res FVal := do
  let m ← mseMatI f vl lhs vr rhs
  pure (f.round m.sqrt)

/-- `normalize_energy_factor` on vectors, `src/neo/algorithm/normalize_energy.hpp:17-42`. -/
def normalizeEnergyFactorVecI (f : Fmt) (x : List FVal) : Res FVal := do
  let e ← forN x.length (fun i e => do
    let v ← rd x i
    pure (energyStepI f e v)) (.fin 0)
  pure (energyFactorI f e)

/-- `normalize_energy` on matrices, `src/neo/algorithm/normalize_energy.hpp:17-50`. -/
def normalizeEnergyMatI (f : Fmt) (colMajor : Bool) (v : MatView) (data : List FVal) : Res (List FVal) := do
  let e ← forN v.rows (fun i e => forN v.cols (fun j e => do
    let x ← rd data (v.idx i j)
    pure (energyStepI f e x)) e) (.fin 0)
  unaryOp2 colMajor (scaleOpI f (energyFactorI f e)) v data

open Classical in
/-- `std::min(a, b)`: `(b < a) ? b : a`. `src/neo/convolution/normalize_impulse.hpp:28`. -/
def minI (a b : FVal) : FVal := if b.Lt a then b else a

/-- The factor of `normalize_impulse`, `src/neo/convolution/normalize_impulse.hpp:24-29`. -/
def impulseFactorI (f : Fmt) (v : MatView) (data : List FVal) : Res FVal := do
  let ch0 ← rowOf v data 0
  let a ← normalizeEnergyFactorVecI f ch0
  forR 1 v.rows (fun ch a => do
    let c ← rowOf v data ch
    let g ← normalizeEnergyFactorVecI f c
    pure (minI a g)) a

/-- `normalize_impulse` on matrices, `src/neo/convolution/normalize_impulse.hpp:11-33`. -/
def normalizeImpulseMatI (f : Fmt) (colMajor : Bool) (v : MatView) (data : List FVal) : Res (List FVal) :=
  if v.rows < 1 then .ok data else do
    let a ← impulseFactorI f v data
    unaryOp2 colMajor (scaleOpI f a) v data

end

end Neo
