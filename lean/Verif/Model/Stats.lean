import Verif.Model.Mat
import Mathlib.Analysis.Complex.Norm
import Mathlib.Analysis.Real.Sqrt

/-!
# Model: statistics, comparison and normalisation (`neo/algorithm`, `neo/convolution`)

Floats are real numbers.  A floating-point division by zero has no real value and is the outcome
`divZero`.  The loops of `mean`, `variance` and `allmatch` count with an `int` (`auto i{0}`), which
overflows when an extent is `2^31` or more.
-/

namespace Neo

noncomputable section

/-- `for (auto i{0}; std::cmp_less(i, n); ++i)`: the counter is a 32-bit `int`, so `++i` is undefined
once `i = 2^31 - 1`.
`src/neo/algorithm/mean.hpp:26,30-31`; `src/neo/algorithm/variance.hpp:30,35-36`. -/
def forInt {σ : Type} (n : Nat) (body : Nat → σ → Res σ) (s : σ) : Res σ := do
  let s ← forN (min n (2 ^ 31)) body s
  if n < 2 ^ 31 then .ok s else .error .overflow

open Classical in
/-- Floating-point division; a zero divisor gives no real number.
`src/neo/algorithm/mean.hpp:37`; `src/neo/algorithm/normalize_peak.hpp:51`; `src/neo/algorithm/normalize_energy.hpp:41`. -/
def fdiv (a b : ℝ) : Res ℝ := if b = 0 then .error .divZero else .ok (a / b)

/-- The summation loop of `mean_unchecked` on vectors, `src/neo/algorithm/mean.hpp:23-28`, and of
`variance`, `src/neo/algorithm/variance.hpp:27-33`; `f` is the summand. -/
def sumVec (f : ℝ → ℝ) (x : List ℝ) : Res ℝ :=
  forInt x.length (fun i s => do
    let v ← rd x i
    pure (s + f v)) 0

/-- The summation loop of `mean_unchecked` on matrices, `src/neo/algorithm/mean.hpp:30-34`, and of
`variance`, `src/neo/algorithm/variance.hpp:35-40`. -/
def sumMat (f : ℝ → ℝ) (v : MatView) (data : List ℝ) : Res ℝ :=
  forInt v.rows (fun i s => forInt v.cols (fun j s => do
    let x ← rd data (v.idx i j)
    pure (s + f x)) s) 0

/-- `mean_unchecked` on vectors, `src/neo/algorithm/mean.hpp:18-38`. -/
def meanUncheckedVec (x : List ℝ) : Res ℝ := do
  let s ← sumVec id x
  fdiv s x.length

/-- `mean_unchecked` on matrices, `src/neo/algorithm/mean.hpp:18-38`. -/
def meanUncheckedMat (v : MatView) (data : List ℝ) : Res ℝ := do
  let s ← sumMat id v data
  fdiv s (v.rows * v.cols : ℕ)

/-- `mean` on vectors, `src/neo/algorithm/mean.hpp:43-50`. -/
def meanVec (x : List ℝ) : Res (Option ℝ) :=
  if x.length < 1 then .ok none else do
    let m ← meanUncheckedVec x
    pure (some m)

/-- `mean` on matrices, `src/neo/algorithm/mean.hpp:43-50`. -/
def meanMat (v : MatView) (data : List ℝ) : Res (Option ℝ) :=
  if v.rows * v.cols < 1 then .ok none else do
    let m ← meanUncheckedMat v data
    pure (some m)

/-- `variance` on vectors, `src/neo/algorithm/variance.hpp:16-44`. -/
def varianceVec (x : List ℝ) : Res (Option ℝ) :=
  if x.length < 2 then .ok none else do
    let avg ← meanUncheckedVec x
    let d ← sumVec (fun v => (v - avg) * (v - avg)) x
    let r ← fdiv d x.length
    pure (some r)

/-- `variance` on matrices, `src/neo/algorithm/variance.hpp:16-44`. -/
def varianceMat (v : MatView) (data : List ℝ) : Res (Option ℝ) :=
  if v.rows * v.cols < 2 then .ok none else do
    let avg ← meanUncheckedMat v data
    let d ← sumMat (fun v => (v - avg) * (v - avg)) v data
    let r ← fdiv d (v.rows * v.cols : ℕ)
    pure (some r)

/-- The tail of `standard_deviation`, `src/neo/algorithm/standard_deviation.hpp:19-22`. -/
def stdOfVar : Option ℝ → Option ℝ
  | some v => some (Real.sqrt v)
  | none => none

/-- `standard_deviation` on vectors, `src/neo/algorithm/standard_deviation.hpp:16-23`. -/
def standardDeviationVec (x : List ℝ) : Res (Option ℝ) := do
  let v ← varianceVec x
  pure (stdOfVar v)

/-- `standard_deviation` on matrices, `src/neo/algorithm/standard_deviation.hpp:16-23`. -/
def standardDeviationMat (v : MatView) (data : List ℝ) : Res (Option ℝ) := do
  let v ← varianceMat v data
  pure (stdOfVar v)

/-- `mean_squared_error` on vectors, `src/neo/algorithm/mean_squared_error.hpp:16-55`.  `mag` is
`abs_if_needed`: the identity for real scalars, the absolute value for complex ones.  The counter has
the index type of the spans. -/
def mseVec {α : Type} (mag : α → ℝ) (lhs rhs : List α) : Res ℝ := do
  check (lhs.length = rhs.length)
  let s ← forN lhs.length (fun i s => do
    let a ← rd lhs i
    let b ← rd rhs i
    pure (s + (mag a - mag b) * (mag a - mag b))) 0
  fdiv s lhs.length

/-- `mean_squared_error` on matrices, `src/neo/algorithm/mean_squared_error.hpp:16-55`. -/
def mseMat {α : Type} (mag : α → ℝ) (vl : MatView) (lhs : List α) (vr : MatView) (rhs : List α) :
    Res ℝ := do
  check (vl.rows = vr.rows ∧ vl.cols = vr.cols)
  let s ← forN vl.rows (fun i s => forN vl.cols (fun j s => do
    let a ← rd lhs (vl.idx i j)
    let b ← rd rhs (vr.idx i j)
    pure (s + (mag a - mag b) * (mag a - mag b))) s) 0
  fdiv s (vl.rows * vl.cols : ℕ)

/-- `mean_squared_error` of real vectors: `abs_if_needed` is the identity.
`src/neo/algorithm/mean_squared_error.hpp:16-55`. -/
def mseReal : List ℝ → List ℝ → Res ℝ := mseVec id

/-- `mean_squared_error` of complex vectors: `abs_if_needed` is `math::abs`.
`src/neo/algorithm/mean_squared_error.hpp:16-55`. -/
def mseComplex : List ℂ → List ℂ → Res ℝ := mseVec (fun z => ‖z‖)

/-- `root_mean_squared_error` on vectors, `src/neo/algorithm/root_mean_squared_error.hpp:18-23`. -/
def rmseVec {α : Type} (mag : α → ℝ) (lhs rhs : List α) : Res ℝ := do
  let m ← mseVec mag lhs rhs
  pure (Real.sqrt m)

/-- `root_mean_squared_error` on matrices, `src/neo/algorithm/root_mean_squared_error.hpp:18-23`. -/
def rmseMat {α : Type} (mag : α → ℝ) (vl : MatView) (lhs : List α) (vr : MatView)
    (rhs : List α) : Res ℝ := do
  let m ← mseMat mag vl lhs vr rhs
  pure (Real.sqrt m)

/-! ## Normalisation -/

open Classical in
/-- The tail of `normalize_peak_factor`, `src/neo/algorithm/normalize_peak.hpp:47-51`. -/
def peakFactorOf (absMax : ℝ) : Res ℝ :=
  if absMax = 0 then .ok 1 else fdiv 1 |absMax|

/-- `normalize_peak_factor` on vectors, `src/neo/algorithm/normalize_peak.hpp:19-52`. -/
def normalizePeakFactorVec (x : List ℝ) : Res ℝ :=
  if x.length = 0 then .ok 1 else do
    let m ← forN x.length (fun i m => do
      let v ← rd x i
      pure (max m |v|)) 0
    peakFactorOf m

/-- `normalize_peak_factor` on matrices, `src/neo/algorithm/normalize_peak.hpp:19-52` (the shortcut
is taken only if both extents are zero). -/
def normalizePeakFactorMat (v : MatView) (data : List ℝ) : Res ℝ :=
  if v.rows = 0 ∧ v.cols = 0 then .ok 1 else do
    let m ← forN v.rows (fun i m => forN v.cols (fun j m => do
      let x ← rd data (v.idx i j)
      pure (max m |x|)) m) 0
    peakFactorOf m

/-- `normalize_peak` on vectors, `src/neo/algorithm/normalize_peak.hpp:55-59`. -/
def normalizePeakVec (x : List ℝ) : Res (List ℝ) := do
  let f ← normalizePeakFactorVec x
  scaleVec f x

/-- `normalize_peak` on matrices, `src/neo/algorithm/normalize_peak.hpp:55-59`. -/
def normalizePeakMat (colMajor : Bool) (v : MatView) (data : List ℝ) : Res (List ℝ) := do
  let f ← normalizePeakFactorMat v data
  scaleMat colMajor f v data

open Classical in
/-- The tail of `normalize_energy_factor`, `src/neo/algorithm/normalize_energy.hpp:37-41`. -/
def energyFactorOf (energy : ℝ) : Res ℝ :=
  if energy = 0 then .ok 1 else fdiv 1 (Real.sqrt energy)

/-- `normalize_energy_factor` on vectors, `src/neo/algorithm/normalize_energy.hpp:17-42`. -/
def normalizeEnergyFactorVec (x : List ℝ) : Res ℝ := do
  let e ← forN x.length (fun i e => do
    let v ← rd x i
    pure (e + v * v)) 0
  energyFactorOf e

/-- `normalize_energy_factor` on matrices, `src/neo/algorithm/normalize_energy.hpp:17-42`. -/
def normalizeEnergyFactorMat (v : MatView) (data : List ℝ) : Res ℝ := do
  let e ← forN v.rows (fun i e => forN v.cols (fun j e => do
    let x ← rd data (v.idx i j)
    pure (e + x * x)) e) 0
  energyFactorOf e

/-- `normalize_energy` on vectors, `src/neo/algorithm/normalize_energy.hpp:46-50`. -/
def normalizeEnergyVec (x : List ℝ) : Res (List ℝ) := do
  let f ← normalizeEnergyFactorVec x
  scaleVec f x

/-- `normalize_energy` on matrices, `src/neo/algorithm/normalize_energy.hpp:46-50`. -/
def normalizeEnergyMat (colMajor : Bool) (v : MatView) (data : List ℝ) : Res (List ℝ) := do
  let f ← normalizeEnergyFactorMat v data
  scaleMat colMajor f v data

/-- `stdex::submdspan(obj, ch, full_extent)` read as a value.
`src/neo/convolution/normalize_impulse.hpp:24,27`. -/
def rowOf {α : Type} (v : MatView) (data : List α) (ch : Nat) : Res (List α) :=
  forN v.cols (fun j out => do
    let x ← rd data (v.idx ch j)
    pure (out ++ [x])) []

/-- The factor of `normalize_impulse`, `src/neo/convolution/normalize_impulse.hpp:24-29`: the minimum
of the energy factors of the channels. -/
def impulseFactor (v : MatView) (data : List ℝ) : Res ℝ := do
  let ch0 ← rowOf v data 0
  let f ← normalizeEnergyFactorVec ch0
  forR 1 v.rows (fun ch f => do
    let c ← rowOf v data ch
    let g ← normalizeEnergyFactorVec c
    pure (min f g)) f

/-- `normalize_impulse` on matrices, `src/neo/convolution/normalize_impulse.hpp:11-33`. -/
def normalizeImpulseMat (colMajor : Bool) (v : MatView) (data : List ℝ) : Res (List ℝ) :=
  if v.rows < 1 then .ok data else do
    let f ← impulseFactor v data
    scaleMat colMajor f v data

/-- `normalize_impulse` on vectors, `src/neo/convolution/normalize_impulse.hpp:17-18`. -/
def normalizeImpulseVec (x : List ℝ) : Res (List ℝ) := normalizeEnergyVec x

/-! ## Comparison -/

/-- `for (auto i{0}; cmp_less(i, n); ++i) if (...) return false;`: the loop of `allmatch`; nothing is
read after the early return, and the counter does not overflow if the loop is left before.
`src/neo/algorithm/allmatch.hpp:21-25`. -/
def forIntWhile (n : Nat) (body : Nat → Res Bool) : Res Bool := do
  let go ← forN (min n (2 ^ 31)) (fun i go => if go then body i else .ok false) true
  if go then (if n < 2 ^ 31 then .ok true else .error .overflow) else .ok false

/-- `allmatch` on vectors, `src/neo/algorithm/allmatch.hpp:15-37`. -/
def allmatchVec {α β : Type} (p : α → β → Bool) (lhs : List α) (rhs : List β) : Res Bool := do
  check (lhs.length = rhs.length)
  forIntWhile lhs.length (fun i => do
    let a ← rd lhs i
    let b ← rd rhs i
    pure (p a b))

/-- `allmatch` on matrices, `src/neo/algorithm/allmatch.hpp:15-37`. -/
def allmatchMat {α β : Type} (p : α → β → Bool) (vl : MatView) (lhs : List α) (vr : MatView)
    (rhs : List β) : Res Bool := do
  check (vl.rows = vr.rows ∧ vl.cols = vr.cols)
  forIntWhile vl.rows (fun i => forIntWhile vl.cols (fun j => do
    let a ← rd lhs (vl.idx i j)
    let b ← rd rhs (vr.idx i j)
    pure (p a b)))

/-- `allmatch(obj, predicate)` on vectors, `src/neo/algorithm/allmatch.hpp:39-43`. -/
def allmatchVec1 {α : Type} (p : α → Bool) (obj : List α) : Res Bool :=
  allmatchVec (fun a _ => p a) obj obj

/-- `allmatch(obj, predicate)` on matrices, `src/neo/algorithm/allmatch.hpp:39-43`. -/
def allmatchMat1 {α : Type} (p : α → Bool) (v : MatView) (obj : List α) : Res Bool :=
  allmatchMat (fun a _ => p a) v obj v obj

open Classical in
/-- The predicate of `allclose`, `src/neo/algorithm/allclose.hpp:21-23`, for real and complex
elements. -/
def closePred {α : Type} [NormedAddCommGroup α] (tol : ℝ) (l r : α) : Bool :=
  decide (‖l - r‖ ≤ tol)

/-- `allclose(lhs, rhs, tolerance)` on vectors, `src/neo/algorithm/allclose.hpp:18-24`. -/
def allcloseVec {α : Type} [NormedAddCommGroup α] (lhs rhs : List α) (tol : ℝ) : Res Bool :=
  allmatchVec (closePred tol) lhs rhs

/-- `allclose(lhs, rhs, tolerance)` on matrices, `src/neo/algorithm/allclose.hpp:18-24`. -/
def allcloseMat {α : Type} [NormedAddCommGroup α] (vl : MatView) (lhs : List α) (vr : MatView)
    (rhs : List α) (tol : ℝ) : Res Bool :=
  allmatchMat (closePred tol) vl lhs vr rhs

/-- `allclose(lhs, rhs)`: the default tolerance, `src/neo/algorithm/allclose.hpp:26-44`;
`single` is `same_as<Float, float>`. -/
def allcloseDefaultVec {α : Type} [NormedAddCommGroup α] (single : Bool) (lhs rhs : List α) :
    Res Bool :=
  allcloseVec lhs rhs (if single then 1e-5 else 1e-9)

end

end Neo
