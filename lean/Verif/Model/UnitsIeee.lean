import Verif.Spec.IeeeOrder
import Verif.Model.NormIeee
import Verif.Model.AnyArith
import Verif.Model.Units

/-!
# Model: windows, bin frequencies, units and comparisons in IEEE 754 arithmetic

The functions of `Model/Units.lean` and `allclose` on the values of a binary format, infinities and NaN included: every
operation is the exact one followed by rounding to nearest.  Products and sums are not fused.  The functions `std::cos`,
`std::log10` and `std::pow(10, ·)` are arguments.
-/

namespace Neo

open Spec

noncomputable section

/-- A literal or constant of type `double` converted to the format, `src/neo/math/windowing.hpp:38,54,55`. -/
def ofDouble (f : Fmt) (x : ℝ) : FVal := f.round (binary64.round (.fin x))

/-- An integer converted to the format, `src/neo/math/windowing.hpp:37,39`, `src/neo/fft/rfftfreq.hpp:15,16`,
`src/neo/unit/mel.hpp:40,43`. -/
def ofNat (f : Fmt) (n : ℕ) : FVal := f.round (.fin n)

/-- `two_pi * static_cast<Float>(index) / n`, `src/neo/math/windowing.hpp:37-39,53-55`. -/
def windowArgI (f : Fmt) (index size : ℕ) : FVal :=
  let n := ofNat f (size - 1)
  let twoPi := f.round ((ofDouble f Real.pi).mul (.fin 2))
  f.round ((f.round (twoPi.mul (ofNat f index))).div n)

/-- `operator()(index, size)` of the windows, `src/neo/math/windowing.hpp:21-24`, `35-40`, `51-56`. -/
def windowI (f : Fmt) (cos : FVal → FVal) (w : Window) (index size : ℕ) : FVal :=
  match w with
  | .rectangular => .fin 1
  | .hann => f.round ((FVal.fin 0.5).mul (f.round ((FVal.fin 1).sub (cos (windowArgI f index size)))))
  | .hamming =>
      f.round ((ofDouble f 0.54).sub (f.round ((ofDouble f 0.46).mul (cos (windowArgI f index size)))))

/-- `fill_window`, `src/neo/math/windowing.hpp:60-66`. -/
def fillWindowI (f : Fmt) (cos : FVal → FVal) (w : Window) (vec : List FVal) : Res (List FVal) :=
  let size := vec.length
  forN size (fun i vec => wr vec i (windowI f cos w i size)) vec

/-- `generate_window`, `src/neo/math/windowing.hpp:69-75`. -/
def generateWindowI (f : Fmt) (cos : FVal → FVal) (w : Window) (length : ℕ) : Res (List FVal) :=
  fillWindowI f cos w (List.replicate length (.fin 0))

/-- `rfftfreq<T>(size, index, inv_sample_rate)` for sizes and indices that are not negative,
`src/neo/fft/rfftfreq.hpp:11-18`. -/
def rfftfreqI (f : Fmt) (size index : ℕ) (invSampleRate : FVal) : FVal :=
  let fs := f.round ((FVal.fin 1).div (f.round invSampleRate))
  let invSize := f.round ((FVal.fin 1).div (ofNat f size))
  f.round ((f.round ((ofNat f index).mul fs)).mul invSize)

/-- `rfftfreq(vec, inv_sample_rate)`, `src/neo/fft/rfftfreq.hpp:20-29`: the size is converted to `int`; for a negative size
the loop does not run. -/
def rfftfreqVecI (f : Fmt) (vec : List FVal) (invSampleRate : FVal) : Res (List FVal) :=
  let size := (i32.conv vec.length).toNat
  forN size (fun i vec' => wr vec' i (rfftfreqI f size i invSampleRate)) vec

open Classical in
/-- `amplitude_to_db<precision::accurate>(gain, infinity)`, `src/neo/unit/decibel.hpp:14-25`. -/
def amplitudeToDbI (f : Fmt) (log10 : FVal → FVal) (gain infinity : FVal) : FVal :=
  if gain.Le (.fin 0) then infinity else maxI infinity (f.round ((ofNat f 20).mul (log10 gain)))

/-- `hertz_to_mel`, `src/neo/unit/mel.hpp:13-17`. -/
def hertzToMelI (f : Fmt) (log10 : FVal → FVal) (hertz : FVal) : FVal :=
  f.round ((ofNat f 2595).mul (log10 (f.round ((FVal.fin 1).add (f.round (hertz.div (ofNat f 700)))))))

/-- `mel_to_hertz`, `src/neo/unit/mel.hpp:19-23`. -/
def melToHertzI (f : Fmt) (pow10 : FVal → FVal) (mels : FVal) : FVal :=
  f.round ((ofNat f 700).mul (f.round ((pow10 (f.round (mels.div (ofNat f 2595)))).sub (.fin 1))))

/-- `mel_frequencies`, `src/neo/unit/mel.hpp:25-45`. -/
def melFrequenciesI (f : Fmt) (log10 pow10 : FVal → FVal) (out : List FVal) (fmin fmax : FVal) : Res (List FVal) :=
  if out.length = 0 then .ok out
  else if out.length = 1 then wr out 0 fmin
  else
    let minMel := hertzToMelI f log10 fmin
    let maxMel := hertzToMelI f log10 fmax
    let step := f.round ((f.round (maxMel.sub minMel)).div (ofNat f (out.length - 1)))
    forInt out.length (fun i out =>
      wr out i (melToHertzI f pow10 (f.round (minMel.add (f.round (step.mul (ofNat f i))))))) out

/-- `abs(left - right)` of real numbers, `src/neo/algorithm/allclose.hpp:22`. -/
def distI (f : Fmt) (l r : FVal) : FVal := (f.round (l.sub r)).abs

open Classical in
/-- `abs(scalar_complex)`, `src/neo/complex/scalar_complex.hpp:137-153`.  Half precision sums are converted to `float` for
the square root. -/
def scAbsI (f : Fmt) (z : IC f) : FVal :=
  let sum := f.round ((f.round (z.re.mul z.re)).add (f.round (z.im.mul z.im)))
  if f = binary16 then f.round (binary32.round sum.sqrt) else f.round sum.sqrt

open Classical in
/-- The predicate of `allclose`, `src/neo/algorithm/allclose.hpp:21-23`, where `dist` is `abs(left - right)`. -/
def closeI {α : Type} (dist : α → α → FVal) (tol : FVal) (l r : α) : Bool := decide ((dist l r).Le tol)

/-- `allclose(lhs, rhs, tolerance)` on vectors, `src/neo/algorithm/allclose.hpp:18-24`. -/
def allcloseVecI {α : Type} (dist : α → α → FVal) (lhs rhs : List α) (tol : FVal) : Res Bool :=
  allmatchVec (closeI dist tol) lhs rhs

end

end Neo
