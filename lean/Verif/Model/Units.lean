import Verif.Model.Stats
import Verif.Model.Fixed
import Mathlib.Analysis.SpecialFunctions.Log.Base
import Mathlib.Analysis.SpecialFunctions.Trigonometric.Basic
import Mathlib.Analysis.SpecialFunctions.Pow.Real

/-!
# Model: units, windows, bin frequencies and the library's complex type

Floats are real numbers; `std::log10` is the real logarithm to base 10 (used for positive arguments
only in the theorems), `std::pow(10, x)` the real power.  The estimate precision of
`amplitude_to_db` (`fast_log10`) is not modelled.
-/

namespace Neo

noncomputable section

/-- `hertz_to_mel`, `src/neo/unit/mel.hpp:13-17`. -/
def hertzToMel (hertz : ℝ) : ℝ := 2595 * Real.logb 10 (1 + hertz / 700)

/-- `mel_to_hertz`, `src/neo/unit/mel.hpp:19-23`. -/
def melToHertz (mels : ℝ) : ℝ := 700 * ((10 : ℝ) ^ (mels / 2595) - 1)

/-- `mel_frequencies`, `src/neo/unit/mel.hpp:25-45`. -/
def melFrequencies (out : List ℝ) (fmin fmax : ℝ) : Res (List ℝ) :=
  if out.length = 0 then .ok out
  else if out.length = 1 then wr out 0 fmin
  else do
    let minMel := hertzToMel fmin
    let maxMel := hertzToMel fmax
    let step ← fdiv (maxMel - minMel) ((out.length - 1 : ℕ) : ℝ)
    forInt out.length (fun i out => wr out i (melToHertz (minMel + step * i))) out

open Classical in
/-- `amplitude_to_db<precision::accurate>(gain, infinity)`, `src/neo/unit/decibel.hpp:14-25`. -/
def amplitudeToDb (gain infinity : ℝ) : ℝ :=
  if gain ≤ 0 then infinity else max infinity (20 * Real.logb 10 gain)

/-- `amplitude_to_db(gain)`, `src/neo/unit/decibel.hpp:27-31`. -/
def amplitudeToDbDefault (gain : ℝ) : ℝ := amplitudeToDb gain (-144)

/-- The window types of `src/neo/math/windowing.hpp`. -/
inductive Window where
  | rectangular
  | hann
  | hamming
  deriving DecidableEq

/-- `operator()(index, size)` of the windows, `src/neo/math/windowing.hpp:21-24`, `35-40`, `51-56`;
`size - 1` is computed in `size_t`, and is only called with `size ≥ 1`. -/
def Window.eval (w : Window) (index size : ℕ) : Res ℝ :=
  match w with
  | .rectangular => .ok 1
  | .hann => do
      let arg ← fdiv (Real.pi * 2 * index) ((size - 1 : ℕ) : ℝ)
      pure (0.5 * (1 - Real.cos arg))
  | .hamming => do
      let arg ← fdiv (Real.pi * 2 * index) ((size - 1 : ℕ) : ℝ)
      pure (0.54 - 0.46 * Real.cos arg)

/-- `fill_window`, `src/neo/math/windowing.hpp:60-66`, with one of the library's windows (which can fault;
`fillWindow` of the STFT model takes a total one). -/
def fillWindowR (vec : List ℝ) (w : Window) : Res (List ℝ) :=
  let size := vec.length
  forN size (fun i vec => do
    let x ← w.eval i size
    wr vec i x) vec

/-- `generate_window`, `src/neo/math/windowing.hpp:69-75` (the buffer is value-initialised). -/
def generateWindow (length : ℕ) (w : Window) : Res (List ℝ) :=
  fillWindowR (List.replicate length 0) w

/-- `rfftfreq<T>(size, index, inv_sample_rate)`, `src/neo/fft/rfftfreq.hpp:11-18`. -/
def rfftfreq (size index : ℤ) (invSampleRate : ℝ) : Res ℝ := do
  let fs ← fdiv 1 invSampleRate
  let invSize ← fdiv 1 size
  pure (index * fs * invSize)

/-- `rfftfreq(vec, inv_sample_rate)`, `src/neo/fft/rfftfreq.hpp:20-29`: the size is converted to
`int`. -/
def rfftfreqVec (vec : List ℝ) (invSampleRate : ℝ) : Res (List ℝ) :=
  forN (i32.conv vec.length).toNat (fun i vec' => do
    let f ← rfftfreq (i32.conv vec.length) i invSampleRate
    wr vec' i f) vec

/-! ## `scalar_complex` -/

/-- `scalar_complex<Scalar>`: the member `_data[2]`, `src/neo/complex/scalar_complex.hpp:14-21`,
`112-113`. -/
structure SComplex (R : Type) where
  d0 : R
  d1 : R

namespace SComplex

variable {R : Type}

/-- `operator+(z)` (unary), `src/neo/complex/scalar_complex.hpp:31`. -/
def pos (z : SComplex R) : SComplex R := z

/-- `operator-(z)` (unary), `src/neo/complex/scalar_complex.hpp:33`. -/
def neg [Neg R] (z : SComplex R) : SComplex R := ⟨-z.d0, -z.d1⟩

/-- `operator+`, `src/neo/complex/scalar_complex.hpp:35-41`. -/
def add [Add R] (l r : SComplex R) : SComplex R := ⟨l.d0 + r.d0, l.d1 + r.d1⟩

/-- `operator-`, `src/neo/complex/scalar_complex.hpp:43-49`. -/
def sub [Sub R] (l r : SComplex R) : SComplex R := ⟨l.d0 - r.d0, l.d1 - r.d1⟩

/-- `operator*`, `src/neo/complex/scalar_complex.hpp:51-57`. -/
def mul [Add R] [Sub R] [Mul R] (l r : SComplex R) : SComplex R :=
  ⟨l.d0 * r.d0 - l.d1 * r.d1, l.d0 * r.d1 + l.d1 * r.d0⟩

/-- `operator/`, `src/neo/complex/scalar_complex.hpp:59-70`; floats as reals, a zero divisor has no
real result. -/
def div (l r : SComplex ℝ) : Res (SComplex ℝ) := do
  let denom := r.d0 * r.d0 + r.d1 * r.d1
  let re ← fdiv (l.d0 * r.d0 + l.d1 * r.d1) denom
  let im ← fdiv (l.d1 * r.d0 - l.d0 * r.d1) denom
  pure ⟨re, im⟩

/-- Compound assignments `mem[l] op= mem[r]` on a memory of complex objects: the right operand is a
reference (`scalar_complex const&`), so `l = r` is the aliased call; the binary operator takes its
operands by value before the result is stored.  `src/neo/complex/scalar_complex.hpp:72-94`. -/
def assignOp (op : SComplex R → SComplex R → Res (SComplex R)) (mem : List (SComplex R))
    (l r : ℕ) : Res (List (SComplex R)) := do
  let a ← rd mem l
  let b ← rd mem r
  let v ← op a b
  wr mem l v

/-- `operator*=(lhs, scalar)`, `src/neo/complex/scalar_complex.hpp:96-102`. -/
def mulScalar [Mul R] (l : SComplex R) (s : R) : SComplex R := ⟨l.d0 * s, l.d1 * s⟩

/-- `operator/=(lhs, scalar)`, `src/neo/complex/scalar_complex.hpp:104-110`. -/
def divScalar (l : SComplex ℝ) (s : ℝ) : Res (SComplex ℝ) := do
  let re ← fdiv l.d0 s
  let im ← fdiv l.d1 s
  pure ⟨re, im⟩

/-- `conj`, `src/neo/complex/scalar_complex.hpp:130-134`. -/
def conj [Neg R] (z : SComplex R) : SComplex R := ⟨z.d0, -z.d1⟩

/-- `abs`, `src/neo/complex/scalar_complex.hpp:136-153`. -/
def abs (z : SComplex ℝ) : ℝ := Real.sqrt (z.d0 * z.d0 + z.d1 * z.d1)

end SComplex

end

end Neo
