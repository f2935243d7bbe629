import Verif.Model.AnyPartition
import Verif.Model.UnitsIeee

/-!
# Model: the short-time Fourier transform over any arithmetic

`neo/fft/stft.hpp` with any overlap and any window, as `Model/Stft.lean`, over any arithmetic.  `std::size_t` arithmetic is
modulo 2⁶⁴.
-/

namespace Neo

variable {R C : Type} [Zero R] [Add R] [Mul R] [Zero C] [Add C] [Sub C] [Mul C] {A : Arith R C}

/-- `stft_options`, `src/neo/fft/stft.hpp:30-37`. -/
structure StftOptionsW (R : Type) where
  frameSize : Nat
  transformSize : Nat
  overlapSize : Nat
  window : Nat → Nat → R

/-- The options of the constructor with one argument, `stft.hpp:43-49`; `window` is the default window of `stft_options`,
`stft.hpp:36`. -/
def StftOptionsW.ofSize (window : Nat → Nat → R) (transformSize : Nat) : StftOptionsW R where
  frameSize := transformSize
  transformSize := transformSize
  overlapSize := transformSize / 2
  window := window

/-- `stft_plan`, `stft.hpp:40-109`. -/
structure StftPlanW (A : Arith R C) where
  options : StftOptionsW R
  rfft : RfftPlanG A
  input : List R
  output : List C
  window : List R

/-- `fill_window(vec, window)`, `src/neo/math/windowing.hpp:60-66`. -/
def fillWindowW (v : List R) (window : Nat → Nat → R) : Res (List R) :=
  forN v.length (fun i v => wr v i (window i v.length)) v

/-- Constructor, `stft.hpp:51-54,102-108`. -/
def StftPlanW.make (A : Arith R C) (options : StftOptionsW R) : Res (StftPlanW A) := do
  let rfft ← RfftPlanG.make A (nextOrder options.transformSize)
  let window ← fillWindowW (vec rfft.size (fun _ => 0)) options.window
  pure {
    options := options
    rfft := rfft
    input := vec rfft.size (fun _ => 0)
    output := vec rfft.size (fun _ => 0)
    window := window }

/-- Body of the frame loop, `stft.hpp:79-96`.  Forming a subspan outside its parent is an out-of-bounds fault. -/
def stftFrameW (v : MatView) (data : List R) (numFrames numBins chIdx frameIdx : Nat)
    (s : StftPlanW A × List C) : Res (StftPlanW A × List C) := do
  let p := s.1
  let sampleIdx := wsub (frameIdx * p.options.frameSize) (frameIdx * p.options.overlapSize)
  let numSamples := min (wsub v.cols sampleIdx) p.options.frameSize
  if sampleIdx + numSamples ≤ v.cols ∧ numSamples ≤ p.input.length then .ok () else .error .oob
  let input ← fillVec p.input 0
  let output ← fillVec p.output 0
  let input ← forN numSamples (fun i input => do
    let a ← rd data (v.idx chIdx (sampleIdx + i))
    wr input i a) input
  let input ← multiplyInPlace input p.window
  let (rfft, output) ← p.rfft.rfft input output
  let coeffs ← rdSpan output 0 numBins
  let result ← copyInto coeffs s.2 ((chIdx * numFrames + frameIdx) * numBins) numBins
  pure ({ p with rfft := rfft, input := input, output := output }, result)

/-- Call operator, `stft.hpp:56-99`; returns the plan, the number of frames, the number of bins and the rank-3 result. -/
def StftPlanW.call (p : StftPlanW A) (v : MatView) (data : List R) : Res (StftPlanW A × Nat × Nat × List C) := do
  let numBins := p.rfft.size / 2 + 1
  let numFrames ← numStftFrames v.cols p.options.frameSize p.options.overlapSize
  let count := w64 (v.rows * numFrames * numBins)
  if count < 2 ^ 59 then .ok () else .error .exception
  let s ← forN v.rows (fun chIdx s => forN numFrames (fun frameIdx s =>
    stftFrameW v data numFrames numBins chIdx frameIdx s) s) (p, vec count (fun _ => 0))
  pure (s.1, numFrames, numBins, s.2)

/-- Calls of one plan, one after the other; the plan keeps its buffers. `stft.hpp:56-99`. -/
def StftPlanW.run (p : StftPlanW A) : List (MatView × List R) → Res (List (Nat × Nat × List C))
  | [] => pure []
  | (v, data) :: rest => do
    let (p, numFrames, numBins, result) ← p.call v data
    let results ← p.run rest
    pure ((numFrames, numBins, result) :: results)

/-- `stft(x, options)`, `stft.hpp:112-117`. -/
def stftW (A : Arith R C) (v : MatView) (data : List R) (options : StftOptionsW R) : Res (Nat × Nat × List C) := do
  let plan ← StftPlanW.make A options
  let (_, numFrames, numBins, result) ← plan.call v data
  pure (numFrames, numBins, result)

/-- A window of `neo/math/windowing.hpp` as the option `window`, `stft.hpp:36`, `src/neo/math/windowing.hpp:15-57`. -/
noncomputable def windowOptI (f : Spec.Fmt) (cos : Spec.FVal → Spec.FVal) (w : Window) (index size : Nat) : IR f :=
  ⟨windowI f cos w index size⟩

end Neo
