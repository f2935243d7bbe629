import Verif.Model.Upc

/-!
# Model: short-time Fourier transform and `uniform_partition`

`neo/fft/stft.hpp`, `neo/math/idiv.hpp`, `neo/math/windowing.hpp`,
`neo/convolution/uniform_partition.hpp`.  `std::size_t` arithmetic is modulo 2⁶⁴.
-/

namespace Neo

/-- Wrap-around of `std::size_t`. `src/neo/fft/stft.hpp:22-25,80-81`. -/
def w64 (n : Nat) : Nat := n % 2 ^ 64

/-- `a - b` on `std::size_t`. `src/neo/fft/stft.hpp:24,80-81`. -/
def wsub (a b : Nat) : Nat := w64 (w64 a + (2 ^ 64 - w64 b))

/-- `idiv(x, y)` on `std::size_t`, `src/neo/math/idiv.hpp:11-14`. -/
def idivW (x y : Nat) : Res Nat :=
  if w64 y = 0 then .error .divZero else .ok (wsub (w64 (x + y)) 1 / w64 y)

/-- `detail::num_sftf_frames`, `src/neo/fft/stft.hpp:21-25`. -/
def numStftFrames (signalSize frameSize overlapSize : Nat) : Res Nat := do
  let q ← idivW (w64 (wsub signalSize frameSize + overlapSize)) (wsub frameSize overlapSize)
  pure (w64 (q + 1))

/-- `stft_options`, `stft.hpp:30-37`. -/
structure StftOptions where
  frameSize : Nat
  transformSize : Nat
  overlapSize : Nat
  window : Nat → Nat → ℝ

/-- `stft_plan`, `stft.hpp:40-109`. -/
structure StftPlan where
  options : StftOptions
  rfft : RfftPlan
  input : List ℝ
  output : List ℂ
  window : List ℝ

/-- `fill_window(vec, window)`, `src/neo/math/windowing.hpp:60-66`. -/
def fillWindow (v : List ℝ) (window : Nat → Nat → ℝ) : Res (List ℝ) :=
  forN v.length (fun i v => wr v i (window i v.length)) v

/-- Constructor, `stft.hpp:51-54,102-108`. -/
noncomputable def StftPlan.make (options : StftOptions) : Res StftPlan := do
  let rfft ← RfftPlan.make (nextOrder options.transformSize)
  let window ← fillWindow (vec rfft.size (fun _ => 0)) options.window
  pure {
    options := options
    rfft := rfft
    input := vec rfft.size (fun _ => 0)
    output := vec rfft.size (fun _ => 0)
    window := window }

/-- The state of the frame loop. `src/neo/fft/stft.hpp:69-96,104-108`. -/
structure StftState where
  plan : StftPlan
  result : List ℂ

/-- Body of the frame loop, `stft.hpp:79-96`.  `x` is a strided view of `data`; the result is flat
row-major.  Forming a subspan outside its parent is an out-of-bounds fault. -/
noncomputable def stftFrame (v : MatView) (data : List ℝ) (numFrames numBins chIdx frameIdx : Nat)
    (s : StftState) : Res StftState := do
  let p := s.plan
  let sampleIdx := wsub (frameIdx * p.options.frameSize) (frameIdx * p.options.overlapSize)
  let numSamples := min (wsub v.cols sampleIdx) p.options.frameSize
  -- in_block, in_window
  if sampleIdx + numSamples ≤ v.cols ∧ numSamples ≤ p.input.length then .ok () else .error .oob
  let input ← fillVec p.input 0
  let output ← fillVec p.output 0
  -- copy(in_block, in_window)
  let input ← forN numSamples (fun i input => do
    let a ← rd data (v.idx chIdx (sampleIdx + i))
    wr input i a) input
  let input ← multiplyInPlace input p.window
  let (rfft, output) ← p.rfft.rfft input output
  let coeffs ← rdSpan output 0 numBins
  let result ← copyInto coeffs s.result ((chIdx * numFrames + frameIdx) * numBins) numBins
  pure { plan := { p with rfft := rfft, input := input, output := output }, result := result }

/-- Call operator, `stft.hpp:56-99`; returns the number of frames, the number of bins and the
rank-3 result.  The element count is computed modulo 2⁶⁴; an allocation of 2⁵⁹ elements or more
throws. -/
noncomputable def StftPlan.call (p : StftPlan) (v : MatView) (data : List ℝ) :
    Res (StftPlan × Nat × Nat × List ℂ) := do
  let numBins := p.rfft.size / 2 + 1
  let numFrames ← numStftFrames v.cols p.options.frameSize p.options.overlapSize
  let count := w64 (v.rows * numFrames * numBins)
  if count < 2 ^ 59 then .ok () else .error .exception
  let s ← forN v.rows (fun chIdx s => forN numFrames (fun frameIdx s =>
    stftFrame v data numFrames numBins chIdx frameIdx s) s)
    { plan := p, result := vec count (fun _ => 0) }
  pure (s.plan, numFrames, numBins, s.result)

/-- `stft(x, options)`, `stft.hpp:112-117`. -/
noncomputable def stft (v : MatView) (data : List ℝ) (options : StftOptions) :
    Res (Nat × Nat × List ℂ) := do
  let plan ← StftPlan.make options
  let (_, numFrames, numBins, result) ← plan.call v data
  pure (numFrames, numBins, result)

/-- `rectangular_window`, `windowing.hpp:15-25`. -/
def rectangularWindow (_ _ : Nat) : ℝ := 1

/-- `uniform_partition(impulse_response, block_size)`,
`src/neo/convolution/uniform_partition.hpp:13-26`. -/
noncomputable def uniformPartition (v : MatView) (data : List ℝ) (blockSize : Nat) :
    Res (Nat × Nat × List ℂ) :=
  stft v data {
    frameSize := blockSize
    transformSize := w64 (blockSize * 2)
    overlapSize := 0
    window := rectangularWindow }

/-- `submdspan(partition, channel, full_extent, full_extent)`: the filter matrix of a channel.
`extra/cli/src/convolver.cpp:40`. -/
def partitionView (numFrames numBins channel : Nat) : MatView where
  rows := numFrames
  cols := numBins
  off := channel * numFrames * numBins
  s0 := numBins
  s1 := 1

end Neo
