import Verif.Model.AnyArith
import Verif.Model.Stft

/-! # Model: `uniform_partition` over any arithmetic -/

namespace Neo

variable {R C : Type} [Zero R] [Add R] [Mul R] [Zero C] [Add C] [Sub C] [Mul C] {A : Arith R C}

/-! ## `uniform_partition` -/

/-- `stft_plan`, `src/neo/fft/stft.hpp:40-109`, over any arithmetic, for the options of `uniform_partition`
(frame size `blockSize`, transform size `2 * blockSize`, no overlap). -/
structure StftPlanG (A : Arith R C) where
  frameSize : Nat
  rfft : RfftPlanG A
  input : List R
  output : List C
  window : List R

/-- Constructor, `stft.hpp:51-54,102-108`, with the rectangular window, `src/neo/math/windowing.hpp:15-25,60-66`;
`one` is `Float(1)`. -/
def StftPlanG.make (A : Arith R C) (one : R) (frameSize transformSize : Nat) : Res (StftPlanG A) := do
  let rfft ← RfftPlanG.make A (nextOrder transformSize)
  let window ← forN rfft.size (fun i v => wr v i one) (vec rfft.size (fun _ => 0))
  pure {
    frameSize := frameSize
    rfft := rfft
    input := vec rfft.size (fun _ => 0)
    output := vec rfft.size (fun _ => 0)
    window := window }

/-- Body of the frame loop, `stft.hpp:79-96`. -/
def stftFrameG (v : MatView) (data : List R) (numFrames numBins chIdx frameIdx : Nat)
    (s : StftPlanG A × List C) : Res (StftPlanG A × List C) := do
  let p := s.1
  let sampleIdx := wsub (frameIdx * p.frameSize) (frameIdx * 0)
  let numSamples := min (wsub v.cols sampleIdx) p.frameSize
  if sampleIdx + numSamples ≤ v.cols ∧ numSamples ≤ p.input.length then .ok () else .error .oob
  let input ← fillVec p.input 0
  let output ← fillVec p.output 0
  let input ← forN numSamples (fun i input => do
    let a ← rd data (v.idx chIdx (sampleIdx + i))
    wr input i a) input
  let input ← multiplyInPlace input p.window
  let (rfft, output) ← p.rfft.rfft input output
  let coeffs ← rdSpan output 0 numBins
  let result ← copyInto coeffs s.2 ((chIdx * numFrames + frameIdx) * numBins) numBins
  pure ({ p with rfft := rfft, input := input, output := output }, result)

/-- Call operator, `stft.hpp:56-99`. -/
def StftPlanG.call (p : StftPlanG A) (v : MatView) (data : List R) :
    Res (StftPlanG A × Nat × Nat × List C) := do
  let numBins := p.rfft.size / 2 + 1
  let numFrames ← numStftFrames v.cols p.frameSize 0
  let count := w64 (v.rows * numFrames * numBins)
  if count < 2 ^ 59 then .ok () else .error .exception
  let s ← forN v.rows (fun chIdx s => forN numFrames (fun frameIdx s =>
    stftFrameG v data numFrames numBins chIdx frameIdx s) s) (p, vec count (fun _ => 0))
  pure (s.1, numFrames, numBins, s.2)

/-- `uniform_partition(impulse_response, block_size)`, `src/neo/convolution/uniform_partition.hpp:13-26`, and
`stft(x, options)`, `stft.hpp:112-117`, over any arithmetic. -/
def uniformPartitionG (A : Arith R C) (one : R) (v : MatView) (data : List R) (blockSize : Nat) :
    Res (Nat × Nat × List C) := do
  let plan ← StftPlanG.make A one blockSize (w64 (blockSize * 2))
  let (_, numFrames, numBins, result) ← plan.call v data
  pure (numFrames, numBins, result)

end Neo
