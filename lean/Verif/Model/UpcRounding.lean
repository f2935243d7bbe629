import Verif.Model.ConvRounding
import Verif.Model.Stft

/-!
# Model: uniformly partitioned convolution in rounded arithmetic

`overlap_add`, `overlap_save`, `stft_plan` and `uniform_partition` as in `Verif.Model.Overlap` and
`Verif.Model.Stft`, for the number types `FR F` and `FC F`.  The convolver itself, its delay line and its filter are
the definitions of `Verif.Model.Upc`, which do not depend on the number type.
-/

namespace Neo

/-- `overlap_add`, `src/neo/convolution/overlap_add.hpp:22-51`, over the format `F`. -/
structure OverlapAddF (F : Rounding) where
  blockSize : Nat
  filterSize : Nat
  rfft : RfftPlanF F
  window : List (FR F)
  spectrum : List (FC F)
  overlap : List (FR F)

/-- Constructor, `overlap_add.hpp:53-57`. -/
noncomputable def OverlapAddF.make (F : Rounding) (blockSize filterSize : Nat) : Res (OverlapAddF F) := do
  if blockSize + filterSize = 0 then .error .exception else .ok ()
  let rfft ← RfftPlanF.make F (nextOrder (outputSizeFull blockSize filterSize))
  pure {
    blockSize := blockSize
    filterSize := filterSize
    rfft := rfft
    window := vec rfft.size (fun _ => 0)
    spectrum := vec (rfft.size / 2 + 1) (fun _ => 0)
    overlap := vec blockSize (fun _ => 0) }

/-- Call operator, `overlap_add.hpp:77-107`.  `signal` and `padding` are views of the window. -/
noncomputable def OverlapAddF.call {F : Rounding} {σ : Type} (o : OverlapAddF F) (block : List (FR F))
    (cb : Callback σ (FC F)) (s : σ) : Res (OverlapAddF F × List (FR F) × σ) := do
  check (block.length = o.blockSize)
  let bs := o.blockSize
  let window := o.window
  let _ ← rdSpan window 0 bs
  let padding ← rdSpan window bs (bs * 2)
  -- copy and zero-pad input
  let window ← copyInto block window 0 bs
  let padding ← fillVec padding 0
  let window ← wrSpan window bs padding
  -- K-point rfft
  let (plan, spectrum) ← o.rfft.rfft window o.spectrum
  -- convolve
  let (spectrum, s) ← cb spectrum s
  -- K-point irfft
  let (plan, window) ← plan.irfft spectrum window
  let window ← scaleVec (invSizeF F plan.size) window
  -- copy to output
  let signal ← rdSpan window 0 bs
  let block ← addVec signal o.overlap block
  -- save overlap for next iteration
  let padding ← rdSpan window bs (bs * 2)
  let overlap ← copyVec padding o.overlap
  pure ({ o with rfft := plan, window := window, spectrum := spectrum, overlap := overlap },
    block, s)

/-- `overlap_save`, `src/neo/convolution/overlap_save.hpp:20-58`, over the format `F`. -/
structure OverlapSaveF (F : Rounding) where
  blockSize : Nat
  filterSize : Nat
  plan : RfftPlanF F
  window : List (FR F)
  realBuffer : List (FR F)
  complexBuffer : List (FC F)

/-- Constructor, `overlap_save.hpp:60-64`. -/
noncomputable def OverlapSaveF.make (F : Rounding) (blockSize filterSize : Nat) : Res (OverlapSaveF F) := do
  if blockSize + filterSize = 0 then .error .exception else .ok ()
  let plan ← RfftPlanF.make F (nextOrder (blockSize + filterSize - 1))
  pure {
    blockSize := blockSize
    filterSize := filterSize
    plan := plan
    window := vec plan.size (fun _ => 0)
    realBuffer := vec plan.size (fun _ => 0)
    complexBuffer := vec plan.size (fun _ => 0) }

/-- Call operator, `overlap_save.hpp:84-112`. -/
noncomputable def OverlapSaveF.call {F : Rounding} {σ : Type} (o : OverlapSaveF F) (block : List (FR F))
    (cb : Callback σ (FC F)) (s : σ) : Res (OverlapSaveF F × List (FR F) × σ) := do
  check (block.length = o.blockSize)
  let bs := o.blockSize
  let K := o.plan.size
  let lo ← subIdx K bs
  let _ ← rdSpan o.window lo K
  let window ← slideWindowLeft bs o.window
  let window ← copyInto block window lo (K - lo)
  -- 2B-point R2C-FFT
  let (plan, complexBuf) ← o.plan.rfft window o.complexBuffer
  -- apply processing to the first K/2+1 coefficients
  let coeffs ← rdSpan complexBuf 0 (K / 2 + 1)
  let (coeffs, s) ← cb coeffs s
  let complexBuf ← wrSpan complexBuf 0 coeffs
  -- 2B-point C2R-IFFT
  let (plan, realBuf) ← plan.irfft complexBuf o.realBuffer
  let realBuf ← scaleVec (invSizeF F plan.size) realBuf
  -- copy block_size samples to output
  let keep ← rdSpan realBuf lo K
  let block ← copyVec keep block
  pure ({ o with plan := plan, window := window, realBuffer := realBuf,
                 complexBuffer := complexBuf }, block, s)

/-- `overlap_add` as a template argument.
`src/neo/convolution/dense_convolver.hpp:24`; `src/neo/convolution/overlap_add.hpp:24-107`. -/
noncomputable def olaOpsF (F : Rounding) : OverlapOps (OverlapAddF F) (FR F) (FC F) where
  make := OverlapAddF.make F
  call := fun o block cb s => o.call block cb s

/-- `overlap_save` as a template argument.
`src/neo/convolution/dense_convolver.hpp:20`; `src/neo/convolution/overlap_save.hpp:21-112`. -/
noncomputable def olsOpsF (F : Rounding) : OverlapOps (OverlapSaveF F) (FR F) (FC F) where
  make := OverlapSaveF.make F
  call := fun o block cb s => o.call block cb s

/-- `upola_convolver`, `src/neo/convolution/dense_convolver.hpp:24`, over the format `F`. -/
noncomputable def upolaRunF {F : Rounding} (v : MatView) (data : List (FC F)) (blocks : List (List (FR F))) :
    Res (List (List (FR F))) :=
  Upc.run (olaOpsF F) denseFdlOps denseFilterOps { rows := 0, cols := 0, data := [] } v data () blocks

/-- `upols_convolver`, `dense_convolver.hpp:20`, over the format `F`. -/
noncomputable def upolsRunF {F : Rounding} (v : MatView) (data : List (FC F)) (blocks : List (List (FR F))) :
    Res (List (List (FR F))) :=
  Upc.run (olsOpsF F) denseFdlOps denseFilterOps { rows := 0, cols := 0, data := [] } v data () blocks

/-! ## `uniform_partition` -/

/-- `stft_plan`, `src/neo/fft/stft.hpp:40-109`, over the format `F`, for the options of `uniform_partition`
(frame size `blockSize`, transform size `2 * blockSize`, no overlap). -/
structure StftPlanF (F : Rounding) where
  frameSize : Nat
  rfft : RfftPlanF F
  input : List (FR F)
  output : List (FC F)
  window : List (FR F)

/-- Constructor, `stft.hpp:51-54,102-108`, with the rectangular window, `src/neo/math/windowing.hpp:15-25,60-66`. -/
noncomputable def StftPlanF.make (F : Rounding) (frameSize transformSize : Nat) : Res (StftPlanF F) := do
  let rfft ← RfftPlanF.make F (nextOrder transformSize)
  let window ← forN rfft.size (fun i v => wr v i (⟨1⟩ : FR F)) (vec rfft.size (fun _ => 0))
  pure {
    frameSize := frameSize
    rfft := rfft
    input := vec rfft.size (fun _ => 0)
    output := vec rfft.size (fun _ => 0)
    window := window }

/-- Body of the frame loop, `stft.hpp:79-96`. -/
noncomputable def stftFrameF {F : Rounding} (v : MatView) (data : List (FR F)) (numFrames numBins chIdx frameIdx : Nat)
    (s : StftPlanF F × List (FC F)) : Res (StftPlanF F × List (FC F)) := do
  let p := s.1
  let sampleIdx := wsub (frameIdx * p.frameSize) (frameIdx * 0)
  let numSamples := min (wsub v.cols sampleIdx) p.frameSize
  if sampleIdx + numSamples ≤ v.cols ∧ numSamples ≤ p.input.length then .ok () else .error .oob
  let input ← fillVec p.input 0
  let output ← fillVec p.output 0
  let input ← forN numSamples (fun i input => do
    let a ← rd data (v.idx chIdx (sampleIdx + i))
    wr input i a) input
  let input ← multiplyInPlace input p.window
  let (rfft, output) ← p.rfft.rfft input output
  let coeffs ← rdSpan output 0 numBins
  let result ← copyInto coeffs s.2 ((chIdx * numFrames + frameIdx) * numBins) numBins
  pure ({ p with rfft := rfft, input := input, output := output }, result)

/-- Call operator, `stft.hpp:56-99`. -/
noncomputable def StftPlanF.call {F : Rounding} (p : StftPlanF F) (v : MatView) (data : List (FR F)) :
    Res (StftPlanF F × Nat × Nat × List (FC F)) := do
  let numBins := p.rfft.size / 2 + 1
  let numFrames ← numStftFrames v.cols p.frameSize 0
  let count := w64 (v.rows * numFrames * numBins)
  if count < 2 ^ 59 then .ok () else .error .exception
  let s ← forN v.rows (fun chIdx s => forN numFrames (fun frameIdx s =>
    stftFrameF v data numFrames numBins chIdx frameIdx s) s) (p, vec count (fun _ => 0))
  pure (s.1, numFrames, numBins, s.2)

/-- `uniform_partition(impulse_response, block_size)`, `src/neo/convolution/uniform_partition.hpp:13-26`, and
`stft(x, options)`, `stft.hpp:112-117`, over the format `F`. -/
noncomputable def uniformPartitionF {F : Rounding} (v : MatView) (data : List (FR F)) (blockSize : Nat) :
    Res (Nat × Nat × List (FC F)) := do
  let plan ← StftPlanF.make F blockSize (w64 (blockSize * 2))
  let (_, numFrames, numBins, result) ← plan.call v data
  pure (numFrames, numBins, result)

end Neo
