import Verif.Model.Cola
import Verif.Model.Render
import Verif.Model.IntT

/-!
# Model: the plugin's streaming convolution (`extra/plugin/src/dsp/DenseConvolution.cpp`)

A sample is the tuple of the channels' samples at one time, here a function of the channel number of
which only the values below `numChannels` are meaningful.  Reading the impulse file and `resample` are
outside the model: `filter` is the resampled impulse response.
-/

namespace Neo

/-- `updateImpulseResponse` with an impulse response, `extra/plugin/src/dsp/DenseConvolution.cpp:78-93`, for a freshly constructed object:
`resize` default-constructs the convolvers. -/
noncomputable def denseUpdate {S : Type} (ops : ConvOps S) (channels impChannels impSize : ℕ)
    (filter : List (List ℝ)) (blockSize : ℕ) : Res (List S) := do
  let fresh ← ops.make
  let matrix ← toMdarray impChannels impSize filter
  let matrix ← normalizeImpulseMat false (MatView.right impChannels impSize) matrix
  let (frames, bins, part) ← uniformPartition (MatView.right impChannels impSize) matrix blockSize
  forN channels (fun ch convs => do
    if impChannels ≤ ch then .error .oob else .ok ()
    let conv ← rd convs ch
    let conv ← ops.load conv (partitionView frames bins ch) part
    wr convs ch conv) (List.replicate channels fresh)

/-- `processFrame`, `extra/plugin/src/dsp/DenseConvolution.cpp:62-74`: every channel of the frame goes through its own convolver in place. -/
def denseFrame {S : Type} (ops : ConvOps S) (channels : ℕ) (convs : List S) (frame : List (ℕ → ℝ)) :
    Res (List S × List (ℕ → ℝ)) :=
  forN channels (fun ch p => do
    let conv ← rd p.1 ch
    let (conv, io) ← ops.call conv (p.2.map (fun s => s ch))
    let convs ← wr p.1 ch conv
    pure (convs, List.zipWith (fun s y => Function.update s ch y) p.2 io)) (convs, frame)

/-- `DenseConvolution{blockSize}`, `loadImpulseResponse`, `prepare({…, blockSize, channels})` as called
from `extra/plugin/src/PerceptualConvolution.cpp:19-21`; constructor lines 23-25, `prepareFrame` lines
54-59.  `g₁ g₂ g₃` are the unspecified samples of freshly sized buffers, `fb` selects the variant of
`bit_ceil`/`bit_log2`. -/
noncomputable def densePrepare {S : Type} (fb : Bool) (ops : ConvOps S) (channels impChannels impSize : ℕ)
    (filter : List (List ℝ)) (blockSize : ℕ) (g₁ g₂ g₃ : ℕ → ℕ → ℝ) :
    Res (Cola (List S) ℝ (ℕ → ℝ)) := do
  let order ← nextOrderT fb i32 blockSize
  let s ← Cola.make order.toNat 0 ([] : List S)
  let s ← s.prepare g₁ g₂ g₃ blockSize
  let convs ← denseUpdate ops channels impChannels impSize filter s.frameSize
  pure { s with proc := convs }

/-- `generate_identity_impulse`, `src/neo/testing/testing.hpp:74-82`: the elements of a new `mdarray` are
zero, row 0 is filled with ones. -/
def generateIdentityImpulse (blockSize numSubfilter : ℕ) : Res (List ℂ) := do
  let numBins := blockSize + 1
  let impulse : List ℂ := List.replicate (numSubfilter * numBins) 0
  let row ← rdSpan impulse 0 numBins
  let row ← fillVec row 1
  wrSpan impulse 0 row

/-- `updateImpulseResponse` without an impulse response, `extra/plugin/src/dsp/DenseConvolution.cpp:94-108`, for a freshly constructed object. -/
def denseUpdateNone {S : Type} (ops : ConvOps S) (channels blockSize : ℕ) : Res (List S) := do
  let identity ← generateIdentityImpulse blockSize 2
  let fresh ← ops.make
  let r ← forN channels (fun ch (p : List ℂ × List S) => do
    let filter ← copyMat (MatView.right 2 (blockSize + 1)) identity (partitionView 2 (blockSize + 1) ch) p.1
    let conv ← rd p.2 ch
    let conv ← ops.load conv (partitionView 2 (blockSize + 1) ch) filter
    let convs ← wr p.2 ch conv
    pure (filter, convs)) (List.replicate (channels * 2 * (blockSize + 1)) 0, List.replicate channels fresh)
  pure r.2

/-- `DenseConvolution{blockSize}` and `prepare` without `loadImpulseResponse`; compare `densePrepare`.
`extra/plugin/src/dsp/DenseConvolution.cpp:23-25,55-60`. -/
noncomputable def densePrepareNone {S : Type} (fb : Bool) (ops : ConvOps S) (channels blockSize : ℕ)
    (g₁ g₂ g₃ : ℕ → ℕ → ℝ) : Res (Cola (List S) ℝ (ℕ → ℝ)) := do
  let order ← nextOrderT fb i32 blockSize
  let s ← Cola.make order.toNat 0 ([] : List S)
  let s ← s.prepare g₁ g₂ g₃ blockSize
  let convs ← denseUpdateNone ops channels s.frameSize
  pure { s with proc := convs }

end Neo
