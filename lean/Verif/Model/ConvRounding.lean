import Verif.Model.RoundingReal
import Verif.Model.Conv

/-!
# Model: real transforms and `fft_convolver` in rounded arithmetic

The same code as in `Verif.Model.Rfft` and `Verif.Model.Conv`, for the number types `FR F`, `FC F` instead of `ℝ`, `ℂ`.
Conversions between real and complex, conjugation and copies are exact.
-/

namespace Neo

namespace FC
variable {F : Rounding}

/-- `Complex(x)` of a real sample. `src/neo/fft/fallback/fallback_rfft_plan.hpp:33`. -/
def ofReal (x : FR F) : FC F := ⟨x.val, 0⟩

/-- `math::conj`, `src/neo/math/conj.hpp:23-41`. -/
def conj (z : FC F) : FC F := ⟨z.re, -z.im⟩

/-- `z.real()`. `src/neo/fft/fallback/fallback_rfft_plan.hpp:53`. -/
def realPart (z : FC F) : FR F := ⟨z.re⟩

end FC

/-- `neo::copy(in, out)` from a real to a complex vector, `src/neo/algorithm/copy.hpp:18-27`. -/
def copyRealToComplexF {F : Rounding} (input : List (FR F)) (output : List (FC F)) : Res (List (FC F)) := do
  check (input.length = output.length)
  forN input.length (fun i out => do
    let v ← rd input i
    wr out i (FC.ofReal v)) output

/-- `fallback_rfft_plan`, `src/neo/fft/fallback/fallback_rfft_plan.hpp:14-61`, over the format `F`. -/
structure RfftPlanF (F : Rounding) where
  order : Nat
  fft : Dit2Plan (FC F)
  buffer : List (FC F)

/-- `fallback_rfft_plan::size()`, `fallback_rfft_plan.hpp:25`. -/
def RfftPlanF.size {F : Rounding} (p : RfftPlanF F) : Nat := fftSize p.order

/-- Constructor, `fallback_rfft_plan.hpp:21,57-60`. -/
noncomputable def RfftPlanF.make (F : Rounding) (order : Nat) : Res (RfftPlanF F) := do
  let fft ← Dit2Plan.makeF F order
  pure { order := order, fft := fft, buffer := vec (fftSize order) (fun _ => 0) }

/-- Forward call operator, `fallback_rfft_plan.hpp:27-36`. -/
noncomputable def RfftPlanF.rfft {F : Rounding} (p : RfftPlanF F) (input : List (FR F)) (out : List (FC F)) :
    Res (RfftPlanF F × List (FC F)) := do
  let coeffs := p.size / 2 + 1
  let buf ← copyRealToComplexF input p.buffer
  let buf ← p.fft.call buf .forward
  let src ← rdSpan buf 0 coeffs
  let out ← copyInto src out 0 coeffs
  pure ({ p with buffer := buf }, out)

/-- Backward call operator, `fallback_rfft_plan.hpp:38-55`. -/
noncomputable def RfftPlanF.irfft {F : Rounding} (p : RfftPlanF F) (input : List (FC F)) (out : List (FR F)) :
    Res (RfftPlanF F × List (FR F)) := do
  let coeffs := p.size / 2 + 1
  let buf ← copyInto input p.buffer 0 input.length
  let buf ← forR coeffs p.size (fun i buf => do
    let v ← rd buf (p.size - i)
    wr buf i (FC.conj v)) buf
  let buf ← p.fft.call buf .backward
  let out ← forN p.size (fun i out => do
    let v ← rd buf i
    wr out i (FC.realPart v)) out
  pure ({ p with buffer := buf }, out)

/-- `Float(1) / Float(plan.size())`: the conversion and the division are rounded.
`src/neo/convolution/fft_convolver.hpp:66`. -/
noncomputable def invSizeF (F : Rounding) (size : Nat) : FR F := ⟨F.rnd (1 / F.rnd size)⟩

/-- `fft_convolver`, `src/neo/convolution/fft_convolver.hpp:20-77`, over the format `F`. -/
structure FftConvolverF (F : Rounding) where
  signalSize : Nat
  patchSize : Nat
  plan : RfftPlanF F
  tmp : List (FR F)
  signalSpectrum : List (FC F)
  patchSpectrum : List (FC F)

/-- Constructor of `fft_convolver`, `fft_convolver.hpp:22-26,70-77`. -/
noncomputable def FftConvolverF.make (F : Rounding) (signalSize patchSize : Nat) : Res (FftConvolverF F) := do
  if signalSize + patchSize = 0 then .error .exception else .ok ()
  let plan ← RfftPlanF.make F (nextOrder (outputSizeFull signalSize patchSize))
  check (signalSize > 1)
  check (patchSize > 1)
  pure {
    signalSize := signalSize
    patchSize := patchSize
    plan := plan
    tmp := vec plan.size (fun _ => 0)
    signalSpectrum := vec (plan.size / 2 + 1) (fun _ => 0)
    patchSpectrum := vec (plan.size / 2 + 1) (fun _ => 0) }

/-- `zero_pad_and_transform_forward`, `fft_convolver.hpp:54-60`. -/
noncomputable def zeroPadForwardF {F : Rounding} (plan : RfftPlanF F) (tmp : List (FR F)) (input : List (FR F))
    (out : List (FC F)) : Res (RfftPlanF F × List (FR F) × List (FC F)) := do
  let tmp ← copyInto input tmp 0 input.length
  let pad ← rdSpan tmp input.length tmp.length
  let pad ← fillVec pad 0
  let tmp ← wrSpan tmp input.length pad
  let (plan, out) ← plan.rfft tmp out
  pure (plan, tmp, out)

/-- `transform_backward`, `fft_convolver.hpp:62-68`. -/
noncomputable def transformBackwardF {F : Rounding} (plan : RfftPlanF F) (tmp : List (FR F)) (input : List (FC F))
    (outSize : Nat) (out : List (FR F)) : Res (RfftPlanF F × List (FR F) × List (FR F)) := do
  let (plan, tmp) ← plan.irfft input tmp
  let tmp ← scaleVec (invSizeF F plan.size) tmp
  let src ← rdSpan tmp 0 outSize
  let out ← copyVec src out
  pure (plan, tmp, out)

/-- Call operator of `fft_convolver`, `fft_convolver.hpp:37-51`. -/
noncomputable def FftConvolverF.call {F : Rounding} (c : FftConvolverF F) (signal patch output : List (FR F)) :
    Res (FftConvolverF F × List (FR F)) := do
  check (signal.length = c.signalSize)
  check (patch.length = c.patchSize)
  check (output.length = outputSizeFull c.signalSize c.patchSize)
  let (plan, tmp, ss) ← zeroPadForwardF c.plan c.tmp signal c.signalSpectrum
  let (plan, tmp, ps) ← zeroPadForwardF plan tmp patch c.patchSpectrum
  let ss ← multiplyInPlace ss ps
  let (plan, tmp, output) ← transformBackwardF plan tmp ss
    (outputSizeFull c.signalSize c.patchSize) output
  pure ({ c with plan := plan, tmp := tmp, signalSpectrum := ss, patchSpectrum := ps }, output)

/-- `fft_convolve(signal, patch)`, `fft_convolver.hpp:79-93`. -/
noncomputable def fftConvolveF {F : Rounding} (signal patch : List (FR F)) : Res (List (FR F)) :=
  if signal.length = 0 ∨ patch.length = 0 then .ok []
  else do
    let c ← FftConvolverF.make F signal.length patch.length
    let (_, out) ← c.call signal patch
      (vec (outputSizeFull signal.length patch.length) (fun _ => 0))
    pure out

end Neo
