import Verif.Model.AnyArith

/-!
# Model: `fft_convolver` and `fft_convolve` over any arithmetic

The code of `Verif.Model.Conv` for arbitrary number types.  `direct_convolve` is generic there already.
-/

namespace Neo

variable {R C : Type} [Zero R] [Add R] [Mul R] [Zero C] [Add C] [Sub C] [Mul C] {A : Arith R C}

/-- `fft_convolver`, `src/neo/convolution/fft_convolver.hpp:20-77`, over any arithmetic. -/
structure FftConvolverG (A : Arith R C) where
  signalSize : Nat
  patchSize : Nat
  plan : RfftPlanG A
  tmp : List R
  signalSpectrum : List C
  patchSpectrum : List C

/-- Constructor of `fft_convolver`, `fft_convolver.hpp:22-26,70-77`: the members are initialised, then both sizes are
asserted to exceed 1. -/
def FftConvolverG.make (A : Arith R C) (signalSize patchSize : Nat) : Res (FftConvolverG A) := do
  if signalSize + patchSize = 0 then .error .exception else .ok ()
  let plan ← RfftPlanG.make A (nextOrder (outputSizeFull signalSize patchSize))
  check (signalSize > 1)
  check (patchSize > 1)
  pure {
    signalSize := signalSize
    patchSize := patchSize
    plan := plan
    tmp := vec plan.size (fun _ => 0)
    signalSpectrum := vec (plan.size / 2 + 1) (fun _ => 0)
    patchSpectrum := vec (plan.size / 2 + 1) (fun _ => 0) }

/-- `zero_pad_and_transform_forward`, `fft_convolver.hpp:54-60`; returns plan, `_tmp` and the spectrum. -/
def zeroPadForwardG (plan : RfftPlanG A) (tmp : List R) (input : List R) (out : List C) :
    Res (RfftPlanG A × List R × List C) := do
  let tmp ← copyInto input tmp 0 input.length
  let pad ← rdSpan tmp input.length tmp.length
  let pad ← fillVec pad 0
  let tmp ← wrSpan tmp input.length pad
  let (plan, out) ← plan.rfft tmp out
  pure (plan, tmp, out)

/-- `transform_backward`, `fft_convolver.hpp:62-68`. -/
def transformBackwardG (plan : RfftPlanG A) (tmp : List R) (input : List C) (outSize : Nat) (out : List R) :
    Res (RfftPlanG A × List R × List R) := do
  let (plan, tmp) ← plan.irfft input tmp
  let tmp ← scaleVec (A.invSize plan.size) tmp
  let src ← rdSpan tmp 0 outSize
  let out ← copyVec src out
  pure (plan, tmp, out)

/-- Call operator of `fft_convolver`, `fft_convolver.hpp:37-51`. -/
def FftConvolverG.call (c : FftConvolverG A) (signal patch output : List R) : Res (FftConvolverG A × List R) := do
  check (signal.length = c.signalSize)
  check (patch.length = c.patchSize)
  check (output.length = outputSizeFull c.signalSize c.patchSize)
  let (plan, tmp, ss) ← zeroPadForwardG c.plan c.tmp signal c.signalSpectrum
  let (plan, tmp, ps) ← zeroPadForwardG plan tmp patch c.patchSpectrum
  let ss ← multiplyInPlace ss ps
  let (plan, tmp, output) ← transformBackwardG plan tmp ss (outputSizeFull c.signalSize c.patchSize) output
  pure ({ c with plan := plan, tmp := tmp, signalSpectrum := ss, patchSpectrum := ps }, output)

/-- `fft_convolve(signal, patch)`, `fft_convolver.hpp:79-93`. -/
def fftConvolveG (A : Arith R C) (signal patch : List R) : Res (List R) :=
  if signal.length = 0 ∨ patch.length = 0 then .ok []
  else do
    let c ← FftConvolverG.make A signal.length patch.length
    let (_, out) ← c.call signal patch (vec (outputSizeFull signal.length patch.length) (fun _ => 0))
    pure out

/-- Repeated calls of one `fft_convolver`, `fft_convolver.hpp:37-51`, each with its own output buffer: the outputs. -/
def FftConvolverG.run (c : FftConvolverG A) : List (List R × List R × List R) → Res (List (List R))
  | [] => pure []
  | (signal, patch, output) :: calls => do
    let (c, out) ← c.call signal patch output
    let outs ← c.run calls
    pure (out :: outs)

end Neo
