import Verif.Model.Rfft

/-!
# Model: one-shot convolution (`direct_convolve.hpp`, `fft_convolver.hpp`, `mode.hpp`)
-/

namespace Neo

/-- `output_size<mode::full>`, `src/neo/convolution/mode.hpp:21-29`.  For two empty inputs the C++
value wraps around to the largest integer; here it is 0 (callers treat this case separately). -/
def outputSizeFull (signal patch : Nat) : Nat := signal + patch - 1

/-- The unsigned difference `k - m` used as an index: a wrapped difference is outside every buffer.
`src/neo/convolution/direct_convolve.hpp:28,37,47,56`. -/
def subIdx (k m : Nat) : Res Nat := if m ≤ k then .ok (k - m) else .error .oob

/-- Inner loop of `direct_convolve`: `for (m = lo; m < hi; m++) output[k] += a[m] * b[k - m]`,
`src/neo/convolution/direct_convolve.hpp:27-29,36-38,46-48,55-57`. -/
def directInner {R : Type} [Mul R] [Add R] (a b : List R) (k lo hi : Nat) (out : List R) :
    Res (List R) :=
  forR lo hi (fun m out => do
    let o ← rd out k
    let s ← rd a m
    let j ← subIdx k m
    let p ← rd b j
    wr out k (o + s * p)) out

/-- The two loops of `direct_convolve` for the longer input `a` (size `n`) and the shorter `b`
(size `l`), `direct_convolve.hpp:24-39` and `43-58`.  The second loop carries `(output, i)`. -/
def directLoops {R : Type} [Mul R] [Add R] [Zero R] (a b : List R) (n l mm : Nat) (out : List R) :
    Res (List R) := do
  let out ← forN l (fun k out => do
    let out ← wr out k 0
    directInner a b k 0 (k + 1) out) out
  let r ← forR l mm (fun k (s : List R × Nat) => do
    let out ← wr s.1 k 0
    let i := s.2 + 1
    let t1 := l + i
    let tmin := min t1 n
    let out ← directInner a b k i tmin out
    pure (out, i)) (out, 0)
  pure r.1

/-- `direct_convolve(signal, patch, output)`, `direct_convolve.hpp:16-59`. -/
def directConvolveInto {R : Type} [Mul R] [Add R] [Zero R] (signal patch output : List R) :
    Res (List R) := do
  let n := signal.length
  let l := patch.length
  let mm := outputSizeFull n l
  check (output.length = mm)
  if n ≥ l then directLoops signal patch n l mm output
  else directLoops patch signal l n mm output

/-- `direct_convolve(signal, patch)`, `direct_convolve.hpp:64-72`; with two empty inputs the size
wraps and the allocation throws. -/
def directConvolve {R : Type} [Mul R] [Add R] [Zero R] (signal patch : List R) : Res (List R) :=
  if signal.length + patch.length = 0 then .error .exception
  else directConvolveInto signal patch
    (vec (outputSizeFull signal.length patch.length) (fun _ => 0))

/-- `fft_convolver`, `src/neo/convolution/fft_convolver.hpp:20-77`. -/
structure FftConvolver where
  signalSize : Nat
  patchSize : Nat
  plan : RfftPlan
  tmp : List ℝ
  signalSpectrum : List ℂ
  patchSpectrum : List ℂ

/-- Member initialisation of `fft_convolver`, `fft_convolver.hpp:70-77` (without the assertions of
the constructor body). -/
noncomputable def FftConvolver.init (signalSize patchSize : Nat) : Res FftConvolver := do
  if signalSize + patchSize = 0 then .error .exception else .ok ()
  let plan ← RfftPlan.make (nextOrder (outputSizeFull signalSize patchSize))
  pure {
    signalSize := signalSize
    patchSize := patchSize
    plan := plan
    tmp := vec plan.size (fun _ => 0)
    signalSpectrum := vec (plan.size / 2 + 1) (fun _ => 0)
    patchSpectrum := vec (plan.size / 2 + 1) (fun _ => 0) }

/-- Constructor of `fft_convolver`, `fft_convolver.hpp:22-26`: asserts that both sizes exceed 1
(after member initialisation). -/
noncomputable def FftConvolver.make (signalSize patchSize : Nat) : Res FftConvolver := do
  let c ← FftConvolver.init signalSize patchSize
  check (signalSize > 1)
  check (patchSize > 1)
  pure c

/-- `zero_pad_and_transform_forward`, `fft_convolver.hpp:54-60`; returns plan, `_tmp` and the
spectrum. -/
noncomputable def zeroPadForward (plan : RfftPlan) (tmp : List ℝ) (input : List ℝ) (out : List ℂ) :
    Res (RfftPlan × List ℝ × List ℂ) := do
  let tmp ← copyInto input tmp 0 input.length
  let pad ← rdSpan tmp input.length tmp.length
  let pad ← fillVec pad 0
  let tmp ← wrSpan tmp input.length pad
  let (plan, out) ← plan.rfft tmp out
  pure (plan, tmp, out)

/-- `transform_backward`, `fft_convolver.hpp:62-68`. -/
noncomputable def transformBackward (plan : RfftPlan) (tmp : List ℝ) (input : List ℂ)
    (outSize : Nat) (out : List ℝ) : Res (RfftPlan × List ℝ × List ℝ) := do
  let (plan, tmp) ← plan.irfft input tmp
  let tmp ← scaleVec (1 / (plan.size : ℝ)) tmp
  let src ← rdSpan tmp 0 outSize
  let out ← copyVec src out
  pure (plan, tmp, out)

/-- Call operator of `fft_convolver`, `fft_convolver.hpp:37-51`. -/
noncomputable def FftConvolver.call (c : FftConvolver) (signal patch output : List ℝ) :
    Res (FftConvolver × List ℝ) := do
  check (signal.length = c.signalSize)
  check (patch.length = c.patchSize)
  check (output.length = outputSizeFull c.signalSize c.patchSize)
  let (plan, tmp, ss) ← zeroPadForward c.plan c.tmp signal c.signalSpectrum
  let (plan, tmp, ps) ← zeroPadForward plan tmp patch c.patchSpectrum
  let ss ← multiplyInPlace ss ps
  let (plan, tmp, output) ← transformBackward plan tmp ss
    (outputSizeFull c.signalSize c.patchSize) output
  pure ({ c with plan := plan, tmp := tmp, signalSpectrum := ss, patchSpectrum := ps }, output)

/-- `fft_convolve(signal, patch)`, `fft_convolver.hpp:79-93`. -/
noncomputable def fftConvolve (signal patch : List ℝ) : Res (List ℝ) :=
  if signal.length = 0 ∨ patch.length = 0 then .ok []
  else do
    let c ← FftConvolver.make signal.length patch.length
    let (_, out) ← c.call signal patch
      (vec (outputSizeFull signal.length patch.length) (fun _ => 0))
    pure out

end Neo
