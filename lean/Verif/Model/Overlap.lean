import Verif.Model.Conv

/-!
# Model: block convolution engines (`overlap_add.hpp`, `overlap_save.hpp`)

A callback is a function on the spectrum that may also update the state `σ` it captures.
-/

namespace Neo

/-- A callback invoked with the spectrum (an in/out vector) and the captured state; `C` is the complex number type.
`src/neo/convolution/overlap_add.hpp:78,96`; `src/neo/convolution/overlap_save.hpp:85,103`. -/
abbrev Callback (σ : Type) (C : Type := ℂ) := List C → σ → Res (List C × σ)

/-- `overlap_add`, `src/neo/convolution/overlap_add.hpp:22-51`. -/
structure OverlapAdd where
  blockSize : Nat
  filterSize : Nat
  rfft : RfftPlan
  window : List ℝ
  spectrum : List ℂ
  overlap : List ℝ

/-- Constructor, `overlap_add.hpp:53-57`. -/
noncomputable def OverlapAdd.make (blockSize filterSize : Nat) : Res OverlapAdd := do
  if blockSize + filterSize = 0 then .error .exception else .ok ()
  let rfft ← RfftPlan.make (nextOrder (outputSizeFull blockSize filterSize))
  pure {
    blockSize := blockSize
    filterSize := filterSize
    rfft := rfft
    window := vec rfft.size (fun _ => 0)
    spectrum := vec (rfft.size / 2 + 1) (fun _ => 0)
    overlap := vec blockSize (fun _ => 0) }

/-- Call operator, `overlap_add.hpp:77-107`.  `signal` and `padding` are views of the window. -/
noncomputable def OverlapAdd.call {σ : Type} (o : OverlapAdd) (block : List ℝ) (cb : Callback σ)
    (s : σ) : Res (OverlapAdd × List ℝ × σ) := do
  check (block.length = o.blockSize)
  let bs := o.blockSize
  let window := o.window
  -- the spans are formed first
  let _ ← rdSpan window 0 bs
  let padding ← rdSpan window bs (bs * 2)
  -- copy and zero-pad input
  let window ← copyInto block window 0 bs
  let padding ← fillVec padding 0
  let window ← wrSpan window bs padding
  -- K-point rfft
  let (plan, spectrum) ← o.rfft.rfft window o.spectrum
  -- convolve
  let (spectrum, s) ← cb spectrum s
  -- K-point irfft
  let (plan, window) ← plan.irfft spectrum window
  let window ← scaleVec (1 / (plan.size : ℝ)) window
  -- copy to output
  let signal ← rdSpan window 0 bs
  let block ← addVec signal o.overlap block
  -- save overlap for next iteration
  let padding ← rdSpan window bs (bs * 2)
  let overlap ← copyVec padding o.overlap
  pure ({ o with rfft := plan, window := window, spectrum := spectrum, overlap := overlap },
    block, s)

/-- `overlap_save`, `src/neo/convolution/overlap_save.hpp:20-58`. -/
structure OverlapSave where
  blockSize : Nat
  filterSize : Nat
  plan : RfftPlan
  window : List ℝ
  realBuffer : List ℝ
  complexBuffer : List ℂ

/-- Constructor, `overlap_save.hpp:60-64`. -/
noncomputable def OverlapSave.make (blockSize filterSize : Nat) : Res OverlapSave := do
  if blockSize + filterSize = 0 then .error .exception else .ok ()
  let plan ← RfftPlan.make (nextOrder (blockSize + filterSize - 1))
  pure {
    blockSize := blockSize
    filterSize := filterSize
    plan := plan
    window := vec plan.size (fun _ => 0)
    realBuffer := vec plan.size (fun _ => 0)
    complexBuffer := vec plan.size (fun _ => 0) }

/-- One iteration of `slide_window_left`, `overlap_save.hpp:42-49`: source and destination are
disjoint views of the same window, so the source is read before the destination is written. -/
def slideStep {R : Type} (step i : Nat) (window : List R) : Res (List R) := do
  let dest := i * step
  let src := dest + step
  let srcBlock ← rdSpan window src (src + step)
  copyInto srcBlock window dest (src - dest)

/-- `slide_window_left`, `overlap_save.hpp:37-49` (`int` arithmetic without overflow). -/
def slideWindowLeft {R : Type} (blockSize : Nat) (window : List R) : Res (List R) :=
  if blockSize = 0 then .error .divZero
  else forN (window.length / blockSize - 1) (slideStep blockSize) window

/-- Call operator, `overlap_save.hpp:84-112`. -/
noncomputable def OverlapSave.call {σ : Type} (o : OverlapSave) (block : List ℝ) (cb : Callback σ)
    (s : σ) : Res (OverlapSave × List ℝ × σ) := do
  check (block.length = o.blockSize)
  let bs := o.blockSize
  let K := o.plan.size
  let lo ← subIdx K bs
  let _ ← rdSpan o.window lo K
  let window ← slideWindowLeft bs o.window
  let window ← copyInto block window lo (K - lo)
  -- 2B-point R2C-FFT
  let (plan, complexBuf) ← o.plan.rfft window o.complexBuffer
  -- apply processing to the first K/2+1 coefficients
  let coeffs ← rdSpan complexBuf 0 (K / 2 + 1)
  let (coeffs, s) ← cb coeffs s
  let complexBuf ← wrSpan complexBuf 0 coeffs
  -- 2B-point C2R-IFFT
  let (plan, realBuf) ← plan.irfft complexBuf o.realBuffer
  let realBuf ← scaleVec (1 / (plan.size : ℝ)) realBuf
  -- copy block_size samples to output
  let keep ← rdSpan realBuf lo K
  let block ← copyVec keep block
  pure ({ o with plan := plan, window := window, realBuffer := realBuf,
                 complexBuffer := complexBuf }, block, s)

/-- Feed a list of blocks to a stateful block processor; collects the output blocks.
`extra/cli/src/convolver.cpp:42-54`. -/
def runBlocks {S β γ : Type} (step : S → β → Res (S × γ)) : S → List β → Res (S × List γ)
  | s, [] => .ok (s, [])
  | s, b :: bs => do
      let (s, y) ← step s b
      let (s, ys) ← runBlocks step s bs
      pure (s, y :: ys)

end Neo
