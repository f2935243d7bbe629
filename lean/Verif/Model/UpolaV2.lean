import Verif.Model.Stft

/-!
# Model: `overlap_add_convolver` (`upola_convolver_v2`)

`neo/convolution/overlap_add_convolver.hpp` with the template arguments of
`neo/convolution/dense_convolver.hpp:28` (`dense_fdl`, `dense_filter`).
-/

namespace Neo

/-- `overlap_add_convolver`, `src/neo/convolution/overlap_add_convolver.hpp:21-52`. -/
structure UpolaV2 where
  blockSize : Nat
  numSegments : Nat
  inputPos : Nat
  currentSegment : Nat
  rfft : RfftPlan
  realWindow : List ℝ
  overlap : List ℝ
  complexWindow : List ℂ
  fdl : Arr2 ℂ
  filter : Arr2 ℂ
  accumulator : List ℂ
  tmpAccumulator : List ℂ

/-- Default constructor, `overlap_add_convolver.hpp:30,36-51`. -/
noncomputable def UpolaV2.make : Res UpolaV2 := do
  let rfft ← RfftPlan.make (nextOrder 4)
  pure {
    blockSize := 2
    numSegments := 0
    inputPos := 0
    currentSegment := 0
    rfft := rfft
    realWindow := vec rfft.size (fun _ => 0)
    overlap := vec rfft.size (fun _ => 0)
    complexWindow := vec (rfft.size / 2 + 1) (fun _ => 0)
    fdl := denseFdlOps.make 0 0
    filter := { rows := 0, cols := 0, data := [] }
    accumulator := []
    tmpAccumulator := [] }

/-- `filter(f)`, `overlap_add_convolver.hpp:54-69` (`extent(1) - 1` wraps for an empty matrix; then
an allocation throws).  `_input_pos` and `_current_segment` are not assigned. -/
noncomputable def UpolaV2.load (u : UpolaV2) (v : MatView) (data : List ℂ) : Res UpolaV2 := do
  if v.cols = 0 then .error .exception else .ok ()
  let u := { u with blockSize := v.cols - 1, numSegments := v.rows }
  let rfft ← RfftPlan.make (nextOrder (u.blockSize * 2))
  let u := { u with
    rfft := rfft
    complexWindow := vec (rfft.size / 2 + 1) (fun _ => 0)
    realWindow := vec rfft.size (fun _ => 0)
    overlap := vec rfft.size (fun _ => 0) }
  let u := { u with
    fdl := denseFdlOps.make v.rows v.cols
    accumulator := denseFilterOps.accMake v.cols
    tmpAccumulator := denseFilterOps.accMake v.cols }
  let filter ← denseFilterOps.load u.filter v data ()
  pure { u with filter := filter }

/-- One iteration of the inner loop, `overlap_add_convolver.hpp:100-107`. -/
noncomputable def v2Segment (numSegments : Nat) (fdl filter : Arr2 ℂ) (filterIndex : Nat)
    (s : Nat × List ℂ) : Res (Nat × List ℂ) := do
  let i := s.1 + 1
  let i := if i ≥ numSegments then i - numSegments else i
  let row ← denseFdlOps.row fdl i
  let acc ← denseFilterOps.mac filter row filterIndex s.2
  pure (i, acc)

/-- `if (input_was_empty) { … }`, `overlap_add_convolver.hpp:96-108`; the new `_tmp_accumulator`. -/
noncomputable def v2Tail (u : UpolaV2) (fdl : Arr2 ℂ) : Res (List ℂ) :=
  if u.inputPos = 0 then do
    let tmp ← denseFilterOps.accZero u.tmpAccumulator
    let r ← forR 1 u.numSegments (v2Segment u.numSegments fdl u.filter) (u.currentSegment, tmp)
    pure r.2
  else .ok u.tmpAccumulator

/-- `if (_input_pos == _block_size) { … }`, `overlap_add_convolver.hpp:122-132`
(`_num_segments - 1` is not reached with `_num_segments = 0`: the delay line is indexed before). -/
noncomputable def v2Finish (u : UpolaV2) : Res UpolaV2 :=
  if u.inputPos = u.blockSize then do
    let tail ← rdSpan u.realWindow u.blockSize (u.blockSize * 2)
    let overlap ← copyInto tail u.overlap 0 u.blockSize
    let realWindow ← fillVec u.realWindow 0
    pure { u with
      inputPos := 0
      overlap := overlap
      realWindow := realWindow
      currentSegment := if u.currentSegment > 0 then u.currentSegment - 1 else u.numSegments - 1 }
  else .ok u

/-- Body of the loop of the call operator, `overlap_add_convolver.hpp:85-135`; returns the
convolver, the buffer and the number of processed samples. -/
noncomputable def v2Chunk (u : UpolaV2) (inout : List ℝ) (numProcessed : Nat) :
    Res (UpolaV2 × List ℝ × Nat) := do
  let n := min (inout.length - numProcessed) (wsub u.blockSize u.inputPos)
  let subInout ← rdSpan inout numProcessed (numProcessed + n)
  let realWindow ← copyInto subInout u.realWindow u.inputPos n
  let (plan, complexWindow) ← u.rfft.rfft realWindow u.complexWindow
  let fdl ← denseFdlOps.insert u.fdl complexWindow u.currentSegment
  let tmp ← v2Tail u fdl
  let acc ← copyVec tmp u.accumulator
  let row ← denseFdlOps.row fdl u.currentSegment
  let acc ← denseFilterOps.mac u.filter row 0 acc
  let complexWindow ← copyVec acc complexWindow
  let (plan, realWindow) ← plan.irfft complexWindow realWindow
  let realWindow ← scaleVec (1 / (plan.size : ℝ)) realWindow
  let subOverlap ← rdSpan u.overlap u.inputPos (u.inputPos + n)
  let subWindow ← rdSpan realWindow u.inputPos (u.inputPos + n)
  let subInout ← addVec subWindow subOverlap subInout
  let inout ← wrSpan inout numProcessed subInout
  let u ← v2Finish { u with
    inputPos := u.inputPos + n
    rfft := plan
    realWindow := realWindow
    complexWindow := complexWindow
    fdl := fdl
    accumulator := acc
    tmpAccumulator := tmp }
  pure (u, inout, numProcessed + n)

/-- The loop of the call operator, `overlap_add_convolver.hpp:85-135`.  An iteration that processes
no sample happens if the input position equals the block size; unless the block size is 0, the input
position is 0 afterwards and this happens once only, so more iterations mean divergence. -/
noncomputable def v2Loop : Nat → UpolaV2 → List ℝ → Nat → Res (UpolaV2 × List ℝ)
  | 0, _, _, _ => .error .diverge
  | fuel + 1, u, inout, numProcessed =>
    if numProcessed < inout.length then do
      let (u, inout, numProcessed) ← v2Chunk u inout numProcessed
      v2Loop fuel u inout numProcessed
    else .ok (u, inout)

/-- Call operator, `overlap_add_convolver.hpp:71-136`. -/
noncomputable def UpolaV2.call (u : UpolaV2) (inout : List ℝ) : Res (UpolaV2 × List ℝ) := do
  check (u.blockSize ≤ inout.length)
  v2Loop (inout.length + 2) u inout 0

/-- A fresh `upola_convolver_v2` is loaded with a filter and called with the given buffers.
`src/neo/convolution/dense_convolver.hpp:28`; `src/neo/convolution/overlap_add_convolver.hpp:54-136`. -/
noncomputable def upolaV2Run (v : MatView) (data : List ℂ) (calls : List (List ℝ)) :
    Res (List (List ℝ)) := do
  let u ← UpolaV2.make
  let u ← u.load v data
  let (_, outs) ← runBlocks UpolaV2.call u calls
  pure outs

end Neo
