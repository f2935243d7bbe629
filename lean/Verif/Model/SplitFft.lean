import Verif.Model.Fft2
import Verif.Model.Mat

/-!
# Model: the split-complex FFT plan (`neo/fft/fallback/fallback_split_fft_plan.hpp`)

A split-complex vector is the pair of its real and imaginary buffers.  The Accelerate and IPP plans
are in `Model/Backend`.
-/

namespace Neo

/-- `fallback_split_fft_plan`, `src/neo/fft/fallback/fallback_split_fft_plan.hpp:15-137`; the two rows
of `_tw` are `twRe`, `twIm`. -/
structure SplitFftPlan (R : Type := ℝ) where
  order : Nat
  reorder : List Nat
  twRe : List R
  twIm : List R

/-- `size()`, `fallback_split_fft_plan.hpp:25`. -/
def SplitFftPlan.size {R : Type} (p : SplitFftPlan R) : Nat := fftSize p.order

/-- Constructor and `make_twiddles`, `fallback_split_fft_plan.hpp:21,122-136`
(there is no `check_order`; allocation failure is not modelled). -/
noncomputable def SplitFftPlan.make (order : Nat) : Res SplitFftPlan := do
  let reorder ← bitrevMake (1 <<< order)
  let interleaved := makeTwiddleLutRadix2 (fftSize order) .forward
  let n := interleaved.length
  let w ← copyToSplit interleaved (vec n (fun _ => 0)) (vec n (fun _ => 0))
  pure { order := order, reorder := reorder, twRe := w.1, twIm := w.2 }

section kernels
variable {F : Type} [Add F] [Sub F] [Mul F]

/-- Body of the loop of `stage_0`, `fallback_split_fft_plan.hpp:60-72`. -/
def splitButterfly0 (x : List F × List F) (i1 i2 : Nat) : Res (List F × List F) := do
  let x1re ← rd x.1 i1
  let x1im ← rd x.2 i1
  let x2re ← rd x.1 i2
  let x2im ← rd x.2 i2
  let xre ← wr x.1 i1 (x1re + x2re)
  let xim ← wr x.2 i1 (x1im + x2im)
  let xre ← wr xre i2 (x1re - x2re)
  let xim ← wr xim i2 (x1im - x2im)
  pure (xre, xim)

/-- Body of the inner loop of `stage_n`, `fallback_split_fft_plan.hpp:105-116`. -/
def splitButterflyTw (x : List F × List F) (wre wim : F) (i1 i2 : Nat) : Res (List F × List F) := do
  let x1re ← rd x.1 i1
  let x1im ← rd x.2 i1
  let x2re ← rd x.1 i2
  let x2im ← rd x.2 i2
  let xwre := wre * x2re - wim * x2im
  let xwim := wre * x2im + wim * x2re
  let xre ← wr x.1 i1 (x1re + xwre)
  let xim ← wr x.2 i1 (x1im + xwim)
  let xre ← wr xre i2 (x1re - xwre)
  let xim ← wr xim i2 (x1im - xwim)
  pure (xre, xim)

/-- `stage_n`, `fallback_split_fft_plan.hpp:80-120`.  All indices are `int`.  `1 << log2_size` is
`2^order` up to order 30, `INT_MIN` for order 31 (so that the loops over `k` are empty), and undefined
above. -/
def splitStageN (order : Nat) (twRe twIm : List F) (x : List F × List F) : Res (List F × List F) :=
  if 32 ≤ order then .error .overflow else
  let size := if order = 31 then 0 else 1 <<< order
  forR 1 order (fun stage x =>
    let stageLength := ipow 2 stage
    let stride := ipow 2 (stage + 1)
    let twStride := ipow 2 (order - stage - 1)
    forStep size stride (fun k x =>
      forN stageLength (fun pair x => do
        let i1 := k + pair
        let i2 := k + pair + stageLength
        let wIndex := pair * twStride
        let wre ← rd twRe wIndex
        let wim ← rd twIm wIndex
        splitButterflyTw x wre wim i1 i2) x) x) x

/-- `stage_0`, `fallback_split_fft_plan.hpp:54-78`.  `static_cast<int>(size())` is `2^order` up to
order 30, `INT_MIN` for order 31, and 0 above: the loop is empty from order 31 on. -/
def splitStage0 (order : Nat) (twRe twIm : List F) (x : List F × List F) : Res (List F × List F) := do
  let size := if 31 ≤ order then 0 else fftSize order
  let x ← forStep size 2 (fun k x => splitButterfly0 x k (k + 1)) x
  splitStageN order twRe twIm x

/-- In-place `operator()`, `fallback_split_fft_plan.hpp:27-40`: the backward transform exchanges the
roles of the two buffers. -/
def SplitFftPlan.call (p : SplitFftPlan F) (x : List F × List F) (dir : Direction) :
    Res (List F × List F) := do
  check (x.1.length = p.size)
  check (x.1.length = x.2.length)
  let x ← bitrevApplySplit p.reorder x
  if dir = .forward then splitStage0 p.order p.twRe p.twIm (x.1, x.2)
  else do
    let y ← splitStage0 p.order p.twRe p.twIm (x.2, x.1)
    pure (y.2, y.1)

/-- Out-of-place `operator()`, `fallback_split_fft_plan.hpp:42-51`. -/
def SplitFftPlan.callOut (p : SplitFftPlan F) (input out : List F × List F)
    (dir : Direction) : Res (List F × List F) := do
  check (input.1.length = p.size)
  check (input.1.length = input.2.length ∧ input.1.length = out.1.length
    ∧ input.1.length = out.2.length)
  let re ← copyVec input.1 out.1
  let im ← copyVec input.2 out.2
  p.call (re, im) dir

end kernels

end Neo
