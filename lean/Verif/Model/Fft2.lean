import Verif.Model.Bits
import Verif.Model.Algo
import Mathlib.Analysis.SpecialFunctions.Trigonometric.Basic

/-!
# Model: the radix-2 FFT plan (`neo/fft/reference`)

The kernels are written over an arbitrary type `R` of sample values with an addition, a subtraction
and a multiplication; the plan fixes `R = ℂ` (exact arithmetic instead of `float`/`double`) and computes
the twiddle tables.  The plan with rounded arithmetic is in `Model/Rounding`.  Index variables of the narrower C++ types (`int`, `unsigned`) are naturals:
with `order ≤ 27` (enforced by `check_order`) none of them can wrap.
-/

namespace Neo

/-- `for (k = 0; k < hi; k += step) s = body(k, s)`; only used with `step > 0`.
`src/neo/fft/reference/kernel/c2c_dit2.hpp:33,49`. -/
def forStep {σ : Type} (hi step : Nat) (body : Nat → σ → Res σ) (s : σ) : Res σ :=
  forN ((hi + step - 1) / step) (fun i => body (i * step)) s

/-- `neo::fft::direction`, `src/neo/fft/direction.hpp`. -/
inductive Direction where
  | forward
  | backward
  deriving DecidableEq, Repr

/-! ## Bit reversal -/

/-- `std::swap(x[i], x[j])`. `src/neo/fft/reference/bitrevorder.hpp:29`. -/
def swap {α : Type} (x : List α) (i j : Nat) : Res (List α) := do
  let a ← rd x i
  let b ← rd x j
  let x ← wr x i b
  wr x j a

/-- `bitrevorder_plan::make`, `src/neo/fft/reference/bitrevorder.hpp:65-75`. -/
def bitrevMake (size : Nat) : Res (List Nat) := do
  let order := bitLog2 size
  forN size (fun i table =>
    forN order (fun j table => do
      let t ← rd table i
      wr table i (t ||| (((i >>> j) &&& 1) <<< (order - 1 - j)))) table)
    (List.replicate size 0)

/-- `bitrevorder_plan::operator()` on complex vectors,
`src/neo/fft/reference/bitrevorder.hpp:23-32`. -/
def bitrevApply {α : Type} (table : List Nat) (x : List α) : Res (List α) :=
  forN table.length (fun i x => do
    let t ← rd table i
    if i < t then swap x i t else pure x) x

/-- `bitrevorder_plan::operator()` on interleaved real data,
`src/neo/fft/reference/bitrevorder.hpp:34-50`. -/
def bitrevApplyInterleaved {α : Type} (table : List Nat) (x : List α) : Res (List α) :=
  forN table.length (fun i x => do
    let t ← rd table i
    if i < t then do
      let srcRe := i * 2
      let srcIm := srcRe + 1
      let destRe := t * 2
      let destIm := destRe + 1
      let x ← swap x srcRe destRe
      swap x srcIm destIm
    else pure x) x

/-- `bitrevorder_plan::operator()` on split complex data,
`src/neo/fft/reference/bitrevorder.hpp:52-62`; the pair is `(x.real, x.imag)`. -/
def bitrevApplySplit {α : Type} (table : List Nat) (x : List α × List α) :
    Res (List α × List α) :=
  forN table.length (fun i x => do
    let t ← rd table i
    if i < t then do
      let re ← swap x.1 i t
      let im ← swap x.2 i t
      pure (re, im)
    else pure x) x

/-- `while (k <= j) { j -= k; k /= radix; }` with fuel; running out of fuel is divergence.
Used by `bitrevorder` (`bitrevorder.hpp:90-93`) and `digitrevorder_plan::make`
(`digitrevorder.hpp:38-41`).  Returns `(j, k)`. -/
def revCarry (radix : Nat) : Nat → Nat → Nat → Res (Nat × Nat)
  | 0, _, _ => .error .diverge
  | fuel + 1, j, k => if k ≤ j then revCarry radix fuel (j - k) (k / radix) else .ok (j, k)

/-- In-place `neo::fft::bitrevorder` on complex vectors,
`src/neo/fft/reference/bitrevorder.hpp:80-96`.  The loop state is `(x, j)`.  An empty vector
makes `x.size() - 1` wrap to `2^64 - 1`; the first iteration then runs `while (0 <= 0)` forever.
The fuel `size + 1` suffices whenever the loop terminates: each pass either halves `k` or,
once `k = 0`, repeats the same state forever. -/
def bitrevorder {α : Type} (x : List α) : Res (List α) :=
  if x.length = 0 then .error .diverge else do
  let r ← forN (x.length - 1) (fun i (s : List α × Nat) => do
    let x ← if i < s.2 then swap s.1 i s.2 else pure s.1
    let jk ← revCarry 2 (x.length + 1) s.2 (x.length / 2)
    pure (x, jk.1 + jk.2)) (x, 0)
  pure r.1

/-! ## Radix-2 kernels -/

section kernels
variable {R : Type} [Add R] [Sub R] [Mul R]

/-- Butterfly without twiddle:
`temp = x[i1] + x[i2]; x[i2] = x[i1] - x[i2]; x[i1] = temp;`
(`src/neo/fft/reference/kernel/c2c_dit2.hpp:37-39`). -/
def butterfly0 (x : List R) (i1 i2 : Nat) : Res (List R) := do
  let a ← rd x i1
  let b ← rd x i2
  let temp := a + b
  let x ← wr x i2 (a - b)
  wr x i1 temp

/-- Butterfly with twiddle:
`temp = x[i1] + tw*x[i2]; x[i2] = x[i1] - tw*x[i2]; x[i1] = temp;`
(`src/neo/fft/reference/kernel/c2c_dit2.hpp:56-58`, `161-163`, `210-212`, `227-229`). -/
def butterflyTw (x : List R) (tw : R) (i1 i2 : Nat) : Res (List R) := do
  let a ← rd x i1
  let b ← rd x i2
  let temp := a + tw * b
  let x ← wr x i2 (a - tw * b)
  wr x i1 temp

/-- Stage 0, identical in all four kernels
(`src/neo/fft/reference/kernel/c2c_dit2.hpp:28-41`, `79-92`, `133-146`, `182-195`). -/
def dit2Stage0 (x : List R) : Res (List R) :=
  forStep x.length 2 (fun k x => butterfly0 x k (k + 1)) x

/-- `c2c_dit2_v1::operator()`, `src/neo/fft/reference/kernel/c2c_dit2.hpp:17-66`.
The loop state carries the running `stage_length` and `stride`. -/
def dit2V1 (x : List R) (twiddles : List R) : Res (List R) := do
  let size := x.length
  let order := bitLog2 size
  let x ← dit2Stage0 x
  let r ← forR 1 order (fun stage (s : List R × Nat × Nat) => do
    let stageLength := s.2.1
    let stride := s.2.2
    let twStride := ipow 2 (order - stage - 1)
    let x ← forStep size stride (fun k x =>
      forN stageLength (fun pair x => do
        let tw ← rd twiddles (pair * twStride)
        let i1 := k + pair
        let i2 := i1 + stageLength
        butterflyTw x tw i1 i2) x) s.1
    pure (x, stageLength * 2, stride * 2)) (x, 2, 4)
  pure r.1

/-- Loop `while (stage_size <= size)` of `c2c_dit2_v2`,
`src/neo/fft/reference/kernel/c2c_dit2.hpp:94-117`, with fuel (the stage size doubles each time,
so `size` iterations are more than enough; running out would be divergence). -/
def dit2V2Loop (twiddles : List R) (size : Nat) : Nat → Nat → List R → Res (List R)
  | 0, _, _ => .error .diverge
  | fuel + 1, stageSize, x =>
    if stageSize ≤ size then do
      let halfStage := stageSize / 2
      let kStep := size / stageSize
      let x ← forStep size stageSize (fun i x =>
        forR i (i + halfStage) (fun k x => do
          let index := k - i
          let tw ← rd twiddles (index * kStep)
          let idx1 := k
          let idx2 := k + halfStage
          let even ← rd x idx1
          let odd ← rd x idx2
          let tmp := odd * tw
          let x ← wr x idx1 (even + tmp)
          wr x idx2 (even - tmp)) x) x
      dit2V2Loop twiddles size fuel (stageSize * 2) x
    else pure x

/-- `c2c_dit2_v2::operator()`, `src/neo/fft/reference/kernel/c2c_dit2.hpp:69-119`. -/
def dit2V2 (x : List R) (twiddles : List R) : Res (List R) := do
  let size := x.length
  let x ← dit2Stage0 x
  dit2V2Loop twiddles size (size + 1) 4 x

/-- One twiddled stage of `c2c_dit2_v3`/`v4`,
`src/neo/fft/reference/kernel/c2c_dit2.hpp:150-165` and `199-214`. -/
def dit2Stage (twiddles : List R) (size order stage : Nat) (x : List R) : Res (List R) :=
  let stageLength := ipow 2 stage
  let stride := ipow 2 (stage + 1)
  let twStride := ipow 2 (order - stage - 1)
  forStep size stride (fun k x =>
    forN stageLength (fun pair x => do
      let tw ← rd twiddles (pair * twStride)
      let i1 := k + pair
      let i2 := k + pair + stageLength
      butterflyTw x tw i1 i2) x) x

/-- `c2c_dit2_v3::operator()` (the default kernel),
`src/neo/fft/reference/kernel/c2c_dit2.hpp:122-168`. -/
def dit2V3 (x : List R) (twiddles : List R) : Res (List R) := do
  let size := x.length
  let order := bitLog2 size
  let x ← dit2Stage0 x
  forR 1 order (fun stage x => dit2Stage twiddles size order stage x) x

/-- `c2c_dit2_v4::operator()`, `src/neo/fft/reference/kernel/c2c_dit2.hpp:171-233`.
For `order = 0` the unsigned bound `order - 1` wraps; stage 0 has already read `x[1]` out of
bounds in that case (unless the vector is empty, when the wrapped loop does not terminate in
practice), so the bound is modelled by a fault. -/
def dit2V4 (x : List R) (twiddles : List R) : Res (List R) := do
  let size := x.length
  let order := bitLog2 size
  let x ← dit2Stage0 x
  if order = 0 then .error .diverge else do
  let x ← forR 1 (order - 1) (fun stage x => dit2Stage twiddles size order stage x) x
  let stageLength := size / 2
  forN stageLength (fun pair x => do
    let tw ← rd twiddles pair
    let i1 := pair
    let i2 := pair + stageLength
    butterflyTw x tw i1 i2) x

end kernels

/-! ## Twiddle tables and the plan -/

/-- `math::polar(r, theta)`, `src/neo/math/polar.hpp`. -/
noncomputable def polar (r theta : ℝ) : ℂ := ⟨r * Real.cos theta, r * Real.sin theta⟩

/-- `neo::fft::twiddle`, `src/neo/fft/twiddle.hpp:17-29`. -/
noncomputable def twiddle (size index : Nat) (dir : Direction) : ℂ :=
  let sign : ℝ := if dir = .forward then -1 else 1
  let twoPi : ℝ := Real.pi * 2
  let angle := sign * twoPi * (index : ℝ) / (size : ℝ)
  polar 1 angle

/-- `fill_twiddle_lut_radix2` on a table of `lutSize` elements,
`src/neo/fft/twiddle.hpp:32-43` (every element is written, in index order). -/
noncomputable def fillTwiddleLutRadix2 (lutSize : Nat) (dir : Direction) : List ℂ :=
  let size := lutSize * 2
  (List.range lutSize).map (fun i => twiddle size i dir)

/-- `make_twiddle_lut_radix2`, `src/neo/fft/twiddle.hpp:46-52`. -/
noncomputable def makeTwiddleLutRadix2 (size : Nat) (dir : Direction) : List ℂ :=
  fillTwiddleLutRadix2 (size / 2) dir

/-- Data members of `c2c_dit2_plan`, `src/neo/fft/reference/c2c_dit2_plan.hpp:42-50`; `R` is the type of the
samples. -/
structure Dit2Plan (R : Type := ℂ) where
  order : Nat
  size : Nat
  reorder : List Nat
  wf : List R
  wb : List R

/-- `c2c_dit2_plan::max_order`, `src/neo/fft/reference/c2c_dit2_plan.hpp:57-61`. -/
def dit2MaxOrder : Nat := 27

/-- `c2c_dit2_plan::max_size`, `src/neo/fft/reference/c2c_dit2_plan.hpp:63-67`. -/
def dit2MaxSize : Nat := fftSize dit2MaxOrder

/-- `c2c_dit2_plan::check_order`, `src/neo/fft/reference/c2c_dit2_plan.hpp:97-104`. -/
def dit2CheckOrder (order : Nat) : Res Nat :=
  if order > dit2MaxOrder then .error .exception else .ok order

/-- `c2c_dit2_plan` constructor, `src/neo/fft/reference/c2c_dit2_plan.hpp:42-55`
(allocation failure is not modelled). -/
noncomputable def Dit2Plan.make (order : Nat) : Res Dit2Plan := do
  let order ← dit2CheckOrder order
  let size := fftSize order
  let reorder ← bitrevMake (1 <<< order)
  pure {
    order := order
    size := size
    reorder := reorder
    wf := makeTwiddleLutRadix2 size .forward
    wb := makeTwiddleLutRadix2 size .backward }

/-- `c2c_dit2_plan::operator()` with kernel `kernel`,
`src/neo/fft/reference/c2c_dit2_plan.hpp:81-95`. -/
def Dit2Plan.callWith {R : Type} (kernel : List R → List R → Res (List R))
    (p : Dit2Plan R) (x : List R) (dir : Direction) : Res (List R) := do
  check (x.length = p.size)
  let x ← bitrevApply p.reorder x
  if dir = .forward then kernel x p.wf else kernel x p.wb

/-- `c2c_dit2_plan::operator()` with the default kernel (`Kernel = c2c_dit2_v3`).
`src/neo/fft/reference/c2c_dit2_plan.hpp:21,81-95`. -/
def Dit2Plan.call {R : Type} [Add R] [Sub R] [Mul R] (p : Dit2Plan R) (x : List R) (dir : Direction) :
    Res (List R) :=
  p.callWith dit2V3 x dir

/-- In-place `neo::fft::fft(plan, inout)`, `src/neo/fft/fft.hpp:54-59`, with the default plan. -/
def fft {R : Type} [Add R] [Sub R] [Mul R] (p : Dit2Plan R) (x : List R) : Res (List R) :=
  p.call x .forward

/-- In-place `neo::fft::ifft(plan, inout)`, `src/neo/fft/fft.hpp:73-78`, with the default plan. -/
def ifft {R : Type} [Add R] [Sub R] [Mul R] (p : Dit2Plan R) (x : List R) : Res (List R) :=
  p.call x .backward

/-- Out-of-place `neo::fft::fft(plan, input, output)`, `src/neo/fft/fft.hpp:61-71`;
`c2c_dit2_plan` has no three-argument call operator, so the `else` branch is taken. -/
noncomputable def fftOut (p : Dit2Plan) (input output : List ℂ) : Res (List ℂ) := do
  let output ← copyVec input output
  fft p output

/-- Out-of-place `neo::fft::ifft(plan, input, output)`, `src/neo/fft/fft.hpp:80-90`. -/
noncomputable def ifftOut (p : Dit2Plan) (input output : List ℂ) : Res (List ℂ) := do
  let output ← copyVec input output
  ifft p output

end Neo
