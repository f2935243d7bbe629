import Verif.Model.Fft2

/-!
# Model: the experimental in-place transforms (`neo/fft/experimental/rfft.hpp`)

Real and imaginary parts are interleaved in one buffer of reals.  `float`/`double` arithmetic is exact
here, in particular `std::sin` is the sine.  Index variables of type `int`/`unsigned` are naturals; the
one of them that leaves its range first is `stride` (it reaches `2^31` after the last stage of a
transform of order 30), and that overflow is a fault of the model.
-/

namespace Neo

/-- Butterfly of stage 0, `src/neo/fft/experimental/rfft.hpp:36-57`. -/
def expButterfly0 (x : List ℝ) (i1 i2 : Nat) : Res (List ℝ) := do
  let i1re := i1 * 2
  let i1im := i1re + 1
  let i2re := i2 * 2
  let i2im := i2re + 1
  let x1re ← rd x i1re
  let x1im ← rd x i1im
  let x2re ← rd x i2re
  let x2im ← rd x i2im
  let x ← wr x i1re (x1re + x2re)
  let x ← wr x i1im (x1im + x2im)
  let x ← wr x i2re (x1re - x2re)
  wr x i2im (x1im - x2im)

/-- Butterfly of the later stages, `src/neo/fft/experimental/rfft.hpp:67-89`. -/
noncomputable def expButterflyTw (x : List ℝ) (tw : ℂ) (i1 i2 : Nat) : Res (List ℝ) := do
  let i1re := i1 * 2
  let i1im := i1re + 1
  let i2re := i2 * 2
  let i2im := i2re + 1
  let a ← rd x i1re
  let b ← rd x i1im
  let c ← rd x i2re
  let d ← rd x i2im
  let x1 : ℂ := ⟨a, b⟩
  let x2 : ℂ := ⟨c, d⟩
  let xn1 := x1 + tw * x2
  let xn2 := x1 - tw * x2
  let x ← wr x i1re xn1.re
  let x ← wr x i1im xn1.im
  let x ← wr x i2re xn2.re
  wr x i2im xn2.im

/-- `detail::c2c_kernel::operator()`, `src/neo/fft/experimental/rfft.hpp:24-95`.  The loop state carries
the running `stage_length` and `stride` (both `int`). -/
noncomputable def expKernel (x : List ℝ) (twiddles : List ℂ) : Res (List ℝ) := do
  let size := x.length / 2
  let order := bitLog2 size
  let x ← forStep size 2 (fun k x => expButterfly0 x k (k + 1)) x
  let r ← forR 1 order (fun stage (s : List ℝ × Nat × Nat) => do
    let stageLength := s.2.1
    let stride := s.2.2
    let twStride := ipow 2 (order - stage - 1)
    let x ← forStep size stride (fun k x =>
      forN stageLength (fun pair x => do
        let tw ← rd twiddles (pair * twStride)
        let i1 := k + pair
        let i2 := i1 + stageLength
        expButterflyTw x tw i1 i2) x) s.1
    if stride * 2 < 2 ^ 31 then pure (x, stageLength * 2, stride * 2) else .error .overflow) (x, 2, 4)
  pure r.1

/-- `experimental::c2c_dit2_plan`, `src/neo/fft/experimental/rfft.hpp:100-136`. -/
structure ExpC2cPlan where
  order : Nat
  rev : List Nat
  wf : List ℂ
  wb : List ℂ

/-- `experimental::c2c_dit2_plan::size()`, `src/neo/fft/experimental/rfft.hpp:114`. -/
def ExpC2cPlan.size (p : ExpC2cPlan) : Nat := 1 <<< p.order

/-- Constructor, `src/neo/fft/experimental/rfft.hpp:106-110,132-135`: there is no limit on the order
(allocation failure is not modelled). -/
noncomputable def ExpC2cPlan.make (order : Nat) : Res ExpC2cPlan := do
  let rev ← bitrevMake (1 <<< order)
  pure {
    order := order
    rev := rev
    wf := makeTwiddleLutRadix2 (1 <<< order) .forward
    wb := makeTwiddleLutRadix2 (1 <<< order) .backward }

/-- Call operator, `src/neo/fft/experimental/rfft.hpp:116-129`. -/
noncomputable def ExpC2cPlan.call (p : ExpC2cPlan) (x : List ℝ) (dir : Direction) :
    Res (List ℝ) := do
  check (x.length / 2 = p.size)
  let x ← bitrevApplyInterleaved p.rev x
  if dir = .forward then expKernel x p.wf else expKernel x p.wb

/-- `experimental::rfft_plan`, `src/neo/fft/experimental/rfft.hpp:138-207`. -/
structure ExpRfftPlan where
  order : Nat
  fft : ExpC2cPlan

/-- `experimental::rfft_plan::size()`, `src/neo/fft/experimental/rfft.hpp:148`. -/
def ExpRfftPlan.size (p : ExpRfftPlan) : Nat := 1 <<< p.order

/-- Constructor, `src/neo/fft/experimental/rfft.hpp:144,205-206`: for order 0 the order of the inner
plan wraps to `2^64 - 1` and its table size is an over-wide shift. -/
noncomputable def ExpRfftPlan.make (order : Nat) : Res ExpRfftPlan :=
  if order = 0 then .error .overflow else do
  let fft ← ExpC2cPlan.make (order - 1)
  pure { order := order, fft := fft }

/-- State of the recombination loop: buffer, `wr`, `wi`.
`src/neo/fft/experimental/rfft.hpp:169-190`. -/
structure ExpState where
  x : List ℝ
  wr : ℝ
  wi : ℝ

/-- Body of the recombination loop, `src/neo/fft/experimental/rfft.hpp:172-191`. -/
noncomputable def expBody (n : Nat) (c1 c2 wpr wpi : ℝ) (i : Nat) (s : ExpState) :
    Res ExpState := do
  let i1 := i + i
  let i2 := i1 + 1
  let i3 := n - i1
  let i4 := i3 + 1
  let a ← rd s.x i1
  let c ← rd s.x i3
  let b ← rd s.x i2
  let d ← rd s.x i4
  let h1r := c1 * (a + c)
  let h1i := c1 * (b - d)
  let h2r := -c2 * (b + d)
  let h2i := c2 * (a - c)
  let x ← Neo.wr s.x i1 (h1r + s.wr * h2r - s.wi * h2i)
  let x ← Neo.wr x i2 (h1i + s.wr * h2i + s.wi * h2r)
  let x ← Neo.wr x i3 (h1r - s.wr * h2r + s.wi * h2i)
  let x ← Neo.wr x i4 (-h1i + s.wr * h2i + s.wi * h2r)
  let tmp := s.wr
  pure { x := x, wr := tmp * wpr - s.wi * wpi + s.wr, wi := s.wi * wpr + tmp * wpi + s.wi }

/-- The recombination loop and its trigonometric recurrence,
`src/neo/fft/experimental/rfft.hpp:166-191`. -/
noncomputable def expLoop (n : Nat) (c1 c2 theta : ℝ) (x : List ℝ) : Res (List ℝ) := do
  let wtemp := Real.sin (0.5 * theta)
  let wpr := -2 * wtemp * wtemp
  let wpi := Real.sin theta
  let r ← forR 1 (n >>> 2) (expBody n c1 c2 wpr wpi) { x := x, wr := 1 + wpr, wi := wpi }
  pure r.x

/-- Call operator of `experimental::rfft_plan`, `src/neo/fft/experimental/rfft.hpp:150-202`; the two
directions are written one after the other.  (For `n < 2` the angle is a division by zero in C++; the
call then ends in a fault before the angle is used.) -/
noncomputable def ExpRfftPlan.call (p : ExpRfftPlan) (x : List ℝ) (dir : Direction) :
    Res (List ℝ) := do
  let n := x.length
  let c1 : ℝ := 0.5
  let c2 : ℝ := if dir = .forward then -0.5 else 0.5
  let t : ℝ := Real.pi / ((n >>> 1 : ℕ) : ℝ)
  let theta := if dir = .forward then t else -t
  if dir = .forward then do
    let x ← p.fft.call x .forward
    let x ← expLoop n c1 c2 theta x
    let h1r ← rd x 0
    let x1 ← rd x 1
    let x ← wr x 0 (h1r + x1)
    wr x 1 (h1r - x1)
  else do
    let x ← expLoop n c1 c2 theta x
    let h1r ← rd x 0
    let x1 ← rd x 1
    let x ← wr x 0 (c1 * (h1r + x1))
    let x ← wr x 1 (c1 * (h1r - x1))
    p.fft.call x .backward

end Neo
