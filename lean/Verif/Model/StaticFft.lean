import Verif.Model.SplitFft

/-!
# Model: the compile-time FFT plans of `extra/snippet/split_fft.cpp`

`static_fft_plan<Float, Order>` and `static_split_fft_plan<Float, Order>`.  The stages are unrolled by
template recursion over `Stage`; here the recursion is over the number of stages that are left.
`1 << Order` is an `int`, so that the snippet compiles for orders up to 30; for order 0 the overloads for
`Stage == 0` and `Stage == Order` are ambiguous and the snippet does not compile.  The theorems therefore
concern orders 1 to 30.  `make_twiddle_lut_radix2` (`split_fft.cpp:104-124`) and `make_bitrevorder_table`
(`split_fft.cpp:147-157`) are the functions of the library, statement by statement.

Spans and pointers are unchecked: an access outside of the buffer is `oob`.
-/

namespace Neo

/-- `bitrevorder(x, index)`, `extra/snippet/split_fft.cpp:126-134`: the loop runs over the data. -/
def bitrevorderIdx {α : Type} (x : List α) (index : List Nat) : Res (List α) :=
  forN x.length (fun i x => do
    let t ← rd index i
    if i < t then swap x i t else pure x) x

/-- `bitrevorder(xre, xim, index)`, `extra/snippet/split_fft.cpp:136-145`. -/
def bitrevorderIdxSplit {α : Type} (x : List α × List α) (index : List Nat) : Res (List α × List α) :=
  forN x.1.length (fun i x => do
    let t ← rd index i
    if i < t then do
      let re ← swap x.1 i t
      let im ← swap x.2 i t
      pure (re, im)
    else pure x) x

section interleaved
variable {R : Type} [Add R] [Sub R] [Mul R]

/-- `static_dit2_stage<Float, Order, Stage>` for `Stage != 0`, `extra/snippet/split_fft.cpp:181-208`;
the number of stages that are left is `Order - Stage`. -/
def staticDit2Rest (order : Nat) (twiddles : List R) : Nat → List R → Res (List R)
  | 0, x => pure x
  | left + 1, x => do
    let stage := order - (left + 1)
    let size := 1 <<< order
    let stageLength := ipow 2 stage
    let stride := ipow 2 (stage + 1)
    let twStride := ipow 2 (order - stage - 1)
    let x ← forStep size stride (fun k x =>
      forN stageLength (fun pair x => do
        let tw ← rd twiddles (pair * twStride)
        let i1 := k + pair
        let i2 := k + pair + stageLength
        butterflyTw x tw i1 i2) x) x
    staticDit2Rest order twiddles left x

/-- `static_dit2_stage<Float, Order, 0>`, `extra/snippet/split_fft.cpp:162-179`. -/
def staticDit2 (order : Nat) (x twiddles : List R) : Res (List R) := do
  let x ← forStep (1 <<< order) 2 (fun k x => butterfly0 x k (k + 1)) x
  staticDit2Rest order twiddles (order - 1) x

end interleaved

/-- `static_fft_plan`, `extra/snippet/split_fft.cpp:211-235`. -/
structure StaticFftPlan where
  order : Nat
  wf : List ℂ
  wb : List ℂ
  rev : List Nat

/-- Member initialisers, `extra/snippet/split_fft.cpp:232-234`. -/
noncomputable def StaticFftPlan.make (order : Nat) : Res StaticFftPlan := do
  let rev ← bitrevMake (1 <<< order)
  pure { order := order
         wf := makeTwiddleLutRadix2 (1 <<< order) .forward
         wb := makeTwiddleLutRadix2 (1 <<< order) .backward
         rev := rev }

/-- `operator()`, `extra/snippet/split_fft.cpp:220-229`. -/
noncomputable def StaticFftPlan.call (p : StaticFftPlan) (x : List ℂ) (dir : Direction) :
    Res (List ℂ) := do
  let x ← bitrevorderIdx x p.rev
  if dir = .forward then staticDit2 p.order x p.wf else staticDit2 p.order x p.wb

section split
variable {F : Type} [CommRing F]

/-- `split_fft_radix2_dit<Float, Order, Stage>` for `Stage != 0`,
`extra/snippet/split_fft.cpp:271-315`.  The products and sums of `std::complex` values are written
out. -/
def staticSplitRest (order : Nat) (wre wim : List F) : Nat → List F × List F → Res (List F × List F)
  | 0, x => pure x
  | left + 1, x => do
    let stage := order - (left + 1)
    let size := 1 <<< order
    let stageLength := ipow 2 stage
    let stride := ipow 2 (stage + 1)
    let twStride := ipow 2 (order - stage - 1)
    let x ← forStep size stride (fun k x =>
      forN stageLength (fun pair x => do
        let twi := pair * twStride
        let twre ← rd wre twi
        let twim ← rd wim twi
        let i1 := k + pair
        let i2 := k + pair + stageLength
        splitButterflyTw x twre twim i1 i2) x) x
    staticSplitRest order wre wim left x

/-- `split_fft_radix2_dit<Float, Order, 0>`, `extra/snippet/split_fft.cpp:240-269`. -/
def staticSplit (order : Nat) (x : List F × List F) (wre wim : List F) : Res (List F × List F) := do
  let x ← forStep (1 <<< order) 2 (fun k x => splitButterfly0 x k (k + 1)) x
  staticSplitRest order wre wim (order - 1) x

end split

/-- `static_split_fft_plan`, `extra/snippet/split_fft.cpp:318-357`. -/
structure StaticSplitPlan where
  order : Nat
  wfre : List ℝ
  wfim : List ℝ
  wbre : List ℝ
  wbim : List ℝ
  rev : List Nat

/-- Constructor, `extra/snippet/split_fft.cpp:321-334,356`: the backward table is the conjugate of the
forward table.  The four loops over one index are written as maps. -/
noncomputable def StaticSplitPlan.make (order : Nat) : Res StaticSplitPlan := do
  let rev ← bitrevMake (1 <<< order)
  let tw := makeTwiddleLutRadix2 (1 <<< order) .forward
  pure { order := order
         wfre := tw.map Complex.re
         wfim := tw.map Complex.im
         wbre := tw.map Complex.re
         wbim := tw.map (fun z => -z.im)
         rev := rev }

/-- `operator()`, `extra/snippet/split_fft.cpp:340-349`. -/
noncomputable def StaticSplitPlan.call (p : StaticSplitPlan) (x : List ℝ × List ℝ) (dir : Direction) :
    Res (List ℝ × List ℝ) := do
  let x ← bitrevorderIdxSplit x p.rev
  if dir = .forward then staticSplit p.order x p.wfre p.wfim
  else staticSplit p.order x p.wbre p.wbim

/-- `interleave_benchmark::operator()`, `extra/snippet/split_fft.cpp:368-375`: one timed step. -/
noncomputable def StaticFftPlan.benchStep (p : StaticFftPlan) (buffer : List ℂ) : Res (List ℂ) := do
  let buffer ← p.call buffer .forward
  let buffer ← p.call buffer .backward
  let f : ℝ := (1 : ℝ) / (2 ^ p.order : ℝ)
  pure (buffer.map (fun c => c * (f : ℂ)))

/-- `split_benchmark::operator()`, `extra/snippet/split_fft.cpp:392-400`: one timed step. -/
noncomputable def StaticSplitPlan.benchStep (p : StaticSplitPlan) (buf : List ℝ × List ℝ) :
    Res (List ℝ × List ℝ) := do
  let buf ← p.call buf .forward
  let buf ← p.call buf .backward
  let f : ℝ := (1 : ℝ) / (2 ^ p.order : ℝ)
  pure (buf.1.map (fun c => c * f), buf.2.map (fun c => c * f))

/-- `timeit`'s sequence of `runs` calls of a timed step (`extra/snippet/split_fft.cpp:17-38`). -/
def repeatStep {σ : Type} (step : σ → Res σ) : Nat → σ → Res σ
  | 0, s => pure s
  | n + 1, s => do
    let s ← step s
    repeatStep step n s

end Neo
