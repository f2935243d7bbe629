import Verif.Model.SplitFft

/-!
# Model: FFT plans on SIMD batches (`extra/benchmark/src/simd_fft.cpp`)

An `xsimd::batch` of `w` lanes is a function on `Fin w`; its operators work lane by lane, and
`xsimd::fma` / `xsimd::fms` are `a * b + c` and `a * b - c` (exact arithmetic).  Every lane carries a
signal of its own.
-/

namespace Neo

/-- `xsimd::batch<T>` with `w` lanes. `extra/benchmark/src/simd_fft.cpp:14`. -/
abbrev Lanes (w : Nat) (T : Type) := Fin w → T

/-- `xsimd::broadcast(s)`. `extra/benchmark/src/simd_fft.cpp:50`. -/
def broadcast {T : Type} (w : Nat) (s : T) : Lanes w T := fun _ => s

/-- `simd_fft_plan`, `extra/benchmark/src/simd_fft.cpp:11-58`. -/
structure SimdFftPlan (w : Nat) where
  order : Nat
  reorder : List Nat
  twiddles : List (Lanes w ℂ)

/-- `simd_fft_plan::size()`, `simd_fft.cpp:25`. -/
def SimdFftPlan.size {w : Nat} (p : SimdFftPlan w) : Nat := fftSize p.order

/-- Constructor and `twiddle`, `simd_fft.cpp:17,44-57` (`max_order()` is not enforced; allocation
failure is not modelled). -/
noncomputable def SimdFftPlan.make (w order : Nat) : Res (SimdFftPlan w) := do
  let reorder ← bitrevMake (1 <<< order)
  let scalar := makeTwiddleLutRadix2 (fftSize order) .forward
  let tw ← forN scalar.length (fun i v => do
    let s ← rd scalar i
    wr v i (broadcast w s)) (vec scalar.length (fun _ => broadcast w 0))
  pure { order := order, reorder := reorder, twiddles := tw }

/-- `operator()`, `simd_fft.cpp:27-41`: the statement of the backward branch is commented out. -/
def SimdFftPlan.call {w : Nat} (kernel : List (Lanes w ℂ) → List (Lanes w ℂ) → Res (List (Lanes w ℂ)))
    (p : SimdFftPlan w) (x : List (Lanes w ℂ)) (dir : Direction) : Res (List (Lanes w ℂ)) := do
  check (x.length = p.size)
  let x ← bitrevApply p.reorder x
  if dir = .forward then kernel x p.twiddles else pure x

/-- `simd_split_fft_plan`, `extra/benchmark/src/simd_fft.cpp:60-195`. -/
structure SimdSplitPlan (w : Nat) where
  order : Nat
  reorder : List Nat
  twRe : List (Lanes w ℝ)
  twIm : List (Lanes w ℝ)

/-- `simd_split_fft_plan::size()`, `simd_fft.cpp:70`. -/
def SimdSplitPlan.size {w : Nat} (p : SimdSplitPlan w) : Nat := fftSize p.order

/-- Constructor and `twiddle`, `simd_fft.cpp:66,168-192`. -/
noncomputable def SimdSplitPlan.make (w order : Nat) : Res (SimdSplitPlan w) := do
  let reorder ← bitrevMake (1 <<< order)
  let interleaved := makeTwiddleLutRadix2 (fftSize order) .forward
  let n := interleaved.length
  let tw ← forN n (fun i (s : List (Lanes w ℝ) × List (Lanes w ℝ)) => do
    let z ← rd interleaved i
    let re ← wr s.1 i (broadcast w z.re)
    let im ← wr s.2 i (broadcast w z.im)
    pure (re, im)) (vec n (fun _ => broadcast w 0), vec n (fun _ => broadcast w 0))
  pure { order := order, reorder := reorder, twRe := tw.1, twIm := tw.2 }

/-- In-place `operator()`, `simd_fft.cpp:72-85`.  `stage_0` (`100-125`) and `stage_n` (`127-166`) are the
statements of `fallback_split_fft_plan` with batches for numbers. -/
def SimdSplitPlan.call {w : Nat} (p : SimdSplitPlan w) (x : List (Lanes w ℝ) × List (Lanes w ℝ))
    (dir : Direction) : Res (List (Lanes w ℝ) × List (Lanes w ℝ)) := do
  check (x.1.length = p.size)
  check (x.1.length = x.2.length)
  let x ← bitrevApplySplit p.reorder x
  if dir = .forward then splitStage0 p.order p.twRe p.twIm (x.1, x.2)
  else do
    let y ← splitStage0 p.order p.twRe p.twIm (x.2, x.1)
    pure (y.2, y.1)

/-- Out-of-place `operator()`, `simd_fft.cpp:88-97`. -/
def SimdSplitPlan.callOut {w : Nat} (p : SimdSplitPlan w) (input out : List (Lanes w ℝ) × List (Lanes w ℝ))
    (dir : Direction) : Res (List (Lanes w ℝ) × List (Lanes w ℝ)) := do
  check (input.1.length = p.size)
  check (input.1.length = input.2.length ∧ input.1.length = out.1.length
    ∧ input.1.length = out.2.length)
  let re ← copyVec input.1 out.1
  let im ← copyVec input.2 out.2
  p.call (re, im) dir

end Neo
