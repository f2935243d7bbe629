import Verif.Model.SparseRender
import Verif.Model.Loops

/-!
# Model: level statistics and images of the plugin

`extra/plugin/src/dsp/Spectrum.cpp` and `extra/plugin/src/ui/BenchmarkTab.cpp:59-78, 316-354, 526-551`.

Floats are reals, extended by the infinities as in `SparseRender`.  `juce::Image`, `juce::Graphics` and
`juce::roundToInt` are library code outside the repository: an image is the list of its pixels or filled
rectangles, `roundToInt` rounds to the nearest integer, halfway cases to even (the library adds
`1.5 · 2^52` to a double).
-/

namespace Neo

noncomputable section

open Classical

/-- `juce::roundToInt` (library). `extra/plugin/src/dsp/Spectrum.cpp:81,111`. -/
def roundToInt (x : ℝ) : ℤ :=
  if x - ⌊x⌋ < 1 / 2 then ⌊x⌋
  else if 1 / 2 < x - ⌊x⌋ then ⌊x⌋ + 1
  else if Even ⌊x⌋ then ⌊x⌋ else ⌊x⌋ + 1

/-- `std::clamp(v, lo, hi)` with finite limits. `extra/plugin/src/dsp/Spectrum.cpp:80`. -/
def clampE (v : EReal) (lo hi : ℝ) : ℝ :=
  if v < (lo : EReal) then lo else if (hi : EReal) < v then hi else v.toReal

/-- The lambda `scale`, `extra/plugin/src/dsp/Spectrum.cpp:19-28` and `60-69`; `none` is `1 / 0 = +∞`. -/
def spectrumScale (v : MatView) (data : List ℂ) : Res (Option ℝ) := do
  let m ← forUInt v.rows (fun frameIdx (m : ℝ) => forUInt v.cols (fun binIdx (m : ℝ) => do
    let z ← rd data (v.idx frameIdx binIdx)
    let bin := ‖z‖
    pure (max m (bin * bin))) m) 0
  pure (if m = 0 then none else some (1 / m))

/-- Weighted level of a bin, `Spectrum.cpp:32-34` and `77-79`, `BenchmarkTab.cpp:344-346`. -/
def weightedDb (bin : ℝ) (scale : Option ℝ) (weight : EReal) : EReal :=
  let power := bin * bin
  scaledDb power scale * ((0.5 : ℝ) : EReal) + weight

/-- Loop body of `powerHistogram`, `Spectrum.cpp:75-82`; the counters are `int`s. -/
def histogramStep (v : MatView) (data : List ℂ) (weighting : ℕ → Res EReal) (scale : Option ℝ)
    (frameIdx binIdx : ℕ) (histogram : List ℤ) : Res (List ℤ) := do
  let weight ← weighting binIdx
  let z ← rd data (v.idx frameIdx binIdx)
  let dB := weightedDb ‖z‖ scale weight
  let dBClamped := clampE dB (-143) 0
  let index := (roundToInt |dBClamped|).toNat
  let n ← rd histogram index
  if n + 1 < 2 ^ 31 then wr histogram index (n + 1) else .error .overflow

/-- `powerHistogram`, `Spectrum.cpp:54-87`. -/
def powerHistogram (v : MatView) (data : List ℂ) (weighting : ℕ → Res EReal) : Res (List ℤ) := do
  let scale ← spectrumScale v data
  forUInt v.rows (fun frameIdx h => forUInt v.cols (fun binIdx h =>
    histogramStep v data weighting scale frameIdx binIdx h) h) (List.replicate 144 0)

/-- A filled rectangle: left, top, width, height. `extra/plugin/src/dsp/Spectrum.cpp:111-118`. -/
structure Bar where
  x : ℤ
  y : ℤ
  w : ℤ
  h : ℤ
  deriving DecidableEq

/-- The white bars of `powerHistogramImage`, `Spectrum.cpp:89-114`.  Index of the first maximum among all
but the last entries, as `std::max_element` finds it; the test against `histogram.end()` never holds.
The red marks (`116-119`) are left out. -/
def powerHistogramBars (v : MatView) (data : List ℂ) (weighting : ℕ → Res EReal) : Res (List Bar) := do
  let histogram ← powerHistogram v data weighting
  let first ← rd histogram 0
  -- `std::max_element(begin, prev(end))`
  let maxBin ← forN (histogram.length - 1) (fun i (m : ℤ) => do
    let x ← rd histogram i
    pure (if m < x then x else m)) first
  forN (histogram.length - 1) (fun i (bars : List Bar) => do
    let x ← rd histogram i
    let q ← fdiv x maxBin
    let height := roundToInt (q * 250)
    pure (bars ++ [⟨i * 8, 250 - height, 8, height⟩])) []

/-- Colours of the spectrogram image. `extra/plugin/src/dsp/Spectrum.cpp:35`. -/
inductive Pixel where
  /-- the cleared image -/
  | clear
  | white
  | black
  deriving DecidableEq

/-- `img.setPixelAt(x, y, c)` on an image of the given size: pixels outside are ignored.
`extra/plugin/src/dsp/Spectrum.cpp:36`. -/
def setPixelAt (width height : ℕ) (img : List Pixel) (x y : ℤ) (c : Pixel) : List Pixel :=
  if 0 ≤ x ∧ x < width ∧ 0 ≤ y ∧ y < height then img.set (y.toNat * width + x.toNat) c else img

/-- The lambda `fillPixel`, `Spectrum.cpp:30-37`: the weighting is looked up at the row `y`. -/
def fillPixel (weighting : ℕ → Res EReal) (scale : Option ℝ) (threshold : ℝ) (width height : ℕ)
    (img : List Pixel) (x y : ℤ) (bin : ℝ) : Res (List Pixel) := do
  let weight ← weighting y.toNat
  let dB := weightedDb bin scale weight
  let color := if dB < (threshold : EReal) then Pixel.white else Pixel.black
  pure (setPixelAt width height img x y color)

/-- `powerSpectrumImage`, `Spectrum.cpp:13-52`, for extents that fit an `int`; the pixels are listed row by
row from the top. -/
def powerSpectrumImage (v : MatView) (data : List ℂ) (weighting : ℕ → Res EReal) (threshold : ℝ) :
    Res (List Pixel) := do
  let scale ← spectrumScale v data
  forInt v.rows (fun frameIdx img => forInt v.cols (fun binIdx img => do
    let z ← rd data (v.idx frameIdx binIdx)
    fillPixel weighting scale threshold v.rows v.cols img frameIdx ((v.cols : ℤ) - binIdx - 1) ‖z‖) img)
    (List.replicate (v.cols * v.rows) Pixel.clear)

/-- Constructor of `FrequencySpectrumWeighting`, `extra/plugin/src/ui/BenchmarkTab.cpp:61-68`. -/
def frequencyWeights (size : ℕ) (sr : ℝ) : Res (List EReal) :=
  forN size (fun i w => do
    let inv ← fdiv 1 sr
    let frequency ← rfftfreq size i inv
    wr w i (if frequency = 0 then 0 else aWeighting frequency)) (List.replicate size 0)

/-- The lambda `weighting` of `updateImages` and `runWeightingTests`, `BenchmarkTab.cpp:333-335` and
`532-534`.  (The `jassert` of the index is compiled out.) -/
def weightingOf (isWeighted : Bool) (weights : List EReal) (binIndex : ℕ) : Res EReal :=
  if isWeighted then rd weights binIndex else .ok 0

/-- The lambda `scale` of `runWeightingTests`, `BenchmarkTab.cpp:318-331`: over all channels. -/
def partitionsScale (channels frames bins : ℕ) (part : List ℂ) : Res (Option ℝ) := do
  let m ← forUInt channels (fun ch (m : ℝ) => forUInt frames (fun f (m : ℝ) =>
    forUInt bins (fun b (m : ℝ) => do
      let z ← rd part ((partitionView frames bins ch).idx f b)
      let bin := ‖z‖
      pure (max m (bin * bin))) m) m) 0
  pure (if m = 0 then none else some (1 / m))

/-- The counter of `runWeightingTests`, `BenchmarkTab.cpp:337-350`. -/
def weightingCount (channels frames bins : ℕ) (part : List ℂ) (weighting : ℕ → Res EReal) (threshold : ℝ) :
    Res ℤ := do
  let scale ← partitionsScale channels frames bins part
  forUInt frames (fun f n => forUInt bins (fun b n => do
    let weight ← weighting b
    forUInt channels (fun ch (n : ℤ) => do
      let z ← rd part ((partitionView frames bins ch).idx f b)
      let dB := weightedDb ‖z‖ scale weight
      let n' := n + if (threshold : EReal) < dB then 1 else 0
      if n' < 2 ^ 31 then .ok n' else .error .overflow) n) n) 0

/-- The percentage shown by `runWeightingTests`, `BenchmarkTab.cpp:352-354`. -/
def weightingPercentage (channels frames bins : ℕ) (part : List ℂ) (isWeighted : Bool) (sr threshold : ℝ) :
    Res ℝ := do
  let weights ← frequencyWeights 1024 sr
  let count ← weightingCount channels frames bins part (weightingOf isWeighted weights) threshold
  let q ← fdiv count ((channels * frames * bins : ℕ) : ℝ)
  pure (q * 100)

end

end Neo
