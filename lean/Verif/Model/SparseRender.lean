import Verif.Model.Render
import Verif.Model.Units
import Verif.Model.Bits
import Mathlib.Data.EReal.Operations

/-!
# Model: `sparse_convolve` of the plugin

`extra/plugin/src/dsp/DenseConvolution.cpp:110-186` and `src/neo/math/a_weighting.hpp`.

Floats are reals.  Two places of this function meet infinities in ordinary use and are modelled with
the values IEEE arithmetic gives there: `log10(0) = -∞` in the weight of bin 0 (weights are extended
reals) and `1 / 0 = +∞` in the normalisation factor of a silent channel.
-/

namespace Neo

noncomputable section

open Classical

/-- `std::log10` for a non-negative argument.
`src/neo/math/a_weighting.hpp:27-32`; `src/neo/unit/decibel.hpp:21`. -/
def log10F (x : ℝ) : EReal := if x = 0 then ⊥ else ((Real.logb 10 x : ℝ) : EReal)

/-- `a_weighting`, `src/neo/math/a_weighting.hpp:14-34`. -/
def aWeighting (frequency : ℝ) : EReal :=
  let c0 : ℝ := 12194.217 * 12194.217
  let c1 : ℝ := 20.598997 * 20.598997
  let c2 : ℝ := 107.65265 * 107.65265
  let c3 : ℝ := 737.86223 * 737.86223
  let fsq := frequency * frequency
  ((2 : ℝ) : EReal) + ((20 : ℝ) : EReal) * (
      log10F c0
    + ((2 : ℝ) : EReal) * log10F fsq
    - log10F (fsq + c0)
    - log10F (fsq + c1)
    - ((0.5 : ℝ) : EReal) * log10F (fsq + c2)
    - ((0.5 : ℝ) : EReal) * log10F (fsq + c3))

/-- `normalization_factor`, `extra/plugin/src/dsp/DenseConvolution.cpp:110-122`; `none` is `1 / 0 = +∞`. -/
def normalizationFactor (v : MatView) (data : List ℂ) : Res (Option ℝ) := do
  let maxPower ← forN v.rows (fun p (maxPower : ℝ) => forN v.cols (fun bin (maxPower : ℝ) => do
    let z ← rd data (v.idx p bin)
    let amplitude := ‖z‖
    pure (max maxPower (amplitude * amplitude))) maxPower) 0
  pure (if maxPower = 0 then none else some (1 / maxPower))

/-- `amplitude_to_db(power * scale)` with its default floor (`src/neo/unit/decibel.hpp:14-31`).  With
`scale = +∞` the product is NaN for a zero power: it is not `<= 0`, and `std::max(-144, NaN)` returns
its first argument; it is `+∞` for a positive power. -/
def scaledDb (power : ℝ) : Option ℝ → EReal
  | some scale => ((amplitudeToDbDefault (power * scale) : ℝ) : EReal)
  | none => if power = 0 then ((-144 : ℝ) : EReal) else ⊤

/-- The lambda `weights`, `DenseConvolution.cpp:141-154`; `lowBinsToKeep` is an `int`.  (The `jassert` is
compiled out.) -/
def sparseWeights (K bins : ℕ) (lowBinsToKeep : ℤ) (sampleRate : ℝ) : Res (List EReal) := do
  -- `std::fill(w.begin(), std::next(w.begin(), lowBinsToKeep), 100)`
  if lowBinsToKeep < 0 ∨ (bins : ℤ) < lowBinsToKeep then .error .oob else .ok ()
  let low := lowBinsToKeep.toNat
  let w := vec bins (fun i => if i < low then ((100 : ℝ) : EReal) else 0)
  forN (bins - low) (fun m w => do
    let i := low + m
    let inv ← fdiv 1 sampleRate
    let frequency ← rfftfreq K i inv
    wr w i (aWeighting frequency)) w

/-- The lambda `isAboveThreshold`, `DenseConvolution.cpp:164-169`; `col` is below the number of bins,
which is the length of `weights`. -/
def isAboveThreshold (threshold : ℝ) (scale : Option ℝ) (weights : List EReal) (_row col : ℕ) (bin : ℂ) :
    Bool :=
  let gain := ‖bin‖
  let power := gain * gain
  let dB := scaledDb power scale * ((0.5 : ℝ) : EReal) + weights.getD col 0
  decide (((threshold : ℝ) : EReal) < dB)

/-- `sparse_upola_convolver` with a sparsity predicate as the convolver of a renderer,
`src/neo/convolution/sparse_convolver.hpp:21-22`. -/
def sparseOps (p : ℕ → ℕ → ℂ → Bool) : ConvOps (Upc OverlapAdd (Arr2 ℂ) (Csr ℂ) (List ℂ)) where
  make := Upc.make olaOps denseFdlOps sparseFilterOps (Csr.empty 0 0)
  load := fun u v data => u.load olaOps denseFdlOps sparseFilterOps v data p
  call := fun u b => u.call olaOps denseFdlOps sparseFilterOps b

/-- Body of the block loop, `DenseConvolution.cpp:176-182`; the state is convolver, block and output
channel. -/
def sparseBlock {S : Type} (ops : ConvOps S) (size : ℕ) (input : List ℝ) (blockSize i : ℕ)
    (s : CliState S) : Res (CliState S) := do
  let num := min (size - i) blockSize
  let block := s.block.map (fun _ => (0 : ℝ))
  let x ← rdSpan input i (i + num)
  let block ← wrSpan block 0 x
  let (conv, block) ← ops.call s.conv block
  let y ← rdSpan block 0 num
  let out ← wrSpan s.out i y
  pure { conv := conv, block := block, out := out }

/-- `sparse_convolve`, `DenseConvolution.cpp:124-186`.  `signal` has `channels` channels of `size`
samples, `filter` has `impChannels` of `impSize` samples. -/
def sparseConvolve (channels size : ℕ) (signal : List (List ℝ)) (impChannels impSize : ℕ)
    (filter : List (List ℝ)) (blockSize : ℕ) (sampleRate threshold : ℝ) (lowBinsToKeep : ℤ) :
    Res (List (List ℝ)) := do
  let matrix ← toMdarray impChannels impSize filter
  let matrix ← normalizeImpulseMat false (MatView.right impChannels impSize) matrix
  let (frames, bins, part) ← uniformPartition (MatView.right impChannels impSize) matrix blockSize
  let K := bitCeil ((bins - 1) * 2)
  let weights ← sparseWeights K bins lowBinsToKeep sampleRate
  let r ← forInt channels (fun ch (s : List ℝ × List (List ℝ)) => do
    -- `submdspan(partitions, channel, full, full)`
    if impChannels ≤ ch then .error .oob else .ok ()
    let v := partitionView frames bins ch
    let scale ← normalizationFactor v part
    let ops := sparseOps (isAboveThreshold threshold scale weights)
    let conv ← ops.make
    let conv ← ops.load conv v part
    let input ← rd signal ch
    let out ← rd s.2 ch
    let r ← forIntStep blockSize size (sparseBlock ops size input blockSize) size 0
      { conv := conv, block := s.1, out := out }
    let outs ← wr s.2 ch r.out
    pure (r.block, outs))
    (List.replicate blockSize 0, List.replicate channels (List.replicate size 0))
  pure r.2

end

end Neo
