import Verif.Model.Upc
import Verif.Model.Stft
import Verif.Model.Stats
import Verif.Model.Fixed
import Verif.Model.Loops

/-!
# Model: whole-file convolution (`extra/cli/src/convolver.cpp`, `extra/plugin/src/dsp`)

The programs read a signal and an impulse response that are in memory already; reading and writing of
files and the final `normalize_peak` of the command-line tool are in `Model/Cli`; the timing output is not modelled.
-/

namespace Neo

/-- What the renderers use of their `Convolver` template parameter.
`extra/cli/src/convolver.cpp:25-58`. -/
structure ConvOps (S : Type) where
  /-- `Convolver{}` -/
  make : Res S
  /-- `filter(partition)` -/
  load : S → MatView → List ℂ → Res S
  /-- `operator()(block)` -/
  call : S → List ℝ → Res (S × List ℝ)

/-- `uniform_partitioned_convolver` as the `Convolver` parameter.
`src/neo/convolution/uniform_partitioned_convolver.hpp:14-65`. -/
def upcConvOps {Ov Fdl Row Filt Acc : Type} (oo : OverlapOps Ov) (fo : FdlOps Fdl Row)
    (po : FilterOps Filt Row Acc Unit) (f0 : Filt) : ConvOps (Upc Ov Fdl Filt Acc) where
  make := Upc.make oo fo po f0
  load := fun u v data => u.load oo fo po v data ()
  call := fun u b => u.call oo fo po b

/-- State of the loops: convolver, block buffer, output samples.
`extra/cli/src/convolver.cpp:34-55`. -/
structure CliState (S : Type) where
  conv : S
  block : List ℝ
  out : List ℝ

/-- Loop body of `convolve`, `extra/cli/src/convolver.cpp:43-54`; `v` is the common mapping of
signal and output. -/
def cliBlock {S : Type} (ops : ConvOps S) (v : MatView) (signal : List ℝ) (blockSize ch i : Nat)
    (s : CliState S) : Res (CliState S) := do
  let block ← fillVec s.block 0
  let rest ← i32.sub (i32.conv v.cols) i
  let num := min rest (blockSize : ℤ)
  -- the three `submdspan`s
  if num < 0 ∨ v.cols < i + num.toNat ∨ block.length < num.toNat then .error .oob else .ok ()
  let num := num.toNat
  let block ← forN num (fun k b => do
    let x ← rd signal (v.idx ch (i + k))
    wr b k x) block
  let (conv, block) ← ops.call s.conv block
  let out ← forN num (fun k out => do
    let x ← rd block k
    wr out (v.idx ch (i + k)) x) s.out
  pure { conv := conv, block := block, out := out }

/-- `convolve(signal, impulse, block_size)`, `extra/cli/src/convolver.cpp:25-58`.  `audio_buffer` is a
`layout_left` matrix (`extra/cli/src/wav.hpp:47`); `channels × size` is the shape of the signal,
`impChannels × impSize` that of the impulse. -/
noncomputable def cliConvolve {S : Type} (ops : ConvOps S) (channels size : Nat) (signal : List ℝ)
    (impChannels impSize : Nat) (impulse : List ℝ) (blockSize : Nat) : Res (List ℝ) := do
  let impulse ← normalizeImpulseMat true (MatView.left impChannels impSize) impulse
  let (frames, bins, part) ← uniformPartition (MatView.left impChannels impSize) impulse blockSize
  let v := MatView.left channels size
  let r ← forInt channels (fun ch (s : List ℝ × List ℝ) => do
    let conv ← ops.make
    if impChannels ≤ ch then .error .oob else .ok ()
    let conv ← ops.load conv (partitionView frames bins ch) part
    let r ← forIntStep blockSize size (cliBlock ops v signal blockSize ch) size 0
      { conv := conv, block := s.1, out := s.2 }
    pure (r.block, r.out)) (List.replicate blockSize 0, List.replicate (channels * size) 0)
  pure r.2

/-! ## Plugin -/

/-- `to_mdarray(buffer)`, `extra/plugin/src/dsp/AudioBuffer.hpp:22-38`.  A `juce::AudioBuffer` is the
list of its channels, all of length `size`; the result is a `layout_right` matrix. -/
def toMdarray (channels size : Nat) (buffer : List (List ℝ)) : Res (List ℝ) :=
  forN channels (fun ch out => forN size (fun i out => do
    let x ← rd buffer ch
    let x ← rd x i
    wr out ((MatView.right channels size).idx ch i) x) out) (List.replicate (channels * size) 0)

/-- State of the loops: convolvers, block buffer, output channels.
`extra/plugin/src/dsp/DenseConvolution.hpp:44-67`. -/
structure PluginState (S : Type) where
  convs : List S
  block : List ℝ
  out : List (List ℝ)

/-- Body of the inner loop of `dense_convolve`,
`extra/plugin/src/dsp/DenseConvolution.hpp:57-66`. -/
def pluginBlock {S : Type} (ops : ConvOps S) (size : Nat) (signal : List (List ℝ)) (blockSize i ch : Nat)
    (s : PluginState S) : Res (PluginState S) := do
  let input ← rd signal ch
  let out ← rd s.out ch
  let num := min (size - i) blockSize
  let block := s.block.map (fun _ => (0 : ℝ))
  let x ← rdSpan input i (i + num)
  let block ← wrSpan block 0 x
  let conv ← rd s.convs ch
  let (conv, block) ← ops.call conv block
  let convs ← wr s.convs ch conv
  let y ← rdSpan block 0 num
  let out ← wrSpan out i y
  let outs ← wr s.out ch out
  pure { convs := convs, block := block, out := outs }

/-- `dense_convolve(signal, filter, blockSize)`,
`extra/plugin/src/dsp/DenseConvolution.hpp:39-70`.  The vector of convolvers is built by copying one
default-constructed convolver. -/
noncomputable def denseConvolve {S : Type} (ops : ConvOps S) (channels size : Nat)
    (signal : List (List ℝ)) (impChannels impSize : Nat) (filter : List (List ℝ)) (blockSize : Nat) :
    Res (List (List ℝ)) := do
  let matrix ← toMdarray impChannels impSize filter
  let matrix ← normalizeImpulseMat false (MatView.right impChannels impSize) matrix
  let (frames, bins, part) ← uniformPartition (MatView.right impChannels impSize) matrix blockSize
  let fresh ← ops.make
  let convs ← forN channels (fun ch convs => do
    if impChannels ≤ ch then .error .oob else .ok ()
    let conv ← rd convs ch
    let conv ← ops.load conv (partitionView frames bins ch) part
    wr convs ch conv) (List.replicate channels fresh)
  let r ← forIntStep blockSize size (fun i s =>
    forInt channels (fun ch s => pluginBlock ops size signal blockSize i ch s) s) size 0
    { convs := convs, block := List.replicate blockSize 0,
      out := List.replicate channels (List.replicate size 0) }
  pure r.out

end Neo
