import Verif.Model.Render

/-!
# Model: the plugin's `neo::Convolution` and `processBlocks`

`extra/plugin/src/dsp/Convolution.hpp`, `extra/plugin/src/dsp/AudioBuffer.hpp:40-68` and
`ProcessChainConvolver` of `extra/plugin/src/ui/BenchmarkTab.cpp:31-57`.  Reading of files and JUCE's resampler are outside
the model: a file is the buffer and the rate `load` returns, the resampler an arbitrary function.  A `juce::AudioBuffer`
is the list of its channels.  `jassert` does nothing in release builds and is left out.
-/

namespace Neo

/-- `BufferWithSampleRate<float>`, `extra/plugin/src/dsp/AudioBuffer.hpp:12-17`; `channels` and `size` are
`getNumChannels()` and `getNumSamples()`. -/
structure RateBuffer where
  channels : ℕ
  size : ℕ
  buffer : List (List ℝ)
  sampleRate : ℝ

/-- `juce::dsp::ProcessSpec`.
`extra/plugin/src/dsp/Convolution.hpp:22-24`; `extra/plugin/src/dsp/AudioBuffer.hpp:52-56`. -/
structure ProcSpec where
  sampleRate : ℝ
  maximumBlockSize : ℕ
  numChannels : ℕ

open Classical in
/-- `resample(buf, destSampleRate)`, `extra/plugin/src/dsp/AudioBuffer.cpp:11-37`; `juceResample` stands for lines 17-36. -/
noncomputable def resampleTo (juceResample : RateBuffer → ℝ → RateBuffer) (buf : RateBuffer) (rate : ℝ) : RateBuffer :=
  if buf.sampleRate = rate then buf else juceResample buf rate

/-- Members of `neo::Convolution`, `extra/plugin/src/dsp/Convolution.hpp:106-113`.  `_filter` is left out: it only
stores what `filter()` copies into the convolvers. -/
structure PConv (S : Type) where
  spec : Option ProcSpec
  impulse : Option RateBuffer
  convs : List S

/-- A new object. `extra/plugin/src/dsp/Convolution.hpp:20,108-112`. -/
def PConv.make {S : Type} : PConv S := { spec := none, impulse := none, convs := [] }

/-- `_convolvers.resize(n)`: new elements are default-constructed.
`extra/plugin/src/dsp/Convolution.hpp:98`. -/
def resizeConvs {S : Type} (fresh : S) (n : ℕ) (convs : List S) : List S :=
  convs.take n ++ List.replicate (n - convs.length) fresh

/-- `update()`, `extra/plugin/src/dsp/Convolution.hpp:84-104`. -/
noncomputable def PConv.update {S : Type} (ops : ConvOps S) (rs : RateBuffer → ℝ → RateBuffer) (s : PConv S) :
    Res (PConv S) :=
  match s.spec, s.impulse with
  | some spec, some impulse => do
    let r := resampleTo rs impulse spec.sampleRate
    let array ← toMdarray r.channels r.size r.buffer
    let (frames, bins, part) ← uniformPartition (MatView.right r.channels r.size) array spec.maximumBlockSize
    let fresh ← ops.make
    let convs ← forN spec.numChannels (fun ch convs => do
      if r.channels ≤ ch then .error .oob else .ok ()
      let conv ← rd convs ch
      let conv ← ops.load conv (partitionView frames bins ch) part
      wr convs ch conv) (resizeConvs fresh spec.numChannels s.convs)
    pure { s with convs := convs }
  | _, _ => .ok s

/-- `prepare(spec)`, `extra/plugin/src/dsp/Convolution.hpp:22-29`. -/
noncomputable def PConv.prepare {S : Type} (ops : ConvOps S) (rs : RateBuffer → ℝ → RateBuffer) (s : PConv S)
    (spec : ProcSpec) : Res (PConv S) :=
  let s := { s with spec := some spec }
  if s.impulse.isSome then s.update ops rs else .ok s

/-- `reset()`, `extra/plugin/src/dsp/Convolution.hpp:31-35`. -/
def PConv.reset {S : Type} (s : PConv S) : PConv S := { s with convs := [] }

open Classical in
/-- `loadImpulseResponse(file, …)`, `extra/plugin/src/dsp/Convolution.hpp:66-81`. -/
noncomputable def PConv.load {S : Type} (ops : ConvOps S) (rs : RateBuffer → ℝ → RateBuffer) (s : PConv S)
    (file : RateBuffer) : Res (PConv S) :=
  let s := if 0 < file.sampleRate then { s with impulse := some file } else s
  s.update ops rs

/-- `process(context)` with separate input and output blocks, `extra/plugin/src/dsp/Convolution.hpp:37-64`.  `input` has
`channels` channels of `num` samples; the result is the content of the output block. -/
def PConv.process {S : Type} (ops : ConvOps S) (s : PConv S) (channels num : ℕ) (input : List (List ℝ)) :
    Res (PConv S × List (List ℝ)) :=
  -- output.copyFrom(input)
  let output := input
  match s.spec with
  | none => .ok (s, output)
  | some spec =>
    if s.convs.isEmpty then .ok (s, output)
    else if num ≠ spec.maximumBlockSize then .ok (s, output)
    else do
      let (convs, output) ← forN channels (fun ch p => do
        let conv ← rd p.1 ch
        let io ← rd p.2 ch
        let (conv, io) ← ops.call conv io
        let convs ← wr p.1 ch conv
        let out ← wr p.2 ch io
        pure (convs, out)) (s.convs, output)
      pure ({ s with convs := convs }, output)

/-- `for (std::size_t i{0}; i < n; i += step)`.  The counter wraps at `2 ^ 64`; the fuel bounds the number of iterations
(`n` suffices for `step ≥ 1` when nothing wraps). `extra/plugin/src/dsp/AudioBuffer.hpp:58`. -/
def forSizeStep {σ : Type} (step n : ℕ) (body : ℕ → σ → Res σ) : ℕ → ℕ → σ → Res σ
  | 0, i, s => if i < n then .error .diverge else .ok s
  | fuel + 1, i, s =>
    if i < n then do
      let s ← body i s
      forSizeStep step n body fuel ((i + step) % 2 ^ 64) s
    else .ok s

/-- Loop body of `processBlocks`, `extra/plugin/src/dsp/AudioBuffer.hpp:59-64`. -/
def processBlock {S : Type} (ops : ConvOps S) (channels size : ℕ) (signal : List (List ℝ)) (blockSize i : ℕ)
    (p : PConv S × List (List ℝ)) : Res (PConv S × List (List ℝ)) := do
  let num := min (size - i) blockSize
  let input ← forN channels (fun ch acc => do
    let x ← rd signal ch
    let x ← rdSpan x i (i + num)
    pure (acc ++ [x])) []
  let (s, output) ← p.1.process ops channels num input
  let out ← forN channels (fun ch out => do
    let y ← rd output ch
    let o ← rd out ch
    let o ← wrSpan o i y
    wr out ch o) p.2
  pure (s, out)

/-- `processBlocks(processor, input, output, blockSize, sampleRate)`,
`extra/plugin/src/dsp/AudioBuffer.hpp:40-68`, for a `ProcessChainConvolver<neo::Convolution>`: its `prepare` loads the impulse
file and then calls `prepare` of the convolver (`extra/plugin/src/ui/BenchmarkTab.cpp:36-44`).  `signal` has `channels`
channels of `size` samples; the result is the processor and the output buffer. -/
noncomputable def processBlocks {S : Type} (ops : ConvOps S) (rs : RateBuffer → ℝ → RateBuffer) (s : PConv S)
    (file : RateBuffer) (channels size : ℕ) (signal : List (List ℝ)) (blockSize : ℕ) (sampleRate : ℝ) :
    Res (PConv S × List (List ℝ)) := do
  let s ← s.load ops rs file
  let s ← s.prepare ops rs
    { sampleRate := sampleRate, maximumBlockSize := blockSize % 2 ^ 32, numChannels := channels % 2 ^ 32 }
  let (s, out) ← forSizeStep blockSize size (processBlock ops channels size signal blockSize) size 0
    (s, List.replicate channels (List.replicate size 0))
  pure (s.reset, out)

end Neo
