import Verif.Model.DensePlugin
import Mathlib.Data.Real.Basic

/-!
# Model: the plugin around the convolution

`extra/plugin/src/PerceptualConvolution.cpp` and the audio part of `extra/plugin/src/PluginProcessor.cpp`.
A sample is the tuple of the channels' samples at one time, as in `Verif.Model.DensePlugin`.

`juce::dsp::DryWetMixer` is outside the repository.  Its contract here: `pushDrySamples` remembers the block,
`mixWetSamples` replaces every sample of the block by `wet gain * wet + dry gain * dry`, without delaying the dry
samples because no wet latency is ever set (the call is commented out, line 26).  The gains of the samples of
a block are arbitrary, so the smoothing of parameter changes inside the mixer is covered; in the steady state
the mixing rule `balanced` makes them `2 * min (1 / 2) wet` and `2 * min (1 / 2) (1 - wet)`.
-/

namespace Neo

/-- The parameters during one block: `_inGain`, `_outGain`, and the gains which the mixer uses for the samples of
the block. `extra/plugin/src/PerceptualConvolution.cpp:10-12,33,40-41,44`. -/
structure Knobs where
  inGain : ℝ
  outGain : ℝ
  dryGain : ℕ → ℝ
  wetGain : ℕ → ℝ

/-- `juce::dsp::DryWetMixer::mixWetSamples`.
`extra/plugin/src/PerceptualConvolution.cpp:36,40-41`. -/
def mixWet (q : Knobs) (dry wet : List (ℕ → ℝ)) : Res (List (ℕ → ℝ)) :=
  forN wet.length (fun i out => do
    let w ← rd wet i
    let d ← rd dry i
    pure (out ++ [q.wetGain i • w + q.dryGain i • d])) []

/-- `PerceptualConvolution::process`, `extra/plugin/src/PerceptualConvolution.cpp:29-45`; `none` is the null `_convolution` before `prepare`. -/
def chainProcess {σ : Type} (proc : σ → List (ℕ → ℝ) → Res (σ × List (ℕ → ℝ)))
    (s : Option (Cola σ ℝ (ℕ → ℝ))) (q : Knobs) (block : List (ℕ → ℝ)) :
    Res (Option (Cola σ ℝ (ℕ → ℝ)) × List (ℕ → ℝ)) := do
  let block := block.map (fun a => q.inGain • a)
  match s with
  | none => pure (none, block.map (fun a => q.outGain • a))
  | some conv => do
    let (conv, wet) ← conv.process proc block
    let block ← mixWet q block wet
    pure (some conv, block.map (fun a => q.outGain • a))

/-- `PerceptualConvolution::reset`, `extra/plugin/src/PerceptualConvolution.cpp:47-52`, as called by
`PluginProcessor::releaseResources`, `extra/plugin/src/PluginProcessor.cpp:60`. -/
def chainReset {σ : Type} (s : Option (Cola σ ℝ (ℕ → ℝ))) : Option (Cola σ ℝ (ℕ → ℝ)) :=
  s.map Cola.reset

/-- The channel sets as `isBusesLayoutSupported` tells them apart: `other n` has `n` channels.
`extra/plugin/src/PluginProcessor.cpp:64-69`. -/
inductive ChannelSet where
  | mono
  | stereo
  | other (n : ℕ)
deriving DecidableEq

/-- `juce::AudioChannelSet::size`. `extra/plugin/src/PluginProcessor.cpp:52`. -/
def ChannelSet.size : ChannelSet → ℕ
  | mono => 1
  | stereo => 2
  | other n => n

/-- `PluginProcessor::isBusesLayoutSupported`, `extra/plugin/src/PluginProcessor.cpp:62-74`. -/
def layoutSupported (input output : ChannelSet) : Bool :=
  if output ≠ .mono ∧ output ≠ .stereo then false
  else if output ≠ input then false
  else true

/-- `PluginProcessor::processBlock`, `extra/plugin/src/PluginProcessor.cpp:76-86`: output channels without an input channel are cleared first. -/
def hostBlock {σ : Type} (proc : σ → List (ℕ → ℝ) → Res (σ × List (ℕ → ℝ))) (input output : ChannelSet)
    (s : Option (Cola σ ℝ (ℕ → ℝ))) (q : Knobs) (buffer : List (ℕ → ℝ)) :
    Res (Option (Cola σ ℝ (ℕ → ℝ)) × List (ℕ → ℝ)) :=
  let buffer := buffer.map (fun a c => if input.size ≤ c ∧ c < output.size then 0 else a c)
  chainProcess proc s q buffer

/-- The host calling `processBlock` for every block of the stream.
`extra/plugin/src/PluginProcessor.cpp:76-86`. -/
def hostStream {σ : Type} (proc : σ → List (ℕ → ℝ) → Res (σ × List (ℕ → ℝ))) (input output : ChannelSet) :
    Option (Cola σ ℝ (ℕ → ℝ)) → List (Knobs × List (ℕ → ℝ)) →
    Res (Option (Cola σ ℝ (ℕ → ℝ)) × List (List (ℕ → ℝ)))
  | s, [] => .ok (s, [])
  | s, (q, b) :: bs => do
    let (s, o) ← hostBlock proc input output s q b
    let (s, os) ← hostStream proc input output s bs
    pure (s, o :: os)

/-- `PerceptualConvolution::prepare`, `extra/plugin/src/PerceptualConvolution.cpp:15-27`, as called by `PluginProcessor::prepareToPlay`, `extra/plugin/src/PluginProcessor.cpp:47-58`, with
`getMainBusNumOutputChannels` channels: a new `DenseConvolution`; the impulse response file has an absolute path
on the author's machine, `impulse` is `none` where it does not exist or cannot be read (then
`loadImpulseResponse` returns without storing anything; its `jassert` on the stream is not modelled).  The
channels, length and samples of the impulse response are those after resampling. -/
noncomputable def chainPrepare {S : Type} (fb : Bool) (ops : ConvOps S) (output : ChannelSet) (blockSize : ℕ)
    (impulse : Option (ℕ × ℕ × List (List ℝ))) (g₁ g₂ g₃ : ℕ → ℕ → ℝ) :
    Res (Option (Cola (List S) ℝ (ℕ → ℝ))) := do
  match impulse with
  | some (impChannels, impSize, filter) => do
    let s ← densePrepare fb ops output.size impChannels impSize filter blockSize g₁ g₂ g₃
    pure (some s)
  | none => do
    let s ← densePrepareNone fb ops output.size blockSize g₁ g₂ g₃
    pure (some s)

end Neo
