import Verif.Model.SparseRender

/-!
# Model: impulse analysis and sparse quality test of the plugin's benchmark tab

`extra/plugin/src/ui/BenchmarkTab.cpp`.  The audio buffers are in memory already; reading and resampling of
the files, the timing runs, the text output and the images (`Model/Spectrum`) are not part of this file.
Floats are reals.
-/

namespace Neo

noncomputable section

/-- `hann_window`, `src/neo/math/windowing.hpp:28-41`, for `size ≥ 2`. -/
def hannWindow (index size : ℕ) : ℝ :=
  0.5 * (1 - Real.cos (Real.pi * 2 * index / ((size - 1 : ℕ) : ℝ)))

/-- `stft(x, transform_size)`, `src/neo/fft/stft.hpp:43-49,120-125`; the default window is the Hann window
(`stft.hpp:36`). -/
def stftOfSize (v : MatView) (data : List ℝ) (transformSize : ℕ) : Res (ℕ × ℕ × List ℂ) :=
  stft v data {
    frameSize := transformSize
    transformSize := transformSize
    overlapSize := transformSize / 2
    window := hannWindow }

/-- What `setImpulseResponseFile` stores: `_spectrum` and `_partitions`, each with the numbers of frames and
bins.
`extra/plugin/src/ui/BenchmarkTab.hpp:88-89`; `extra/plugin/src/ui/BenchmarkTab.cpp:175-200`. -/
structure ImpulseAnalysis where
  spectrumFrames : ℕ
  spectrumBins : ℕ
  spectrum : List ℂ
  partitions : ℕ
  partitionBins : ℕ
  partition : List ℂ

/-- `setImpulseResponseFile`, `BenchmarkTab.cpp:184-194`; the impulse has `channels` channels of `size`
samples. -/
def analyseImpulse (channels size : ℕ) (buffer : List (List ℝ)) : Res ImpulseAnalysis := do
  let filterMatrix ← toMdarray channels size buffer
  let (spectrumFrames, spectrumBins, spectrum) ← stftOfSize (MatView.right channels size) filterMatrix 1024
  let impulse ← toMdarray channels size buffer
  let impulse ← normalizeImpulseMat false (MatView.right channels size) impulse
  -- `submdspan(impulse, full_extent, tuple{512, impulse.extent(1)})`
  if size < 512 then .error .oob else .ok ()
  let v : MatView := { rows := channels, cols := size - 512, off := 512, s0 := size, s1 := 1 }
  let (partitions, partitionBins, partition) ← uniformPartition v impulse 512
  pure {
    spectrumFrames := spectrumFrames
    spectrumBins := spectrumBins
    spectrum := spectrum
    partitions := partitions
    partitionBins := partitionBins
    partition := partition }

/-- `maxChannelRMSError`, `BenchmarkTab.cpp:80-92`.  The first two extents belong to `signal`, the next two
to `reconstructed`; the number of channels is `signal`'s.  (The `jassert` is compiled out.) -/
def maxChannelRmse (channels frames bins : ℕ) (signal : List ℂ) (frames' bins' : ℕ)
    (reconstructed : List ℂ) : Res ℝ :=
  forUInt channels (fun ch (rmse : ℝ) => do
    let e ← rmseMat (fun z : ℂ => ‖z‖) (partitionView frames bins ch) signal
      (partitionView frames' bins' ch) reconstructed
    pure (max rmse e)) 0

/-- The peak-normalised rendering and its spectrogram, `BenchmarkTab.cpp:475-492` and `496-510`: `to_mdarray`,
`normalize_peak`, `stft_plan`. -/
def renderSpectrogram (stftSize channels size : ℕ) (buffer : List (List ℝ)) : Res (ℕ × ℕ × List ℂ) := do
  let m ← toMdarray channels size buffer
  let m ← normalizePeakMat false (MatView.right channels size) m
  stft (MatView.right channels size) m {
    frameSize := stftSize
    transformSize := w64 (stftSize * 2)
    overlapSize := stftSize / 2
    window := hannWindow }

/-- `juce::jmap(i, 1, 180, 1, 90)`, `BenchmarkTab.cpp:517`
(`targetMin + (targetMax - targetMin) * (value - sourceMin) / (sourceMax - sourceMin)`). -/
def qualityRange (i : ℕ) : ℝ := 1 + (90 - 1) * ((i : ℝ) - 1) / (180 - 1)

/-- `runSparseQualityTests`, `BenchmarkTab.cpp:472-526`: the pairs (dynamic range, error) that it prints.  The
plan of the dense spectrogram is used once. -/
def sparseQuality (stftSize channels size : ℕ) (signal : List (List ℝ)) (impChannels impSize : ℕ)
    (impulse : List (List ℝ)) (sampleRate : ℝ) (binsToKeep : ℤ) : Res (List (ℝ × ℝ)) := do
  let dense ← denseConvolve (upcConvOps olsOps denseFdlOps denseFilterOps { rows := 0, cols := 0, data := [] })
    channels size signal impChannels impSize impulse 4096
  let (frames, bins, denseSpectrogram) ← renderSpectrogram stftSize channels size dense
  -- `for (auto i{180}; i > 0; --i)`
  forN 180 (fun j lines => do
    let range := qualityRange (180 - j)
    let sparse ← sparseConvolve channels size signal impChannels impSize impulse 4096 sampleRate (-range) binsToKeep
    let (frames', bins', sparseSpectrogram) ← renderSpectrogram stftSize channels size sparse
    let rmse ← maxChannelRmse channels frames bins denseSpectrogram frames' bins' sparseSpectrogram
    pure (lines ++ [(range, rmse)])) []

end

end Neo
