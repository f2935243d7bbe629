import Verif.Model.Render

/-!
# Model: the program `neo_convolver` (`extra/cli/src/convolver.cpp`, `extra/cli/src/wav.hpp`)

The `dr_wav` library is not part of the repository.  A WAV file is what the library's decoder gives out: the fields
of the header and the interleaved samples that are really there.  Messages and timing are not modelled.
-/

namespace Neo

/-- A WAV file; `frames` is the number of frames its header announces.
`extra/cli/src/wav.hpp:53-60`. -/
structure WavFile where
  channels : Nat
  frames : Nat
  rate : Nat
  samples : List ℝ

/-- The files the program sees.  `none` is a file that is missing or that the decoder rejects.
`extra/cli/src/wav.hpp:54`; `extra/cli/src/convolver.cpp:69-70,107`. -/
structure Disk where
  files : String → Option WavFile
  writable : String → Bool

/-- `std::pair<audio_buffer<float>, double>`; the buffer is a `layout_left` matrix.
`extra/cli/src/wav.hpp:46-50`. -/
structure LoadedWav where
  channels : Nat
  frames : Nat
  data : List ℝ
  rate : ℝ

/-- The value-initialised pair `{}`. `extra/cli/src/wav.hpp:56,64`. -/
def LoadedWav.none : LoadedWav := { channels := 0, frames := 0, data := [], rate := 0 }

/-- `load_wav_file<float>(path)`, `extra/cli/src/wav.hpp:49-86`.  `drwav_read_pcm_frames_f32` returns the
number of whole frames it found, at most the number asked for. -/
def loadWav (disk : Disk) (path : String) : LoadedWav :=
  match disk.files path with
  | .none => LoadedWav.none
  | some w =>
    let read := min w.frames (w.samples.length / w.channels)
    if read ≠ w.frames then LoadedWav.none
    else { channels := w.channels, frames := w.frames, data := w.samples.take (w.channels * w.frames), rate := w.rate }

/-- `write_wav_file(buffer, sampleRate, path)`, `extra/cli/src/wav.hpp:89-104`.  The sample rate comes from
a file and is a `uint32`.  The return value of `drwav_init_file_write` is
ignored; the calls on a handle that is not open are taken to have no effect. -/
noncomputable def writeWav (disk : Disk) (path : String) (channels frames : Nat) (data : List ℝ) (rate : ℝ) : Disk :=
  if disk.writable path then
    let w : WavFile := { channels := channels, frames := frames, rate := ⌊rate⌋₊, samples := data }
    { disk with files := Function.update disk.files path (some w) }
  else disk

/-- A `Convolver` template argument. `extra/cli/src/convolver.cpp:25,38,102,117`. -/
structure AnyConv where
  State : Type
  ops : ConvOps State

/-- One of the blocks of `main`, `extra/cli/src/convolver.cpp:100-113,115-128,131-144`. -/
noncomputable def cliRender (k : AnyConv) (signal filter : LoadedWav) (path : String) (disk : Disk) : Res Disk := do
  let out ← cliConvolve k.ops signal.channels signal.frames signal.data filter.channels filter.frames filter.data
    (8192 * 4)
  let out ← normalizePeakMat true (MatView.left signal.channels signal.frames) out
  pure (writeWav disk path signal.channels signal.frames out signal.rate)

/-- The blocks one after the other. `extra/cli/src/convolver.cpp:100-144`. -/
noncomputable def cliRenderAll (signal filter : LoadedWav) (path : String) : List AnyConv → Disk → Res Disk
  | [], disk => .ok disk
  | k :: ks, disk => do
    let disk ← cliRender k signal filter path disk
    cliRenderAll signal filter path ks disk

open Classical in
/-- `main(argc, argv)`, `extra/cli/src/convolver.cpp:61-148`: exit status and the files afterwards.  `args` includes the
name of the program; `variants` are the convolvers compiled in. -/
noncomputable def cliMain (variants : List AnyConv) (args : List String) (disk : Disk) : Res (Nat × Disk) :=
  match args with
  | [_, signalPath, filterPath, outputPath] =>
    let signal := loadWav disk signalPath
    let filter := loadWav disk filterPath
    if signal.channels ≠ filter.channels then .ok (1, disk)
    else if ¬ (signal.rate = filter.rate) then .ok (1, disk)
    else do
      let disk ← cliRenderAll signal filter outputPath variants disk
      pure (0, disk)
  | _ => .ok (1, disk)

end Neo
