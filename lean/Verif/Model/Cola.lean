import Verif.Model.Loops
import Mathlib.Algebra.Module.Defs
import Mathlib.Algebra.Field.Defs

/-!
# Model: the plugin's frame buffer (`extra/plugin/src/dsp/ConstantOverlapAdd.hpp`)

All loops over channels do the same to every channel, so a *sample* here is the tuple of the channels'
samples at one time: an element of a vector space `M` over the scalar field `K` (`M = Fin channels → ℝ`
for the plugin).  `int` variables are integers; `m + bufferSize - 1 < 2 ^ 31` is assumed, which keeps all
of them in range.  `juce::AudioBuffer` is outside the repository: `setSize` leaves the samples
unspecified, accesses outside are undefined, and its debug-only `jassert`s are not modelled.
-/

namespace Neo

/-- `p[z]` for a signed index. `extra/plugin/src/dsp/ConstantOverlapAdd.hpp:111,158`. -/
def rdZ {α : Type} (xs : List α) (z : ℤ) : Res α := if 0 ≤ z then rd xs z.toNat else .error .oob

/-- `p[z] = a` for a signed index. `extra/plugin/src/dsp/ConstantOverlapAdd.hpp:118,146`. -/
def wrZ {α : Type} (xs : List α) (z : ℤ) (a : α) : Res (List α) :=
  if 0 ≤ z then wr xs z.toNat a else .error .oob

/-- `while (cond) body`; `fuel` bounds the number of iterations.
`extra/plugin/src/dsp/ConstantOverlapAdd.hpp:106,154`. -/
def whileFuel {σ : Type} (cond : σ → Bool) (body : σ → Res σ) : Nat → σ → Res σ
  | 0, s => if cond s then .error .diverge else .ok s
  | fuel + 1, s => if cond s then body s >>= whileFuel cond body fuel else .ok s

section
variable {σ K M : Type}

/-- `juce::FloatVectorOperations::multiply(dst + d, src + s, win + w, n)`.
`extra/plugin/src/dsp/ConstantOverlapAdd.hpp:109-122,156-161`. -/
def mulWin [SMul K M] (dst : List M) (d : ℤ) (src : List M) (s : ℤ) (win : List K) (w n : ℤ) :
    Res (List M) :=
  forN n.toNat (fun i dst => do
    let a ← rdZ src (s + i)
    let b ← rdZ win (w + i)
    wrZ dst (d + i) (b • a)) dst

/-- `std::copy_n(src + s, n, dst + d)` between different buffers.
`extra/plugin/src/dsp/ConstantOverlapAdd.hpp:143-147,174-178,194`. -/
def copyN (src : List M) (s n : ℤ) (dst : List M) (d : ℤ) : Res (List M) :=
  forN n.toNat (fun i dst => do
    let a ← rdZ src (s + i)
    wrZ dst (d + i) a) dst

/-- `std::copy_n(xs + s, n, xs + d)` inside one buffer, front to back.
`extra/plugin/src/dsp/ConstantOverlapAdd.hpp:138-142,195`. -/
def moveN (xs : List M) (s n d : ℤ) : Res (List M) :=
  forN n.toNat (fun i xs => do
    let a ← rdZ xs (s + i)
    wrZ xs (d + i) a) xs

/-- `dst.addFrom(ch, d, src, ch, s, n)`. `extra/plugin/src/dsp/ConstantOverlapAdd.hpp:216`. -/
def addFromN [Add M] (src : List M) (s n : ℤ) (dst : List M) (d : ℤ) : Res (List M) :=
  forN n.toNat (fun i dst => do
    let a ← rdZ src (s + i)
    let b ← rdZ dst (d + i)
    wrZ dst (d + i) (b + a)) dst

/-- The members of `ConstantOverlapAdd`, `extra/plugin/src/dsp/ConstantOverlapAdd.hpp:34-44`, with the state `proc` of the derived class. -/
structure Cola (σ K M : Type) where
  frame : List M
  unusedInput : List M
  output : List M
  window : List K
  frameSize : ℕ
  hopSize : ℕ
  outputOffset : ℤ
  unusedCount : ℤ
  proc : σ

/-- Constructor, `extra/plugin/src/dsp/ConstantOverlapAdd.hpp:47-51` (`1 << p` and `>> d` on `int`). -/
def Cola.make (p d : ℕ) (proc : σ) : Res (Cola σ K M) :=
  if p < 31 ∧ d < 32 then
    .ok { frame := [], unusedInput := [], output := [], window := [], frameSize := 2 ^ p,
          hopSize := 2 ^ p / 2 ^ d, outputOffset := 0, unusedCount := 0, proc := proc }
  else .error .overflow

/-- `createWindow`, `extra/plugin/src/dsp/ConstantOverlapAdd.hpp:201-210`: a rectangular window times `1 / (frameSize / hopSize / 2)`. -/
def colaWindow [Field K] (frameSize hopSize : ℕ) : Res (List K) :=
  if hopSize = 0 then .error .divZero
  else .ok (vec frameSize (fun _ => 1 * (1 / ((frameSize : K) / (hopSize : K) / 2))))

/-- `prepare`, `extra/plugin/src/dsp/ConstantOverlapAdd.hpp:53-72`.  `g₁ g₂ g₃` are the unspecified samples of the freshly sized buffers; the
floating-point expression for `k` is evaluated exactly; `prepareFrame` is not part of the class. -/
def Cola.prepare [Field K] (s : Cola σ K M) (g₁ g₂ g₃ : ℕ → M) (bufferSize : ℕ) :
    Res (Cola σ K M) := do
  let window ← colaWindow s.frameSize s.hopSize
  let k : ℤ := 1 + ((bufferSize : ℤ) - 1) / s.hopSize
  let m : ℤ := k * s.hopSize + (s.frameSize - s.hopSize)
  pure { s with
    window := window
    unusedInput := vec (s.frameSize - 1) g₁
    frame := vec s.frameSize g₂
    output := vec (m + bufferSize - 1).toNat g₃
    outputOffset := s.frameSize - 1
    unusedCount := 0 }

/-- `reset`, `extra/plugin/src/dsp/ConstantOverlapAdd.hpp:74-85` (`DenseConvolution::resetFrame` does nothing). -/
def Cola.reset [Zero M] (s : Cola σ K M) : Cola σ K M :=
  { s with
    unusedInput := s.unusedInput.map (fun _ => 0)
    frame := s.frame.map (fun _ => 0)
    output := s.output.map (fun _ => 0)
    outputOffset := s.frameSize - 1
    unusedCount := 0 }

/-- `writeBackFrame`, `extra/plugin/src/dsp/ConstantOverlapAdd.hpp:212-220`. -/
def Cola.writeBack [Add M] (s : Cola σ K M) : Res (Cola σ K M) := do
  let output ← addFromN s.frame 0 ((s.frameSize : ℤ) - s.hopSize) s.output s.outputOffset
  let output ← copyN s.frame ((s.frameSize : ℤ) - s.hopSize) s.hopSize output
    (s.outputOffset + s.frameSize - s.hopSize)
  pure { s with output := output, outputOffset := s.outputOffset + s.hopSize }

/-- `processFrame` on the frame, then `writeBackFrame`, `extra/plugin/src/dsp/ConstantOverlapAdd.hpp:127-129,164-166`. -/
def Cola.doFrame [Add M] (proc : σ → List M → Res (σ × List M)) (s : Cola σ K M) :
    Res (Cola σ K M) := do
  let (ps, frame) ← proc s.proc s.frame
  Cola.writeBack { s with proc := ps, frame := frame }

/-- Body of the first loop, `extra/plugin/src/dsp/ConstantOverlapAdd.hpp:105-133`; the second component is `notYetUsedAudioDataOffset`. -/
def Cola.leftover [Add M] [SMul K M] (proc : σ → List M → Res (σ × List M)) (inp : List M)
    (p : Cola σ K M × ℤ) : Res (Cola σ K M × ℤ) := do
  let s := p.1
  let frame ← mulWin s.frame 0 s.unusedInput p.2 s.window 0 s.unusedCount
  let frame ← mulWin frame s.unusedCount inp 0 s.window s.unusedCount (s.frameSize - s.unusedCount)
  let s ← Cola.doFrame proc { s with frame := frame }
  pure ({ s with unusedCount := s.unusedCount - s.hopSize }, p.2 + s.hopSize)

/-- Body of the second loop, `extra/plugin/src/dsp/ConstantOverlapAdd.hpp:154-169`; the second component is `dataOffset`. -/
def Cola.whole [Add M] [SMul K M] (proc : σ → List M → Res (σ × List M)) (inp : List M)
    (p : Cola σ K M × ℤ) : Res (Cola σ K M × ℤ) := do
  let s := p.1
  let frame ← mulWin s.frame 0 inp p.2 s.window 0 s.frameSize
  let s ← Cola.doFrame proc { s with frame := frame }
  pure (s, p.2 + s.hopSize)

/-- The branch after the first loop, `extra/plugin/src/dsp/ConstantOverlapAdd.hpp:135-182`. -/
def Cola.rest [Add M] [SMul K M] (proc : σ → List M → Res (σ × List M)) (inp : List M)
    (initialUnused : ℤ) (s : Cola σ K M) : Res (Cola σ K M) :=
  if 0 < s.unusedCount then do
    let u ← moveN s.unusedInput (initialUnused - s.unusedCount) s.unusedCount 0
    let u ← copyN inp 0 inp.length u s.unusedCount
    pure { s with unusedInput := u, unusedCount := s.unusedCount + inp.length }
  else do
    let p ← whileFuel (fun p : Cola σ K M × ℤ => decide ((s.frameSize : ℤ) ≤ inp.length - p.2))
      (Cola.whole proc inp) (inp.length + 1) (s, -s.unusedCount)
    let remaining : ℤ := inp.length - p.2
    let u ← copyN inp p.2 remaining p.1.unusedInput 0
    pure { p.1 with unusedInput := u, unusedCount := remaining }

/-- Returning the processed samples, `extra/plugin/src/dsp/ConstantOverlapAdd.hpp:184-198`. -/
def Cola.emit (l : ℤ) (s : Cola σ K M) : Res (Cola σ K M × List M) := do
  let shiftL : ℤ := s.outputOffset + s.frameSize - s.hopSize - l
  let tooMuch : ℤ := l + shiftL - s.output.length
  let shiftL : ℤ := if tooMuch > 0 then shiftL - tooMuch else shiftL
  -- `copy_n(_output, l, out)`: `out` is overwritten completely
  let out ← forN l.toNat (fun i out => do
    let a ← rdZ s.output i
    pure (out ++ [a])) []
  let output ← moveN s.output l shiftL 0
  pure ({ s with output := output, outputOffset := s.outputOffset - l }, out)

/-- `process`, `extra/plugin/src/dsp/ConstantOverlapAdd.hpp:87-199`: the block `inp` in, the output block out.  In the replacing context the
two are the same memory, but the output is written only after the last use of the input. -/
def Cola.process [Add M] [SMul K M] (proc : σ → List M → Res (σ × List M)) (s : Cola σ K M)
    (inp : List M) : Res (Cola σ K M × List M) := do
  let p ← whileFuel
    (fun p : Cola σ K M × ℤ =>
      decide (0 < p.1.unusedCount ∧ (p.1.frameSize : ℤ) ≤ p.1.unusedCount + inp.length))
    (Cola.leftover proc inp) (s.unusedCount.toNat + 1) (s, 0)
  let s ← Cola.rest proc inp s.unusedCount p.1
  Cola.emit inp.length s

/-- The host calling `process` once for every block of the stream.
`extra/plugin/src/PluginProcessor.cpp:76-86`. -/
def Cola.stream [Add M] [SMul K M] (proc : σ → List M → Res (σ × List M)) :
    Cola σ K M → List (List M) → Res (Cola σ K M × List (List M))
  | s, [] => .ok (s, [])
  | s, b :: bs => do
    let (s, o) ← s.process proc b
    let (s, os) ← Cola.stream proc s bs
    pure (s, o :: os)

end
end Neo
