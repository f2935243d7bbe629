import Verif.Model.StatsIeee
import Verif.Model.AnyPartition
import Verif.Model.Upc

/-!
# Model: rendering one channel in IEEE 754 arithmetic

The program of `extra/cli/src/convolver.cpp` on floating-point numbers.  The copies between signal, block and output with
their index arithmetic are those of `Model/Render.lean` (C57, C86); here a channel of the signal is a list of samples.
-/

namespace Neo

open Spec

noncomputable section

variable {f : Fmt} {C : Type} [Add C] [Sub C] [Mul C] [Zero C]

/-- The blocks of a channel, the last one filled up with zeros, `extra/cli/src/convolver.cpp:43-49`. -/
def blocksI (blockSize : Nat) (signal : List (IR f)) : List (List (IR f)) :=
  vec ((signal.length + blockSize - 1) / blockSize) fun t =>
    vec blockSize fun j => signal.getD (t * blockSize + j) ⟨.fin 0⟩

/-- One channel of `convolve(signal, impulse, block_size)`, `extra/cli/src/convolver.cpp:26-58`, with any streaming convolver
`run` given as a function of the filter and the blocks; `colMajor` is the order of the loop of `scale`. -/
def renderChannelI (A : Arith (IR f) C)
    (run : MatView → List C → List (List (IR f)) → Res (List (List (IR f)))) (colMajor : Bool) (v : MatView)
    (impulse : List FVal) (blockSize channel : Nat) (signal : List (IR f)) : Res (List (IR f)) := do
  let impulse ← normalizeImpulseMatI f colMajor v impulse
  let (frames, bins, part) ← uniformPartitionG A ⟨.fin 1⟩ v (impulse.map IR.mk) blockSize
  if v.rows ≤ channel then .error .oob else .ok ()
  let outs ← run (partitionView frames bins channel) part (blocksI blockSize signal)
  pure (outs.flatten.take signal.length)

end

end Neo
