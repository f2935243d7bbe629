import Verif.Core
import Verif.Spec.Ieee

/-!
# Model: half-precision SIMD batches

`float16x8` and `float16x16` of `src/neo/simd/avx.hpp:15-142`.  A register is the list of its lanes.  The intrinsics are
modelled by what they are documented to do with each lane: `_mm256_cvtph_ps` is exact, `_mm256_add_ps` and its siblings
round the exact result to binary32, `_mm256_cvtps_ph` rounds to binary16.  The rounding direction
(`_MM_FROUND_CUR_DIRECTION`) is the default, to nearest even, and denormals are not flushed.
-/

namespace Neo
open Neo.Spec

/-- `_mm256_add_ps`, `_mm256_sub_ps`, `_mm256_mul_ps`: the exact result `op a b` rounded to binary32.
`src/neo/simd/avx.hpp:15-142`. -/
noncomputable def ps (op : FVal → FVal → FVal) (a b : FVal) : FVal := binary32.round (op a b)

/-- `binary_op(float16x8, float16x8, op)`, `src/neo/simd/avx.hpp:63-69`, one lane after the other. -/
noncomputable def f16x8Op (op : FVal → FVal → FVal) (lhs rhs : List FVal) : List FVal :=
  (List.zipWith (ps op) lhs rhs).map binary16.round

/-- `binary_op(float16x16, float16x16, op)`, `src/neo/simd/avx.hpp:121-137`: the two halves are widened separately. -/
noncomputable def f16x16Op (op : FVal → FVal → FVal) (lhs rhs : List FVal) : List FVal :=
  let lowLeft := lhs.take 8
  let highLeft := lhs.drop 8
  let lowRight := rhs.take 8
  let highRight := rhs.drop 8
  let lowProduct := (List.zipWith (ps op) lowLeft lowRight).map binary16.round
  let highProduct := (List.zipWith (ps op) highLeft highRight).map binary16.round
  lowProduct ++ highProduct

/-- `broadcast`, `src/neo/simd/avx.hpp:30-35` and `:88-93`: fills an array and loads it. -/
def f16Broadcast (V : Nat) (x : FVal) : Res (List FVal) := rdSpan (List.replicate V x) 0 V

/-- One batch step at offset `i`: two `load_unaligned` (`src/neo/simd/avx.hpp:37-40`, `:95-98`), the operator
(`:47-60`, `:105-118`) and `store_unaligned` (`:42-45`, `:100-103`), on buffers that do not overlap. -/
noncomputable def f16Step (wide : Bool) (op : FVal → FVal → FVal) (lhs rhs out : List FVal) (i : Nat) :
    Res (List FVal) := do
  let V := if wide then 16 else 8
  let l ← rdSpan lhs i (i + V)
  let r ← rdSpan rhs i (i + V)
  wrSpan out i (if wide then f16x16Op op l r else f16x8Op op l r)

end Neo
