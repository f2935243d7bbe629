import Mathlib.Data.Real.Archimedean
import Verif.Model.IntT
import Verif.Model.Simd

/-!
# Model: `neo::fixed_point`, `fixed_point_complex` and the fixed-point span algorithms

`fixed_point<IntType, F>` is its storage value, an integer in the range of the signed type `t`.
Integer arithmetic is the machine arithmetic of `Verif/Model/IntT.lean`.  Floats are real numbers;
`rnd` is the conversion `static_cast<float>(val)` (the identity for a `float` argument, a rounding
for `double`).  Multiplying a float by the power of two `scale ≥ 1` is exact.
-/

namespace Neo

open IntT

/-- `std::int8_t`, `std::int16_t`, `std::int32_t`, `std::int64_t`
`src/neo/fixed_point/fixed_point.hpp:32,125-126`. -/
def i8 : IntT := ⟨true, 8⟩
/-- `std::int16_t`: src/neo/fixed_point/fixed_point.hpp:126. -/
def i16 : IntT := ⟨true, 16⟩
/-- `std::int32_t`: src/neo/fixed_point/fixed_point.hpp:18-20. -/
def i32 : IntT := ⟨true, 32⟩
/-- `std::int64_t`, another `IntType`: src/neo/fixed_point/fixed_point.hpp:32. -/
def i64 : IntT := ⟨true, 64⟩

/-- `detail::saturate<IntType>(x)`, `src/neo/fixed_point/fixed_point.hpp:15-21`.  The argument is
converted to `int32_t` first; `std::clamp` requires `min_v ≤ max_v`. -/
def saturate (t : IntT) (x : Int) : Res Int :=
  let x := i32.conv x
  let minV := i32.conv t.min
  let maxV := i32.conv t.max
  if maxV < minV then .error .assertion
  else .ok (t.conv (if x < minV then minV else if maxV < x then maxV else x))

/-- `operator+(lhs, rhs)`, `src/neo/fixed_point/fixed_point.hpp:73-79`. -/
def fxAdd (t : IntT) (a b : Int) : Res Int := do
  let s ← t.add a b
  saturate t s

/-- `operator-(lhs, rhs)`, `src/neo/fixed_point/fixed_point.hpp:81-87`. -/
def fxSub (t : IntT) (a b : Int) : Res Int := do
  let s ← t.sub a b
  saturate t s

/-- `x >> k` of a signed value of type `t.promote` (arithmetic in C++20, undefined for over-wide
shift counts).
`src/neo/fixed_point/fixed_point.hpp:93`; `src/neo/fixed_point/complex.hpp:69-70`. -/
def IntT.shr (t : IntT) (x : Int) (k : Nat) : Res Int :=
  if k < t.promote.width then .ok (x >>> k) else .error .overflow

/-- `operator*(lhs, rhs)`, `src/neo/fixed_point/fixed_point.hpp:89-95`. -/
def fxMul (t : IntT) (F : Nat) (a b : Int) : Res Int := do
  let p ← t.mul a b
  let s ← t.shr p F
  saturate t s

/-- Unary `operator-`, `src/neo/fixed_point/fixed_point.hpp:62-71`. -/
def fxNeg (t : IntT) (a : Int) : Res Int :=
  if a = t.min then .ok t.max
  else do
    let n ← t.promote.arith (-a)
    pure (t.conv n)

/-- Truncation toward zero of a real number. `src/neo/fixed_point/fixed_point.hpp:47`. -/
noncomputable def truncR (x : ℝ) : Int := if 0 ≤ x then ⌊x⌋ else ⌈x⌉

/-- `static_cast<std::int32_t>(float)`: undefined unless the truncated value is representable.
`src/neo/fixed_point/fixed_point.hpp:47`. -/
noncomputable def floatToI32 (x : ℝ) : Res Int :=
  if i32.Fits (truncR x) then .ok (truncR x) else .error .overflow

/-- `fixed_point(Float val)`, `src/neo/fixed_point/fixed_point.hpp:40,45-48`. -/
noncomputable def fxOfFloat (rnd : ℝ → ℝ) (t : IntT) (F : Nat) (val : ℝ) : Res Int := do
  let i ← floatToI32 (rnd val * 2 ^ F)
  saturate t i

/-- `operator Float()`, `to_float`, `to_double`, `src/neo/fixed_point/fixed_point.hpp:41,52-56,113-123`:
the conversion of the stored integer to `float` is exact for storage of at most 16 bits. -/
noncomputable def fxToFloat (F : Nat) (a : Int) : ℝ := (a : ℝ) * (1 / 2 ^ F)

/-! ## `fixed_point_complex` -/

/-- `fixed_point_complex` `operator+`, `src/neo/fixed_point/complex.hpp:33-39`. -/
def fxcAdd (t : IntT) (a b : Int × Int) : Res (Int × Int) := do
  let re ← fxAdd t a.1 b.1
  let im ← fxAdd t a.2 b.2
  pure (re, im)

/-- `fixed_point_complex` `operator-`, `src/neo/fixed_point/complex.hpp:41-47`. -/
def fxcSub (t : IntT) (a b : Int × Int) : Res (Int × Int) := do
  let re ← fxSub t a.1 b.1
  let im ← fxSub t a.2 b.2
  pure (re, im)

/-- `fixed_point_complex` `operator*` for 16-bit storage (shift 17),
`src/neo/fixed_point/complex.hpp:49-72`; line 66 takes `rim` from `lhs`. -/
def fxcMul16 (lhs rhs : Int × Int) : Res (Int × Int) := do
  let shift := 17
  let lre := lhs.1
  let lim := lhs.2
  let rre := rhs.1
  let rim := lhs.2
  let p ← i16.mul lre rre
  let p ← i16.shr p shift
  let q ← i16.mul lim rim
  let q ← i16.shr q shift
  let re ← i32.sub p q
  let p ← i16.mul lre rim
  let p ← i16.shr p shift
  let q ← i16.mul lim rre
  let q ← i16.shr q shift
  let im ← i32.add p q
  pure (i16.conv re, i16.conv im)

/-! ## SIMD kernels

A 128-bit register is the list of its lanes, lowest first, each lane a signed value. -/

/-- Signed saturation to `t`, as performed by the saturating instructions.
`src/neo/fixed_point/simd.hpp:28-37`. -/
def satLane (t : IntT) (x : Int) : Int := if x < t.min then t.min else if t.max < x then t.max else x

/-- `_mm_adds_epi8/16`, `vqaddq_s8/16` `src/neo/fixed_point/simd.hpp:28-29,34-35`. -/
def addsLanes (t : IntT) (l r : List Int) : List Int := List.zipWith (fun a b => satLane t (a + b)) l r

/-- `_mm_subs_epi8/16`, `vqsubq_s8/16` `src/neo/fixed_point/simd.hpp:30-31,36-37`. -/
def subsLanes (t : IntT) (l r : List Int) : List Int := List.zipWith (fun a b => satLane t (a - b)) l r

/-- `_mm_mullo_epi16/32`: low half of the product. `src/neo/fixed_point/simd.hpp:46,51,64,69`. -/
def mulloLanes (t : IntT) (l r : List Int) : List Int := List.zipWith (fun a b => t.conv (a * b)) l r

/-- `_mm_srli_epi16/32`: logical shift; counts of the lane width or more give 0.
`src/neo/fixed_point/simd.hpp:47,52,65,70`. -/
def srliLanes (t : IntT) (l : List Int) (k : Nat) : List Int :=
  l.map (fun a => if k < t.width then t.conv (t.unsigned.conv a >>> k) else 0)

/-- `_mm_srli_si128(r, 8)` on a register of `V` lanes: the upper half moves down.
`src/neo/fixed_point/simd.hpp:49-50,67-68`. -/
def srliHalf (V : Nat) (l : List Int) : List Int := l.drop (V / 2) ++ List.replicate (V / 2) 0

/-- `_mm_cvtepi8_epi16`, `_mm_cvtepi16_epi32`: sign extension of the lower half.
`src/neo/fixed_point/simd.hpp:44-45,62-63`. -/
def cvtLow (V : Nat) (l : List Int) : List Int := l.take (V / 2)

/-- `_mm_packs_epi16/32`: signed saturation of both registers to the narrower lane type.
`src/neo/fixed_point/simd.hpp:54,72`. -/
def packsLanes (t : IntT) (l h : List Int) : List Int := (l ++ h).map (satLane t)

/-- `_mm_mulhrs_epi16`: rounded high product, truncated to 16 bits.
`src/neo/fixed_point/simd.hpp:60`. -/
def mulhrsLanes (l r : List Int) : List Int :=
  List.zipWith (fun (a b : Int) => i16.conv ((((a * b) >>> 14) + 1) >>> 1)) l r

/-- `vqdmulhq_s16`: saturating doubling multiply, high half. `src/neo/fixed_point/simd.hpp:32`. -/
def vqdmulhLanes (l r : List Int) : List Int :=
  List.zipWith (fun (a b : Int) => satLane i16 ((2 * a * b) >>> 16)) l r

/-- `mul_kernel_s8<F>`, `src/neo/fixed_point/simd.hpp:42-55`. -/
def mulKernelS8 (F : Nat) (lhs rhs : List Int) : List Int :=
  let lowProduct := mulloLanes i16 (cvtLow 16 lhs) (cvtLow 16 rhs)
  let lowShifted := srliLanes i16 lowProduct F
  let highProduct := mulloLanes i16 (cvtLow 16 (srliHalf 16 lhs)) (cvtLow 16 (srliHalf 16 rhs))
  let highShifted := srliLanes i16 highProduct F
  packsLanes i8 lowShifted highShifted

/-- `mul_kernel_s16<F>` (SSE4.1), `src/neo/fixed_point/simd.hpp:57-74`. -/
def mulKernelS16 (F : Nat) (lhs rhs : List Int) : List Int :=
  if F = 15 then mulhrsLanes lhs rhs
  else
    let lowProduct := mulloLanes i32 (cvtLow 8 lhs) (cvtLow 8 rhs)
    let lowShifted := srliLanes i32 lowProduct F
    let highProduct := mulloLanes i32 (cvtLow 8 (srliHalf 8 lhs)) (cvtLow 8 (srliHalf 8 rhs))
    let highShifted := srliLanes i32 highProduct F
    packsLanes i16 lowShifted highShifted

/-- The instruction sets distinguished by `src/neo/fixed_point/algorithm.hpp` (`sse41` implies
`NEO_HAS_ISA_SSE2`). -/
inductive Isa where
  | scalar | sse2 | sse41 | neon
  deriving DecidableEq

/-- The element-wise loop, `src/neo/fixed_point/algorithm.hpp:42-44,101-103` (32-bit counter). -/
def fxScalarLoop (lhs rhs out : List Int) (scalar : Int → Int → Res Int) : Res (List Int) :=
  forU32 lhs.length (fun i out => do
    let a ← rd lhs i
    let b ← rd rhs i
    let v ← scalar a b
    wr out i v) out

/-- `apply_fixed_point_kernel`, `src/neo/fixed_point/algorithm.hpp:19-45`. -/
def applyFixedPointKernel (isa : Isa) (t : IntT) (lhs rhs out : List Int)
    (scalar : Int → Int → Res Int) (vector8 vector16 : List Int → List Int → List Int) :
    Res (List Int) := do
  check (lhs.length = rhs.length)
  check (lhs.length = out.length)
  if isa ≠ .scalar ∧ t = i8 then applyKernel 16 lhs rhs out scalar vector8
  else if isa ≠ .scalar ∧ t = i16 then applyKernel 8 lhs rhs out scalar vector16
  else fxScalarLoop lhs rhs out scalar

/-- `add(lhs, rhs, out)`, `src/neo/fixed_point/algorithm.hpp:49-58`. -/
def fxAddSpan (isa : Isa) (t : IntT) (lhs rhs out : List Int) : Res (List Int) :=
  applyFixedPointKernel isa t lhs rhs out (fxAdd t) (addsLanes i8) (addsLanes i16)

/-- `subtract(lhs, rhs, out)`, `src/neo/fixed_point/algorithm.hpp:60-69`. -/
def fxSubSpan (isa : Isa) (t : IntT) (lhs rhs out : List Int) : Res (List Int) :=
  applyFixedPointKernel isa t lhs rhs out (fxSub t) (subsLanes i8) (subsLanes i16)

/-- `multiply(lhs, rhs, out)`, `src/neo/fixed_point/algorithm.hpp:71-104`. -/
def fxMulSpan (isa : Isa) (t : IntT) (F : Nat) (lhs rhs out : List Int) : Res (List Int) := do
  check (lhs.length = rhs.length)
  check (lhs.length = out.length)
  if isa = .sse41 ∧ t = i8 then applyKernel 16 lhs rhs out (fxMul t F) (mulKernelS8 F)
  else if isa = .sse41 ∧ t = i16 then applyKernel 8 lhs rhs out (fxMul t F) (mulKernelS16 F)
  else if isa = .neon ∧ t = i16 ∧ F = 15 then applyKernel 8 lhs rhs out (fxMul t F) vqdmulhLanes
  else fxScalarLoop lhs rhs out (fxMul t F)

end Neo
