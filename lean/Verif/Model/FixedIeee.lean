import Verif.Model.Fixed
import Verif.Model.Float16
import Verif.Model.CompressedIeee

/-!
# Model: conversions between `fixed_point` and floating point, and two benchmarks of products, in IEEE arithmetic

The conversions of `Verif.Model.Fixed` with every float operation rounded, and with infinities and NaN.
-/

namespace Neo

open Spec

noncomputable section

/-- `scale`: the `int` value `1 << FractionalBits` (for 31 bits the shift gives the smallest `int`, C++20) as `float`.
`src/neo/fixed_point/fixed_point.hpp:40`. -/
def fxScaleI (F : ℕ) : FVal := binary32.round (.fin (i32.conv (2 ^ F)))

/-- `inv_scale`, `src/neo/fixed_point/fixed_point.hpp:41`. -/
def fxInvScaleI (F : ℕ) : FVal := binary32.round (FVal.div (.fin 1) (fxScaleI F))

/-- `static_cast<std::int32_t>` of a `float`: undefined for NaN, the infinities and values out of range.
`src/neo/fixed_point/fixed_point.hpp:47`. -/
def toI32I : FVal → Res ℤ
  | .fin x => floatToI32 x
  | _ => .error .overflow

/-- `fixed_point(Float val)`, `src/neo/fixed_point/fixed_point.hpp:45-48`; `val` is a value of any format, rounded to
`float` first. -/
def fxOfFloatI (t : IntT) (F : ℕ) (val : FVal) : Res ℤ := do
  let i ← toI32I (binary32.round ((binary32.round val).mul (fxScaleI F)))
  saturate t i

/-- `operator Float()`, `src/neo/fixed_point/fixed_point.hpp:52-56`, and `to_float`, `to_double`, `:113-123`: the
product is a `float`, which the `return` converts to the format `g`. -/
def fxToFloatI (g : Fmt) (F : ℕ) (a : ℤ) : FVal :=
  g.round (binary32.round ((binary32.round (.fin a)).mul (fxInvScaleI F)))

/-- `fixed_point_mul` for real fixed-point types: the constructor fills `_lhs` and `_rhs` from the drawn values `a` and
`b`, the call operator multiplies; returns `_out`.  `extra/benchmark/src/fixed_point.cpp:309-347`; the branches for
complex types, which `main` does not use, are not modelled. -/
def fixedPointMul (isa : Isa) (t : IntT) (F : ℕ) (size : ℕ) (a b : List FVal) : Res (List ℤ) := do
  let lhs ← transformTo (fxOfFloatI t F) a (List.replicate size 0)
  let rhs ← transformTo (fxOfFloatI t F) b (List.replicate size 0)
  fxMulSpan isa t F lhs rhs (List.replicate size 0)

/-- `float16_mul_bench`: the constructor converts the drawn values `a` and `b` with `_cvtss_sh`, the call operator
multiplies 8 lanes at a time; returns `_out`, whose elements start as the bit pattern of zero.
`extra/benchmark/src/fixed_point.cpp:350-385`; the counter is an `int`, the `static_assert` is line 364. -/
def float16MulBench (size : ℕ) (a b : List FVal) : Res (List FVal) := do
  let lhs ← transformTo (fun v => .ok (binary16.round v)) a (List.replicate size (.fin 0))
  let rhs ← transformTo (fun v => .ok (binary16.round v)) b (List.replicate size (.fin 0))
  check (size % 8 = 0)
  if size < 2 ^ 31 then
    forN (size / 8) (fun k out => f16Step false FVal.mul lhs rhs out (8 * k)) (List.replicate size (.fin 0))
  else .error .overflow

end

end Neo
