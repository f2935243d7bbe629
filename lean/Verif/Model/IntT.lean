import Mathlib.Data.Int.Basic
import Verif.Core

/-!
# Model: fixed-width C++ integers, `bit_ceil`, `bit_log2`, `ipow`, `idiv`, `next_order`

Values of an integer type are mathematical integers in its range.  Arithmetic follows the usual
arithmetic conversions with a 32-bit `int`: operands of a type narrower than `int` are promoted to
`int`; signed overflow and over-wide shifts are undefined behaviour (`Fault.overflow`); unsigned
arithmetic and conversions wrap modulo `2 ^ width` (C++20).
-/

namespace Neo

/-- A C++ integer type. `src/neo/math/ipow.hpp:20-41`; `src/neo/fft/order.hpp:26-39`. -/
structure IntT where
  signed : Bool
  width : Nat
  deriving DecidableEq

namespace IntT

/-- The integer types of `<cstdint>`. `src/neo/bit/bit_ceil.hpp:12-41`. -/
def Std (t : IntT) : Prop := t.width = 8 ∨ t.width = 16 ∨ t.width = 32 ∨ t.width = 64

/-- `std::numeric_limits<T>::max()` `src/neo/bit/bit_ceil.hpp:12-41`. -/
def max (t : IntT) : Int := if t.signed then 2 ^ (t.width - 1) - 1 else 2 ^ t.width - 1

/-- `std::numeric_limits<T>::min()` `src/neo/bit/bit_ceil.hpp:12-41`. -/
def min (t : IntT) : Int := if t.signed then -2 ^ (t.width - 1) else 0

/-- The value is representable. `src/neo/bit/bit_ceil.hpp:12-41`. -/
def Fits (t : IntT) (z : Int) : Prop := t.min ≤ z ∧ z ≤ t.max

/-- `src/neo/bit/bit_ceil.hpp:12-41`. -/
instance (t : IntT) (z : Int) : Decidable (t.Fits z) := by unfold Fits; infer_instance

/-- Conversion to the type (C++20 [conv.integral]): the representable value congruent to `z`.
`src/neo/fft/order.hpp:37-38`. -/
def conv (t : IntT) (z : Int) : Int :=
  if t.signed then (z + 2 ^ (t.width - 1)) % 2 ^ t.width - 2 ^ (t.width - 1) else z % 2 ^ t.width

/-- Integral promotion: types narrower than `int` become `int`.
`src/neo/bit/bit_ceil.hpp:15-28`. -/
def promote (t : IntT) : IntT := if t.width < 32 then ⟨true, 32⟩ else t

/-- `std::make_unsigned_t<T>` `src/neo/fft/order.hpp:37`. -/
def unsigned (t : IntT) : IntT := ⟨false, t.width⟩

/-- The value of an arithmetic operation on (promoted) operands whose exact result is `z`.
`src/neo/math/ipow.hpp:20-41`; `src/neo/math/idiv.hpp:9-14`. -/
def arith (t : IntT) (z : Int) : Res Int :=
  if t.signed then (if t.Fits z then .ok z else .error .overflow) else .ok (t.conv z)

/-- `a * b` for operands of type `t`; the value has type `t.promote`.
`src/neo/math/ipow.hpp:20-41`. -/
def mul (t : IntT) (a b : Int) : Res Int := t.promote.arith (a * b)

/-- `a + b` `src/neo/math/idiv.hpp:9-14`. -/
def add (t : IntT) (a b : Int) : Res Int := t.promote.arith (a + b)

/-- `a - b` `src/neo/bit/bit_ceil.hpp:15`. -/
def sub (t : IntT) (a b : Int) : Res Int := t.promote.arith (a - b)

/-- `a / b`: truncation toward zero; `min / -1` overflows. `src/neo/math/idiv.hpp:9-14`. -/
def div (t : IntT) (a b : Int) : Res Int :=
  if b = 0 then .error .divZero else t.promote.arith (a.tdiv b)

/-- `UInt(1) << s` for a shift count `s` of type `UInt = t.unsigned`.
`src/neo/bit/bit_log2.hpp:14-18`. -/
def shl1 (t : IntT) (s : Int) : Res Int :=
  if 0 ≤ s ∧ s < (t.promote.width : Int) then .ok (t.promote.conv (2 ^ s.toNat)) else .error .overflow

end IntT

/-- Loop of `ipow(base, exponent)`, `src/neo/math/ipow.hpp:13-16` (`n` iterations are left). -/
def ipowTLoop (t : IntT) (base : Int) : Nat → Int → Res Int
  | 0, result => .ok result
  | n + 1, result => do
    let p ← t.mul result base
    ipowTLoop t base n (t.conv p)

/-- `ipow(base, exponent)`, `src/neo/math/ipow.hpp:9-18`. -/
def ipowT (t : IntT) (base exponent : Int) : Res Int := ipowTLoop t base exponent.toNat 1

/-- `static_cast<Int>(UInt(1) << UInt(exponent * Int(k)))`, `src/neo/math/ipow.hpp:30-37`. -/
def ipowShift (t : IntT) (exponent k : Int) : Res Int := do
  let s ← t.mul exponent k
  let r ← t.unsigned.shl1 (t.unsigned.conv s)
  pure (t.conv r)

/-- `ipow<Base>(exponent)`, `src/neo/math/ipow.hpp:20-41`. -/
def ipowBase (t : IntT) (base exponent : Int) : Res Int :=
  if base = 2 then do
    let r ← t.unsigned.shl1 (t.unsigned.conv exponent)
    pure (t.conv r)
  else if base = 4 then ipowShift t exponent 2
  else if base = 8 then ipowShift t exponent 3
  else if base = 16 then ipowShift t exponent 4
  else if base = 32 then ipowShift t exponent 5
  else ipowT t base exponent

/-- `idiv(x, y)`, `src/neo/math/idiv.hpp:9-14`. -/
def idivT (t : IntT) (x y : Int) : Res Int := do
  let s ← t.add x y
  let s ← t.promote.sub s 1
  let q ← t.promote.div s y
  pure (t.conv q)

/-- `bit_ceil_fallback`, `src/neo/bit/bit_ceil.hpp:12-29`, for an unsigned type of `w` bits. -/
def bitCeilFallback (w : Nat) (x : BitVec w) : BitVec w :=
  let x := x - 1
  let x := x ||| (x >>> 1)
  let x := x ||| (x >>> 2)
  let x := x ||| (x >>> 4)
  let x := if w > 8 then x ||| (x >>> 8) else x
  let x := if w > 16 then x ||| (x >>> 16) else x
  let x := if w > 32 then x ||| (x >>> 32) else x
  x + 1

/-- `std::bit_ceil` (C++20 [bit.pow.two]): the smallest power of two not less than `x`; undefined
when it is not representable.  The search doubles the candidate `p`.
`src/neo/bit/bit_ceil.hpp:37`. -/
def stdBitCeilLoop (w x : Nat) : Nat → Nat → Res (BitVec w)
  | 0, _ => .error .overflow
  | n + 1, p => if x ≤ p then .ok (BitVec.ofNat w p) else stdBitCeilLoop w x n (2 * p)

/-- `std::bit_ceil` for an unsigned type of `w` bits. `src/neo/bit/bit_ceil.hpp:37`. -/
def stdBitCeil (w : Nat) (x : BitVec w) : Res (BitVec w) := stdBitCeilLoop w x.toNat w 1

/-- `bit_ceil`, `src/neo/bit/bit_ceil.hpp:33-41`; `fallback` tells whether `__cpp_lib_int_pow2` is
undefined. -/
def bitCeilT (fallback : Bool) (w : Nat) (x : BitVec w) : Res (BitVec w) :=
  if fallback then .ok (bitCeilFallback w x) else stdBitCeil w x

/-- Loop of `bit_log2`, `src/neo/bit/bit_log2.hpp:14-18`; at most `w` iterations since every one
halves `x`. -/
def bitLog2TLoop (w : Nat) : Nat → BitVec w → BitVec w → Res (BitVec w)
  | 0, _, _ => .error .diverge
  | n + 1, x, result => if x.toNat > 1 then bitLog2TLoop w n (x >>> 1) (result + 1) else .ok result

/-- `bit_log2`, `src/neo/bit/bit_log2.hpp:11-19`. -/
def bitLog2T (w : Nat) (x : BitVec w) : Res (BitVec w) := bitLog2TLoop w (w + 1) x 0

/-- `fft::next_order(size)`, `src/neo/fft/order.hpp:33-39`. -/
def nextOrderT (fallback : Bool) (t : IntT) (size : Int) : Res Int := do
  let c ← bitCeilT fallback t.width (BitVec.ofInt t.width size)
  let o ← bitLog2T t.width c
  pure (t.conv o.toNat)

/-- `fft::size(order)`, `src/neo/fft/order.hpp:26-31`. -/
def fftSizeT (t : IntT) (order : Int) : Res Int := ipowBase t 2 order

end Neo
