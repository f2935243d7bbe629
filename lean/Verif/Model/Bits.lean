import Verif.Core

/-!
# Model: integer helpers (`neo/bit`, `neo/math/ipow.hpp`, `neo/math/idiv.hpp`, `neo/fft/order.hpp`)

`std::size_t` values are natural numbers here; the fixed-width version of `bit_ceil` is in
`Verif/Model/IntT.lean`.
-/

namespace Neo

/-- Loop of `bit_log2`, `src/neo/bit/bit_log2.hpp:14-19`. -/
def bitLog2Loop (x result : Nat) : Nat :=
  if x > 1 then bitLog2Loop (x / 2) (result + 1) else result
termination_by x
decreasing_by omega

/-- `neo::bit_log2`, `src/neo/bit/bit_log2.hpp:11-19`. -/
def bitLog2 (x : Nat) : Nat := bitLog2Loop x 0

/-- Loop of the run-time `neo::ipow(base, exponent)`, `src/neo/math/ipow.hpp:11-18`
(without wrap-around: the result is exact). -/
def ipowLoop (base : Nat) : Nat → Nat → Nat
  | 0, result => result
  | e + 1, result => ipowLoop base e (result * base)

/-- `neo::ipow<Base>(exponent)`, `src/neo/math/ipow.hpp:21-41` (without wrap-around). -/
def ipow (base exponent : Nat) : Nat :=
  if base = 2 then 1 <<< exponent
  else if base = 4 then 1 <<< (exponent * 2)
  else if base = 8 then 1 <<< (exponent * 3)
  else if base = 16 then 1 <<< (exponent * 4)
  else if base = 32 then 1 <<< (exponent * 5)
  else ipowLoop base exponent 1

/-- `neo::fft::size`, `src/neo/fft/order.hpp:26-31`. -/
def fftSize (order : Nat) : Nat := ipow 2 order

/-- Search loop of `std::bit_ceil` (C++20 [bit.pow.two]: smallest power of two not below `x`);
`p` is the candidate.  Terminates because the candidate doubles. `src/neo/bit/bit_ceil.hpp:37`. -/
def bitCeilLoop (x p : Nat) : Nat :=
  if p = 0 then 0 else if p < x then bitCeilLoop x (p * 2) else p
termination_by x - p
decreasing_by omega

/-- `neo::bit_ceil` on the `__cpp_lib_int_pow2` path, `src/neo/bit/bit_ceil.hpp:33-41`
(`std::bit_ceil`; unbounded integers). -/
def bitCeil (x : Nat) : Nat := bitCeilLoop x 1

/-- `neo::fft::next_order`, `src/neo/fft/order.hpp:33-39`. -/
def nextOrder (size : Nat) : Nat := bitLog2 (bitCeil size)

end Neo
