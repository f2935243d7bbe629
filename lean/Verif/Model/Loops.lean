import Verif.Core

/-! # Model: loops with fixed-width counters and steps -/

namespace Neo

/-- `for (auto i{0}; i < n; i += step)` with an `int` counter (`extra/cli/src/convolver.cpp:42`,
`extra/plugin/src/dsp/DenseConvolution.hpp:56`, `src/neo/fft/reference/c2c_dif3_plan.hpp:56`).  `i += step` overflows at `2 ^ 31`.  The
fuel argument bounds the number of iterations (`n` suffices for `step ≥ 1`). -/
def forIntStep {σ : Type} (step n : Nat) (body : Nat → σ → Res σ) : Nat → Nat → σ → Res σ
  | 0, i, s => if i < n then .error .diverge else .ok s
  | fuel + 1, i, s =>
    if i < n then do
      let s ← body i s
      if i + step < 2 ^ 31 then forIntStep step n body fuel (i + step) s else .error .overflow
    else .ok s

/-- `for (auto m = radix; m <= len; m *= radix)` with `int` variables
(`src/neo/fft/reference/c2c_dif3_plan.hpp:48`, `src/neo/fft/reference/c2c_dif5_plan.hpp:50`).
`m *= radix` overflows at `2 ^ 31`.  The fuel bounds the number of iterations (32 suffices for
`radix ≥ 2`). -/
def forIntMul {σ : Type} (radix len : Nat) (body : Nat → σ → Res σ) : Nat → Nat → σ → Res σ
  | 0, m, s => if m ≤ len then .error .diverge else .ok s
  | fuel + 1, m, s =>
    if m ≤ len then do
      let s ← body m s
      if m * radix < 2 ^ 31 then forIntMul radix len body fuel (m * radix) s else .error .overflow
    else .ok s

/-- Value of an expression of type `unsigned int` whose exact value is `z`.
`src/neo/convolution/compressed_fdl.hpp:45`. -/
def u32 (z : Nat) : Nat := z % 2 ^ 32

/-- `for (auto i{0U}; i < n; ++i)` with `n` of type `std::size_t`: an `unsigned int` counter never
reaches `n ≥ 2 ^ 32`. `src/neo/convolution/compressed_fdl.hpp:45`. -/
def forUInt {σ : Type} (n : Nat) (body : Nat → σ → Res σ) (s : σ) : Res σ :=
  if n < 2 ^ 32 then forN n body s else .error .diverge

end Neo
