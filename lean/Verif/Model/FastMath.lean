import Mathlib.Analysis.SpecialFunctions.Log.Base
import Mathlib.Data.Nat.Bitwise

/-!
# Model: approximate logarithms

`src/neo/math/fast_math.hpp` and the `precision::estimate` branch of `src/neo/unit/decibel.hpp`.  A `float` is given by
its 32 bits; the result of every arithmetic operation, conversion and literal is rounded by `rnd`.
-/

namespace Neo

noncomputable section

/-- The finite binary32 number with bit pattern `b` (sign, 8 exponent bits, 23 fraction bits).
`src/neo/math/fast_math.hpp:14-15`. -/
def f32val (b : ℕ) : ℝ :=
  let sign : ℝ := if b / 2 ^ 31 % 2 = 0 then 1 else -1
  let e : ℕ := b / 2 ^ 23 % 2 ^ 8
  let f : ℕ := b % 2 ^ 23
  if e = 0 then sign * f * 2 ^ (-149 : ℤ) else sign * ((2 ^ 23 + f : ℕ) : ℝ) * 2 ^ ((e : ℤ) - 150)

/-- `fast_log2`, `src/neo/math/fast_math.hpp:12-18`; the argument is `bit_cast<std::uint32_t>(x)`. -/
def fastLog2 (rnd : ℝ → ℝ) (vx : ℕ) : ℝ :=
  let mx := f32val ((vx &&& 0x007FFFFF) ||| 0x3f000000)
  let y := rnd (rnd vx * rnd 1.1920928955078125e-7)
  rnd (rnd (rnd (y - rnd 124.22551499) - rnd (rnd 1.498030302 * mx))
    - rnd (rnd 1.72587999 / rnd (rnd 0.3520887068 + mx)))

/-- `fast_log10`, `src/neo/math/fast_math.hpp:21-25`. -/
def fastLog10 (rnd : ℝ → ℝ) (vx : ℕ) : ℝ := rnd (fastLog2 rnd vx * rnd 0.30102999566)

open Classical in
/-- `amplitude_to_db<precision::estimate>(gain, infinity)` for `float`, `src/neo/unit/decibel.hpp:14-25`. -/
def amplitudeToDbEstimate (rnd : ℝ → ℝ) (gain : ℕ) (infinity : ℝ) : ℝ :=
  if f32val gain ≤ 0 then infinity
  else
    let db := rnd (20 * fastLog10 rnd gain)
    -- `std::max(infinity, db)`
    if infinity < db then db else infinity

end

end Neo
