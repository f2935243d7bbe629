import Verif.Model.UnitsIeee
import Verif.Model.StockhamIeee

/-!
# Model: the twiddles in IEEE 754 arithmetic

`twiddle<Complex>` and the constants of the mixed-radix Stockham plans on the values of a binary format: every operation is the exact one followed by rounding to nearest, and
nothing is fused.  `std::cos` and `std::sin` are arguments.  The values have no negative zero.
-/

namespace Neo

open Spec

noncomputable section

/-- `static_cast<Float>(std::numbers::pi * 2.0)`: the product is one of doubles, `src/neo/fft/twiddle.hpp:23`. -/
def twoPiI (f : Fmt) : FVal := f.round (binary64.round ((binary64.round (.fin Real.pi)).mul (.fin 2)))

/-- `sign * two_pi * Float(index) / Float(size)`, `src/neo/fft/twiddle.hpp:22-24`. -/
def twiddleAngleI (f : Fmt) (size index : ℕ) (dir : Direction) : FVal :=
  let sign : FVal := if dir = .forward then .fin (-1) else .fin 1
  f.round ((f.round ((f.round (sign.mul (twoPiI f))).mul (ofNat f index))).div (ofNat f size))

/-- `math::polar(r, theta)`, that is `std::polar`: the products of `r` with cosine and sine, `src/neo/math/polar.hpp:20-27`. -/
def polarI (f : Fmt) (cos sin : FVal → FVal) (r theta : FVal) : IC f :=
  ⟨f.round (r.mul (cos theta)), f.round (r.mul (sin theta))⟩

/-- `twiddle<Complex>(size, index, dir)`, `src/neo/fft/twiddle.hpp:17-29`. -/
def twiddleI (f : Fmt) (cos sin : FVal → FVal) (size index : ℕ) (dir : Direction) : IC f :=
  polarI f cos sin (.fin 1) (twiddleAngleI f size index dir)

/-- The constants of the butterflies: computed with doubles and converted; `sin` is `std::sin` of doubles, and `std::sqrt` is
the rounded square root.  `src/neo/fft/reference/c2c_stockham_dif3_plan.hpp:46`,
`src/neo/fft/reference/c2c_stockham_dif5_plan.hpp:47-49`, `src/neo/fft/reference/c2c_stockham_dif8_plan.hpp:44`. -/
def stockConstI (f : Fmt) (sin : FVal → FVal) : StockConst :=
  let d := binary64.round
  let pi := d (.fin Real.pi)
  { sinPiBy3 := f.round (sin (d (pi.div (.fin 3))))
    sqrt5By4 := f.round (d ((d (FVal.fin 5).sqrt).div (.fin 4)))
    sinPiBy5 := f.round (sin (d (pi.div (.fin 5))))
    sin2PiBy5 := f.round (sin (d ((d ((FVal.fin 2).mul pi)).div (.fin 5))))
    sqrt2By2 := f.round (d ((d (FVal.fin 2).sqrt).div (.fin 2))) }

end

end Neo
