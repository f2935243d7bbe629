import Verif.Model.AnyArith

/-!
# Model: `std::complex` products in IEEE arithmetic

The default complex type of the library is `std::complex` (`src/neo/fft/fallback/fallback_rfft_plan.hpp:14`,
`src/neo/fft/stft.hpp:40`, `src/neo/fft/rfft.hpp:17-21`).  Without options like `-ffast-math`, which the
build files do not set, compilers multiply it as described in Annex G of the C standard (G.5.1, example 1): if both parts
of the textbook product are NaN although an operand or a partial product is infinite, the product is computed again from
operands in which infinities are replaced by ±1 and other values suitably by 0.  Sums, differences and everything else
are those of `neo::scalar_complex` in `Model/AnyArith.lean`.
-/

namespace Neo

open Spec

/-- `std::complex` with parts in the format `f`, `src/neo/complex/complex.hpp:17-18`. -/
@[ext] structure SC (f : Fmt) where
  re : FVal
  im : FVal

/-- The same number as `std::complex`. `src/neo/complex/complex.hpp:17-18`. -/
def IC.std {f : Fmt} (z : IC f) : SC f := ⟨z.re, z.im⟩

/-- `isinf`. Used by the product of `std::complex`, `src/neo/fft/reference/kernel/c2c_dit2.hpp:56`. -/
def isInfF : FVal → Bool
  | .inf _ => true
  | _ => false

/-- `isnan`. Used by the product of `std::complex`, `src/neo/fft/reference/kernel/c2c_dit2.hpp:56`. -/
def isNanF : FVal → Bool
  | .nan => true
  | _ => false

noncomputable section
variable {f : Fmt}

/-- `copysign(isinf(v) ? 1 : 0, v)`. Used by the product of `std::complex`,
`src/neo/fft/reference/kernel/c2c_dit2.hpp:56`. -/
def boxInf : FVal → FVal
  | .inf neg => .fin (if neg then -1 else 1)
  | _ => .fin 0

/-- `isnan(v) ? copysign(0, v) : v`. Used by the product of `std::complex`,
`src/neo/fft/reference/kernel/c2c_dit2.hpp:56`. -/
def dropNan : FVal → FVal
  | .nan => .fin 0
  | v => v

/-- The recovery step: `INFINITY * (a * c - b * d)` and `INFINITY * (a * d + b * c)` with the replaced operands.  The
assignments of the example in Annex G are merged: an infinite operand has its infinite parts replaced by ±1 and its other
parts by 0, the other operand has its NaN parts replaced by 0; so have both if only a partial product is infinite.
Used by the product of `std::complex`, `src/neo/fft/reference/kernel/c2c_dit2.hpp:56`. -/
def annexRecover (f : Fmt) (z w : SC f) : SC f :=
  let zInf := isInfF z.re || isInfF z.im
  let wInf := isInfF w.re || isInfF w.im
  let a := if zInf then boxInf z.re else dropNan z.re
  let b := if zInf then boxInf z.im else dropNan z.im
  let c := if wInf then boxInf w.re else dropNan w.re
  let d := if wInf then boxInf w.im else dropNan w.im
  ⟨f.round ((FVal.inf false).mul (f.round ((f.round (a.mul c)).sub (f.round (b.mul d))))),
    f.round ((FVal.inf false).mul (f.round ((f.round (a.mul d)).add (f.round (b.mul c)))))⟩

/-- `std::complex` product, C11 G.5.1 (`__mulsc3`, `__muldc3`).  Used at `src/neo/fft/reference/kernel/c2c_dit2.hpp:56`,
`src/neo/algorithm/multiply_add.hpp:299`. -/
def annexMul (z w : SC f) : SC f :=
  let ac := f.round (z.re.mul w.re)
  let bd := f.round (z.im.mul w.im)
  let ad := f.round (z.re.mul w.im)
  let bc := f.round (z.im.mul w.re)
  let x := f.round (ac.sub bd)
  let y := f.round (ad.add bc)
  if isNanF x && isNanF y then
    if isInfF z.re || isInfF z.im || (isInfF w.re || isInfF w.im)
        || (isInfF ac || isInfF bd || (isInfF ad || isInfF bc)) then annexRecover f z w
    else ⟨x, y⟩
  else ⟨x, y⟩

/-- Zero. `src/neo/convolution/overlap_add.hpp:26-28`. -/
instance : Zero (SC f) := ⟨⟨.fin 0, .fin 0⟩⟩
/-- Sum of the parts, each rounded. `src/neo/fft/reference/kernel/c2c_dit2.hpp:56`. -/
instance : Add (SC f) := ⟨fun a b => ⟨f.round (a.re.add b.re), f.round (a.im.add b.im)⟩⟩
/-- Difference of the parts, each rounded. `src/neo/fft/reference/kernel/c2c_dit2.hpp:57`. -/
instance : Sub (SC f) := ⟨fun a b => ⟨f.round (a.re.sub b.re), f.round (a.im.sub b.im)⟩⟩
/-- Product with recovery. `src/neo/fft/reference/kernel/c2c_dit2.hpp:56-57`. -/
instance : Mul (SC f) := ⟨annexMul⟩

/-- The other operations, as in `ieeeArith`.
`src/neo/fft/twiddle.hpp:17-29`; `src/neo/math/conj.hpp:23-41`; `src/neo/convolution/overlap_add.hpp:100`. -/
def stdArith (f : Fmt) (tw : ℕ → ℕ → Direction → IC f) : Arith (IR f) (SC f) where
  ofReal x := ⟨x.val, .fin 0⟩
  conj z := ⟨z.re, z.im.neg⟩
  realPart z := ⟨z.re⟩
  invSize n := ⟨f.round (FVal.div (.fin 1) (f.round (.fin n)))⟩
  twiddle n i dir := (tw n i dir).std

end

end Neo
