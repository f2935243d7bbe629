import Verif.Model.UnitsIeee

/-!
# Model: the A-weighting in IEEE 754 arithmetic

`a_weighting` on the values of a binary format: every operation is the exact one followed by rounding to nearest.  Products
and sums are not fused.  The function `std::log10` is an argument.
-/

namespace Neo

open Spec

noncomputable section

/-- The table of squared constants, `src/neo/math/a_weighting.hpp:16-22`: the literals are doubles. -/
def aWeightConstI (f : Fmt) (x : ℝ) : FVal :=
  let v := ofDouble f x
  f.round (v.mul v)

/-- `a_weighting`, `src/neo/math/a_weighting.hpp:14-34`.  Simplified: `Float(2)` and `Float(0.5)` are taken to be exact, they are
powers of two. -/
def aWeightingI (f : Fmt) (log10 : FVal → FVal) (frequency : FVal) : FVal :=
  let c0 := aWeightConstI f 12194.217
  let c1 := aWeightConstI f 20.598997
  let c2 := aWeightConstI f 107.65265
  let c3 := aWeightConstI f 737.86223
  let fsq := f.round (frequency.mul frequency)
  let s1 := f.round ((log10 c0).add (f.round ((FVal.fin 2).mul (log10 fsq))))
  let s2 := f.round (s1.sub (log10 (f.round (fsq.add c0))))
  let s3 := f.round (s2.sub (log10 (f.round (fsq.add c1))))
  let s4 := f.round (s3.sub (f.round ((FVal.fin 0.5).mul (log10 (f.round (fsq.add c2))))))
  let s5 := f.round (s4.sub (f.round ((FVal.fin 0.5).mul (log10 (f.round (fsq.add c3))))))
  f.round ((FVal.fin 2).add (f.round ((ofNat f 20).mul s5)))

end

end Neo
