import Verif.Model.TwiddleIeee

/-!
# Model: the naive `dft` in IEEE 754 arithmetic

`std::complex<Float>` on the values of a binary format, with the products of Annex G; `std::cos` and `std::sin` are arguments.
-/

namespace Neo

open Spec

noncomputable section

/-- `sign * two_pi * Float(n) * Float(k) / Float(size)`, `src/neo/fft/dft.hpp:43-45,52`. -/
def dftAngleI (f : Fmt) (size n k : ℕ) (dir : Direction) : FVal :=
  let sign : FVal := if dir = .forward then .fin (-1) else .fin 1
  f.round ((f.round ((f.round ((f.round (sign.mul (twoPiI f))).mul (ofNat f n))).mul (ofNat f k))).div (ofNat f size))

/-- `neo::fft::dft(in, out, dir)`, `src/neo/fft/dft.hpp:34-57` (`in` and `out` are distinct buffers). -/
def naiveDftI {f : Fmt} (cos sin : FVal → FVal) (input output : List (SC f)) (dir : Direction) : Res (List (SC f)) := do
  check (input.length = output.length)
  let size := input.length
  forN size (fun k out => do
    let tmp ← forN size (fun n tmp => do
      let v ← rd input n
      let w : SC f := (polarI f cos sin (.fin 1) (dftAngleI f size n k dir)).std
      pure (tmp + v * w)) (0 : SC f)
    wr out k tmp) output

end

end Neo
