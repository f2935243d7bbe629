import Verif.Model.Fft2

/-! # Model: the naive `neo::fft::dft(in, out, dir)` -/

namespace Neo

/-- `neo::fft::dft(in, out, dir)`, `src/neo/fft/dft.hpp:34-57`
(`in` and `out` are distinct buffers; `Float` arithmetic is exact). -/
noncomputable def naiveDft (input output : List ℂ) (dir : Direction) : Res (List ℂ) := do
  check (input.length = output.length)
  let twoPi : ℝ := Real.pi * 2
  let sign : ℝ := if dir = .forward then -1 else 1
  let size := input.length
  forN size (fun k out => do
    let tmp ← forN size (fun n tmp => do
      let v ← rd input n
      let w := polar 1 (sign * twoPi * (n : ℝ) * (k : ℝ) / (size : ℝ))
      pure (tmp + v * w)) (0 : ℂ)
    wr out k tmp) output

end Neo
