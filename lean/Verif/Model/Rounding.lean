import Verif.Model.Fft2

/-!
# Model: rounded arithmetic and the radix-2 plan that uses it

The other models compute with exact numbers.  Here `float`/`double` is a set of reals with a rounding after every
operation: the result of an operation is the exact result times `1 + δ` with `|δ| ≤ u` (the standard model of
floating-point arithmetic; overflow, underflow and fused multiply-add are left out).
-/

namespace Neo

/-- Floating-point arithmetic of one format together with the mathematical library used by the twiddle tables.
`u` is the unit roundoff and `ε` the absolute error of the library's `cos` and `sin`.
`src/neo/fft/twiddle.hpp:17-29`; `src/neo/complex/scalar_complex.hpp:35-57`. -/
structure Rounding where
  rnd : ℝ → ℝ
  u : ℝ
  u_nonneg : 0 ≤ u
  u_lt_one : u < 1
  rnd_err : ∀ x, |rnd x - x| ≤ u * |x|
  /-- `static_cast<Float>(std::numbers::pi * 2.0)` -/
  twoPi : ℝ
  twoPi_err : |twoPi - 2 * Real.pi| ≤ u * (2 * Real.pi)
  cos : ℝ → ℝ
  sin : ℝ → ℝ
  ε : ℝ
  cos_err : ∀ x, |cos x - Real.cos x| ≤ ε
  sin_err : ∀ x, |sin x - Real.sin x| ≤ ε

/-- `std::complex<Float>` / `scalar_complex<Float>`, `src/neo/complex/scalar_complex.hpp:15-17`. -/
structure FC (F : Rounding) where
  re : ℝ
  im : ℝ

namespace FC
variable {F : Rounding}

/-- The complex number represented. `src/neo/complex/scalar_complex.hpp:15-17`. -/
def val (z : FC F) : ℂ := ⟨z.re, z.im⟩

/-- `operator+`, `src/neo/complex/scalar_complex.hpp:35-41`. -/
instance : Add (FC F) := ⟨fun a b => ⟨F.rnd (a.re + b.re), F.rnd (a.im + b.im)⟩⟩

/-- `operator-`, `src/neo/complex/scalar_complex.hpp:43-49`. -/
instance : Sub (FC F) := ⟨fun a b => ⟨F.rnd (a.re - b.re), F.rnd (a.im - b.im)⟩⟩

/-- `operator*`, `src/neo/complex/scalar_complex.hpp:51-57`: four products, one difference, one sum, each
rounded. -/
instance : Mul (FC F) := ⟨fun a b =>
  ⟨F.rnd (F.rnd (a.re * b.re) - F.rnd (a.im * b.im)), F.rnd (F.rnd (a.re * b.im) + F.rnd (a.im * b.re))⟩⟩

end FC

/-- `neo::fft::twiddle`, `src/neo/fft/twiddle.hpp:17-29`, every conversion and operation rounded;
`std::polar(1, angle)` is `(1 * cos(angle), 1 * sin(angle))`. -/
noncomputable def twiddleF (F : Rounding) (size index : ℕ) (dir : Direction) : FC F :=
  let sign : ℝ := if dir = .forward then -1 else 1
  let angle := F.rnd (F.rnd (F.rnd (sign * F.twoPi) * F.rnd index) / F.rnd size)
  ⟨F.rnd (1 * F.cos angle), F.rnd (1 * F.sin angle)⟩

/-- `make_twiddle_lut_radix2` and `fill_twiddle_lut_radix2`, `src/neo/fft/twiddle.hpp:32-52`, rounded. -/
noncomputable def makeTwiddleLutRadix2F (F : Rounding) (size : ℕ) (dir : Direction) : List (FC F) :=
  (List.range (size / 2)).map (fun i => twiddleF F (size / 2 * 2) i dir)

/-- `c2c_dit2_plan` constructor, `src/neo/fft/reference/c2c_dit2_plan.hpp:42-55`, rounded. -/
noncomputable def Dit2Plan.makeF (F : Rounding) (order : ℕ) : Res (Dit2Plan (FC F)) := do
  let order ← dit2CheckOrder order
  let size := fftSize order
  let reorder ← bitrevMake (1 <<< order)
  pure {
    order := order
    size := size
    reorder := reorder
    wf := makeTwiddleLutRadix2F F size .forward
    wb := makeTwiddleLutRadix2F F size .backward }

end Neo
