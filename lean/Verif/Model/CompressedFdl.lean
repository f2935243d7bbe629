import Verif.Model.Fixed
import Verif.Model.Units

/-!
# Model: `compressed_fdl` and `compressed_accessor`

Floats are real numbers, except that the conversion of the largest integer to a float type is modelled
with its rounding, because it matters for 32-bit storage.  The storage is a row-major matrix of pairs
of machine integers.
-/

namespace Neo

noncomputable section

/-- `std::lround`: nearest integer, halves away from zero.
`src/neo/convolution/compressed_fdl.hpp:41`. -/
def lroundR (x : ℝ) : ℤ := if 0 ≤ x then ⌊x + 1 / 2⌋ else ⌈x - 1 / 2⌉

/-- `static_cast<Float>(std::numeric_limits<T>::max())` for a binary float with `p` significand bits
(24 for `float`, 53 for `double`): `2^k - 1` is exact up to `k = p` and rounds to `2^k` above.
`src/neo/convolution/compressed_fdl.hpp:40-41`; `src/neo/container/compressed_accessor.hpp:30-31,37-38`. -/
def maxAsFloat (p : ℕ) (t : IntT) : ℝ := if t.width - 1 ≤ p then (t.max : ℝ) else 2 ^ (t.width - 1)

/-- The lambda `compress`, `src/neo/convolution/compressed_fdl.hpp:38-42`: `lround` is undefined
outside the range of `long` (64 bits), the cast to the storage type wraps. -/
def compress (t : IntT) (val : ℝ) : Res ℤ :=
  let r := lroundR (val * maxAsFloat 24 t)
  if i64.Fits r then .ok (t.conv r) else .error .overflow

/-- `compressed_fdl`: the member `_fdl`, `src/neo/convolution/compressed_fdl.hpp:50-51`. -/
structure CFdl where
  rows : ℕ
  cols : ℕ
  data : List (ℤ × ℤ)

/-- The constructor, `src/neo/convolution/compressed_fdl.hpp:24`. -/
def CFdl.make (rows cols : ℕ) : CFdl := ⟨rows, cols, List.replicate (rows * cols) (0, 0)⟩

/-- `compressed_fdl::insert`, `src/neo/convolution/compressed_fdl.hpp:36-48`.  The row is a span of
`cols` elements. -/
def CFdl.insert (t : IntT) (s : CFdl) (input : List ℂ) (index : ℕ) : Res CFdl :=
  if index < s.rows then do
    let d ← forU32 input.length (fun i d => do
      let z ← rd input i
      let re ← compress t z.re
      let im ← compress t z.im
      if i < s.cols then wr d (index * s.cols + i) (re, im) else .error .oob) s.data
    pure { s with data := d }
  else .error .oob

/-- `compressed_accessor::access` for complex elements whose scalar type has `p` significand bits,
`src/neo/container/compressed_accessor.hpp:25-46`. -/
def decompress (p : ℕ) (t : IntT) (v : ℤ × ℤ) : ℂ :=
  let invScale := 1 / maxAsFloat p t
  ⟨v.1 * invScale, v.2 * invScale⟩

/-- Element `i` of `fdl[index]`: `compressed_fdl::operator[]`,
`src/neo/convolution/compressed_fdl.hpp:26-34`. -/
def CFdl.get (p : ℕ) (t : IntT) (s : CFdl) (index i : ℕ) : Res ℂ :=
  if index < s.rows ∧ i < s.cols then do
    let v ← rd s.data (index * s.cols + i)
    pure (decompress p t v)
  else .error .oob

end

end Neo
